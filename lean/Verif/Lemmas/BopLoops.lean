import Verif.Lemmas.BopSort
import Verif.Props.Bops

/-! # The two loops of `Op::sweep` over a sorted batch -/
set_option linter.unusedSectionVars false
namespace GeoCrossings
open Spec BoolOp

variable {K : Type} [Field K] [LinearOrder K] [IsStrictOrderedRing K]

/-- The region after crossing all these edges. -/
def crossAll (isFirst : Nat → Bool) (r : Region) (cs : List Nat) : Region := cs.foldl (fun r c => r.cross (isFirst c)) r

theorem cross_comm (r : Region) (a b : Bool) : (r.cross a).cross b = (r.cross b).cross a := by
  cases a <;> cases b <;> rfl

section
variable {isFirst : Nat → Bool}

theorem crossAll_append (r : Region) (a b : List Nat) : crossAll isFirst r (a ++ b) = crossAll isFirst (crossAll isFirst r a) b := by
  simp [crossAll]

theorem crossAll_eq (r : Region) (cs : List Nat) : crossAll isFirst r cs =
    ⟨r.isFirst ^^ oddly true (cs.map isFirst), r.isSecond ^^ oddly false (cs.map isFirst)⟩ := by
  rw [← cross_fold, List.foldl_map]; rfl

theorem crossAll_perm (r : Region) {a b : List Nat} (h : a.Perm b) : crossAll isFirst r a = crossAll isFirst r b := by
  rw [crossAll_eq, crossAll_eq]
  unfold oddly
  rw [(h.map isFirst).count_eq, (h.map isFirst).count_eq]

theorem crossAll_twice (r : Region) (a : List Nat) : crossAll isFirst (crossAll isFirst r a) a = r := by
  rw [crossAll_eq (crossAll isFirst r a), crossAll_eq]; simp

/-- Edges of even number for both operands do not matter. -/
theorem crossAll_even (r : Region) {a b : List Nat} (h : ∀ f, Even ((a ++ b).countP fun c => isFirst c = f)) :
    crossAll isFirst r a = crossAll isFirst r b := by
  have : ∀ f, oddly f (a.map isFirst) = oddly f (b.map isFirst) := by
    intro f
    unfold oddly
    have e : ∀ l : List Nat, (l.map isFirst).count f = l.countP fun c => isFirst c = f := by
      intro l
      rw [List.count, List.countP_map]
      exact List.countP_congr fun c _ => by simp
    rw [e, e]
    have := h f
    rw [List.countP_append] at this
    by_cases k : (a.countP fun c => isFirst c = f) % 2 = 1 <;> by_cases k' : (b.countP fun c => isFirst c = f) % 2 = 1 <;>
      simp only [k, k'] <;> exfalso <;> rw [Nat.even_iff] at this <;> omega
  rw [crossAll_eq, crossAll_eq, this, this]

end

/-- What an edge between the regions `below` and `above` contributes to the result. -/
def emit (ty : OpType) (below above : Region) (g : LineOrPoint K) : List (LineOrPoint K × Winding) :=
  if above.isTy ty ^^ below.isTy ty then [(g, if !below.isTy ty then .counterClockwise else .clockwise)] else []

/-- The contributions of the groups above the region `r`, the uppermost first. -/
def emits (ty : OpType) (isFirst : Nat → Bool) : Region → List (Grp K Nat) → List (LineOrPoint K × Winding)
  | _, [] => []
  | r, g :: gs =>
    let r' := crossAll isFirst r g.cs
    emits ty isFirst r' gs ++ emit ty r r' g.geom

def addAll (dbg : Bool) (es : List (LineOrPoint K × Winding)) (rings : Rings K) : Option (Rings K) :=
  es.foldlM (fun r e => r.addEdgeD dbg e.1 e.2) rings

theorem addEdgeD_false (r : Rings K) (g : LineOrPoint K) (w : Winding) : r.addEdgeD false g w = r.addEdge g w := by
  simp [Rings.addEdgeD]

theorem addAll_false (es : List (LineOrPoint K × Winding)) (rings : Rings K) :
    addAll false es rings = es.foldlM (fun r e => r.addEdge e.1 e.2) rings := by
  simp [addAll, addEdgeD_false]

theorem addAll_append {dbg : Bool} (a b : List (LineOrPoint K × Winding)) (rings : Rings K) :
    addAll dbg (a ++ b) rings = (addAll dbg a rings).bind (addAll dbg b) := by
  unfold addAll; rw [List.foldlM_append]; rfl

section loops
variable {dbg : Bool} {ty : OpType} {geom : Nat → LineOrPoint K} {isFirst : Nat → Bool} {cells : Cells}

theorem endLoop_block {R : Region} {gm : LineOrPoint K} {rest : List (Crossing K Nat)} :
    ∀ {t : List (Crossing K Nat)} {next : Option Region} {rings : Rings K}, t ≠ [] →
    (∀ c ∈ t, c.atLeft = false ∧ c.line = gm ∧ getRegion geom cells c.crossable gm = R) →
    (∀ a ∈ t, ∀ b ∈ t, compareCrossings a b = some .eq) →
    (∀ a ∈ t, ∀ b ∈ rest.head?, compareCrossings a b = some .lt) →
    endLoop dbg ty geom isFirst cells (t ++ rest) next rings =
      (addAll dbg (emit ty (crossAll isFirst (next.getD R) (t.map (·.crossable))) R gm) rings).bind
        fun rings => endLoop dbg ty geom isFirst cells rest none rings := by
  intro t
  induction t with
  | nil => intro _ _ h; exact absurd rfl h
  | cons c t ih =>
    intro next rings _ hall heq hlt
    obtain ⟨c1, c2, c3⟩ := hall c (by simp)
    rw [List.cons_append, endLoop, c1]
    simp only [Bool.false_eq_true, if_false, c2, c3]
    cases t with
    | nil =>
      have ho : hasOverlap c ([] ++ rest) = some false := by
        cases rest with
        | nil => rfl
        | cons d rest => simp [hasOverlap, hlt c (by simp) d (by simp)]
      rw [ho]
      simp only [List.nil_append, List.map_cons, List.map_nil, crossAll, List.foldl_cons, List.foldl_nil, emit]
      split
      · rename_i k
        simp only [addAll, List.foldlM_cons, List.foldlM_nil]
        cases rings.addEdgeD dbg gm _ <;> rfl
      · rename_i k
        simp [addAll]
    | cons d t =>
      have ho : hasOverlap c (d :: t ++ rest) = some true := by
        simp [hasOverlap, heq c (by simp) d (by simp)]
      rw [ho]
      simp only
      rw [ih (by simp) (fun x hx => hall x (by simp only [List.mem_cons] at hx ⊢; tauto))
        (fun a ha b hb => heq a (by simp only [List.mem_cons] at ha ⊢; tauto) b (by simp only [List.mem_cons] at hb ⊢; tauto))
        (fun a ha b hb => hlt a (by simp only [List.mem_cons] at ha ⊢; tauto) b hb)]
      simp [crossAll]

/-- The loop over the ending segments. `E` is listed from bottom to top. -/
theorem endLoop_blocks {rest : List (Crossing K Nat)} (hrest : ∀ c ∈ rest.head?, c.atLeft = true) :
    ∀ {Er : List (Grp K Nat)} {RE : List (List (Crossing K Nat))} {rings : Rings K} {r : Region},
    List.Forall₂ EBlk Er RE → (∀ t ∈ RE, t ≠ []) →
    (∀ s ∈ RE, ∀ a ∈ s, ∀ b ∈ s, compareCrossings a b = some .eq) →
    RE.Pairwise (fun s r => ∀ a ∈ s, ∀ b ∈ r, compareCrossings a b = some .lt ∧ compareCrossings b a = some .gt) →
    (∀ L g R, Er.reverse = L ++ g :: R → ∀ c ∈ g.cs, getRegion geom cells c g.geom = crossAll isFirst r ((L ++ [g]).flatMap Grp.cs)) →
    endLoop dbg ty geom isFirst cells (RE.flatten ++ rest) none rings =
      (addAll dbg (emits ty isFirst r Er.reverse) rings).bind fun rings => some (rings, rest) := by
  intro Er
  induction Er with
  | nil =>
    intro RE rings r hB _ _ _ _
    cases hB
    cases rest with
    | nil => simp [endLoop, emits, addAll]
    | cons c rest =>
      have := hrest c (by simp)
      simp [endLoop, emits, addAll, this]
  | cons g Er ih =>
    intro RE rings r hB hne heq hlt hreg
    cases hB with
    | @cons _ t _ RE hg hB =>
      rw [List.pairwise_cons] at hlt
      rw [List.flatten_cons, List.append_assoc]
      have hgr : ∀ c ∈ g.cs, getRegion geom cells c g.geom = crossAll isFirst r ((Er.reverse ++ [g]).flatMap Grp.cs) :=
        hreg Er.reverse g [] (by simp)
      rw [endLoop_block (gm := g.geom) (R := crossAll isFirst r ((Er.reverse ++ [g]).flatMap Grp.cs)) (hne t (by simp))]
      · have em : ∀ (l : List (Grp K Nat)) (r : Region), emits ty isFirst r (l ++ [g]) =
            emit ty (crossAll isFirst r (l.flatMap Grp.cs)) (crossAll isFirst r ((l ++ [g]).flatMap Grp.cs)) g.geom ++ emits ty isFirst r l := by
          intro l
          induction l with
          | nil => intro r; simp [emits, crossAll]
          | cons x l ihl =>
            intro r
            rw [List.cons_append, emits, ihl, emits]
            simp only [List.flatMap_cons, List.append_assoc, crossAll_append]
        have hz : crossAll isFirst (crossAll isFirst r ((Er.reverse ++ [g]).flatMap Grp.cs)) (t.map (·.crossable)) =
            crossAll isFirst r (Er.reverse.flatMap Grp.cs) := by
          rw [crossAll_perm _ hg.cs, List.flatMap_append, List.flatMap_cons, List.flatMap_nil, List.append_nil, crossAll_append,
            crossAll_twice]
        rw [List.reverse_cons, em, addAll_append]
        simp only [Option.getD_none]
        rw [hz]
        cases addAll dbg (emit ty (crossAll isFirst r (Er.reverse.flatMap Grp.cs)) (crossAll isFirst r ((Er.reverse ++ [g]).flatMap Grp.cs)) g.geom)
          rings with
        | none => rfl
        | some rings' =>
          simp only [Option.bind_some]
          refine ih hB (fun t ht => hne t (by simp [ht])) (fun s hs => heq s (by simp [hs])) hlt.2 ?_
          intro L g' R hL
          exact hreg L g' (R ++ [g]) (by simp [hL])
      · intro c hc
        refine ⟨(hg.all c hc).1, (hg.all c hc).2, hgr _ ?_⟩
        exact hg.cs.mem_iff.1 (List.mem_map_of_mem hc)
      · exact heq t (by simp)
      · intro a ha b hb
        cases RE with
        | nil =>
          simp only [List.flatten_nil, List.nil_append] at hb
          unfold compareCrossings
          rw [(hg.all a ha).1, hrest b hb]
        | cons s RE =>
          have hs := hne s (by simp)
          cases s with
          | nil => exact absurd rfl hs
          | cons b' s =>
            simp only [List.flatten_cons, List.cons_append, List.head?_cons, Option.mem_some_iff] at hb
            subst hb
            exact (hlt.1 (b' :: s) (by simp) a ha b' (by simp)).1

theorem fold_set (region : Region) : ∀ (t : List (Crossing K Nat)) (cells : Cells), (∀ c ∈ t, c.line.first < (geom c.crossable).second) →
    t.foldl (fun cells d => setRegion geom cells d.crossable d.line region) cells =
      fun j => if j ∈ t.map (·.crossable) then (region, (cells j).2) else cells j := by
  intro t
  induction t with
  | nil => intro cells _; funext j; simp
  | cons c t ih =>
    intro cells h
    rw [List.foldl_cons, ih _ fun d hd => h d (by simp [hd])]
    funext j
    simp only [List.map_cons, List.mem_cons, setRegion, if_pos (h c (by simp))]
    by_cases k : j = c.crossable
    · subst k; simp
    · simp [k]

theorem startLoop_block {rest : List (Crossing K Nat)} :
    ∀ {t : List (Crossing K Nat)} {region : Region} {group : List (Crossing K Nat)} {cells : Cells}, t ≠ [] →
    (∀ a ∈ t, ∀ b ∈ t, compareCrossings a b = some .eq) →
    (∀ a ∈ t, ∀ b ∈ rest.head?, compareCrossings a b = some .lt) →
    startLoop geom isFirst (t ++ rest) region group cells =
      startLoop geom isFirst rest (crossAll isFirst region (t.map (·.crossable))) []
        ((group ++ t).foldl (fun cells d => setRegion geom cells d.crossable d.line (crossAll isFirst region (t.map (·.crossable)))) cells) := by
  intro t
  induction t with
  | nil => intro _ _ _ h; exact absurd rfl h
  | cons c t ih =>
    intro region group cells _ heq hlt
    rw [List.cons_append, startLoop]
    cases t with
    | nil =>
      have ho : hasOverlap c ([] ++ rest) = some false := by
        cases rest with
        | nil => rfl
        | cons d rest => simp [hasOverlap, hlt c (by simp) d (by simp)]
      simp only [ho]
      rfl
    | cons d t =>
      have ho : hasOverlap c (d :: t ++ rest) = some true := by
        simp [hasOverlap, heq c (by simp) d (by simp)]
      simp only [ho]
      rw [ih (by simp)
        (fun a ha b hb => heq a (by simp only [List.mem_cons] at ha ⊢; tauto) b (by simp only [List.mem_cons] at hb ⊢; tauto))
        (fun a ha b hb => hlt a (by simp only [List.mem_cons] at ha ⊢; tauto) b hb)]
      simp [crossAll]

theorem startLoop_blocks : ∀ {S : List (Grp K Nat)} {pt : Pt K} {RS : List (List (Crossing K Nat))} {region : Region} {cells : Cells},
    List.Forall₂ (SBlk pt) S RS → (∀ t ∈ RS, t ≠ []) →
    (∀ s ∈ RS, ∀ a ∈ s, ∀ b ∈ s, compareCrossings a b = some .eq) →
    RS.Pairwise (fun s r => ∀ a ∈ s, ∀ b ∈ r, compareCrossings a b = some .lt ∧ compareCrossings b a = some .gt) →
    (∀ g ∈ S, ∀ c ∈ g.cs, pt < (geom c).second) → (S.flatMap Grp.cs).Nodup →
    ∃ cells', startLoop geom isFirst RS.flatten region [] cells = some cells' ∧ (∀ c, c ∉ S.flatMap Grp.cs → cells' c = cells c) ∧
      ∀ L g R, S = L ++ g :: R → ∀ c ∈ g.cs, (cells' c).1 = crossAll isFirst region ((L ++ [g]).flatMap Grp.cs) := by
  intro S
  induction S with
  | nil =>
    intro pt RS region cells h _ _ _ _ _
    cases h
    exact ⟨cells, by simp [startLoop], by simp, by simp⟩
  | cons g S ih =>
    intro pt RS region cells hB hne heq hlt hpt hnd
    cases hB with
    | @cons _ t _ RS hg hB =>
      rw [List.pairwise_cons] at hlt
      rw [List.flatMap_cons, List.nodup_append'] at hnd
      rw [List.flatten_cons]
      rw [startLoop_block (hne t (by simp)) (heq t (by simp))]
      · rw [List.nil_append, fold_set]
        · obtain ⟨cells', h1, h2, h3⟩ := ih (region := crossAll isFirst region (t.map (·.crossable)))
            (cells := fun j => if j ∈ t.map (·.crossable) then (crossAll isFirst region (t.map (·.crossable)), (cells j).2) else cells j)
            hB (fun t ht => hne t (by simp [ht])) (fun s hs => heq s (by simp [hs])) hlt.2
            (fun g' hg' => hpt g' (by simp [hg'])) hnd.2.1
          refine ⟨cells', h1, ?_, ?_⟩
          · intro c hc
            rw [List.flatMap_cons, List.mem_append, not_or] at hc
            rw [h2 c hc.2, if_neg (fun hm => hc.1 (hg.cs.mem_iff.1 hm))]
          · intro L g' R hL c hc
            cases L with
            | nil =>
              simp only [List.nil_append, List.cons.injEq] at hL
              obtain ⟨rfl, rfl⟩ := hL
              rw [h2 c (fun hm => hnd.2.2 hc hm), if_pos (hg.cs.mem_iff.2 hc)]
              simp only [List.nil_append, List.flatMap_cons, List.flatMap_nil, List.append_nil]
              exact crossAll_perm _ hg.cs
            | cons x L =>
              simp only [List.cons_append, List.cons.injEq] at hL
              obtain ⟨rfl, rfl⟩ := hL
              rw [h3 L g' R rfl c hc, List.cons_append, List.flatMap_cons, crossAll_append, crossAll_perm _ hg.cs]
        · intro c hc
          obtain ⟨-, b, hb, -⟩ := hg.all c hc
          rw [hb]
          exact hpt g (by simp) _ (hg.cs.mem_iff.1 (List.mem_map_of_mem hc))
      · intro a ha b hb
        cases RS with
        | nil => simp at hb
        | cons s RS =>
          have hs := hne s (by simp)
          cases s with
          | nil => exact absurd rfl hs
          | cons b' s =>
            simp only [List.flatten_cons, List.cons_append, List.head?_cons, Option.mem_some_iff] at hb
            subst hb
            exact (hlt.1 (b' :: s) (by simp) a ha b' (by simp)).1

end loops

end GeoCrossings
