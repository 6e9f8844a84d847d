import Verif.Spec.BopEdges
import Verif.Props.BopSweep
import Verif.Props.Deterministic

/-! # The edges that a run of `Op::sweep` adds, in terms of the input -/
set_option linter.unusedSectionVars false
namespace GeoCrossings
open Spec BoolOp

variable {K : Type} [Field K] [LinearOrder K] [IsStrictOrderedRing K]

theorem det_sub_pos {p q a b : Pt K} (hpq : p < q) (ha : OnSeg p q a) (hb : OnSeg p q b) (hab : a < b) :
    ∃ k : K, 0 < k ∧ ∀ r, det a b r = k * det p q r := by
  obtain ⟨s, hs0, hs1, ax, ay⟩ := ha
  obtain ⟨t, ht0, ht1, bx, b_y⟩ := hb
  refine ⟨t - s, ?_, fun r => by unfold det; rw [ax, ay, bx, b_y]; ring⟩
  by_contra k
  have k : 0 ≤ s - t := by linarith [not_lt.1 k]
  have hx := Pt.x_le_of_le hpq.le
  have hx' := Pt.x_le_of_le hab.le
  rcases hx.lt_or_eq with hx | hx
  · have h1 : b.x ≤ a.x := by rw [ax, bx]; nlinarith
    have h2 : s = t := by
      have : (s - t) * (q.x - p.x) = 0 := by
        have := le_antisymm hx' h1
        rw [ax, bx] at this; linarith
      rcases mul_eq_zero.1 this with h | h
      · linarith
      · linarith
    subst h2
    exact hab.ne (Pt.ext' (by rw [ax, bx]) (by rw [ay, b_y]))
  · have hy : p.y < q.y := by
      rcases Pt.lt_def.1 hpq with h | h
      · exact absurd hx h.ne
      · exact h.2
    have h0 : a.x = b.x := by rw [ax, bx, hx]; ring
    have hy' : a.y < b.y := by
      rcases Pt.lt_def.1 hab with h | h
      · exact absurd h0 h.ne
      · exact h.2
    rw [ay, b_y] at hy'
    nlinarith

theorem consecutive_at (r : Pt K) : ∀ {l : List (Pt K × Pt K)} {p q : Pt K}, Consecutive p q l →
    l.countP (fun ab => ab.1 < r ∧ r ≤ ab.2) = if p < r ∧ r ≤ q then 1 else 0
  | [], p, q, h => by
    have h : p = q := h
    subst h
    rw [if_neg (fun k => absurd k.1 (not_lt.2 k.2))]; rfl
  | (a, b) :: l, p, q, h => by
    obtain ⟨rfl, h1, h2⟩ := h
    have hle : ∀ {p q : Pt K} {l : List (Pt K × Pt K)}, Consecutive p q l → p ≤ q := by
      intro p q l h
      induction l generalizing p with
      | nil => exact le_of_eq h
      | cons x l ih => obtain ⟨a, b⟩ := x; obtain ⟨rfl, h1, h2⟩ := h; exact h1.le.trans (ih h2)
    have hbq := hle h2
    rw [List.countP_cons, consecutive_at r h2]
    by_cases k1 : a < r <;> by_cases k2 : r ≤ b
    · simp [k1, k2, k2.trans hbq, not_lt.2 k2]
    · simp [k1, k2, not_le.1 k2]
    · simp [k1, k2, not_lt.2 k2]
    · have : ¬ b < r := fun h => k1 (h1.trans h)
      simp [k1, k2, this]

/-- As many pieces end at `r`, or pass it, as lines do. -/
theorem Tiled.at {C : Type} {lineOf : C → Line K} {cs : List C} {tri : List (C × Pt K × Pt K)} (h : Tiled lineOf cs tri) (P : C → Bool) (r : Pt K) :
    tri.countP (fun t => P t.1 && decide (t.2.1 < r ∧ r ≤ t.2.2)) =
      cs.countP fun c => P c && decide (lo (lineOf c) < r ∧ r ≤ hi (lineOf c)) := by
  obtain ⟨tl, rfl, h2, h3⟩ := h
  rw [h3.countP_eq]
  clear h3
  induction tl with
  | nil => simp
  | cons e tl ih =>
    rw [List.flatMap_cons, List.countP_append, List.map_cons, List.countP_cons, ih (fun e he => h2 e (by simp [he])), Nat.add_comm]
    congr 1
    rw [List.countP_map]
    by_cases hp : P e.1 = true
    · simp only [hp, Function.comp_def, Bool.true_and, decide_eq_true_eq]
      exact consecutive_at r (h2 e (by simp))
    · simp [hp, Function.comp_def]

theorem lt_end_iff {p p' q : Pt K} : Lt p q p' q ↔ 0 < det p q p' := by
  unfold Lt
  constructor
  · rintro (⟨-, h | h⟩ | ⟨-, h | h⟩)
    · exact h
    · rw [det_right] at h; exact absurd h.2 (lt_irrefl _)
    · have : det p' q p = - det p q p' := by unfold det; ring
      rw [this] at h; linarith
    · rw [det_right] at h; exact absurd h.2 (lt_irrefl _)
  · intro h
    rcases le_or_gt p p' with k | k
    · exact .inl ⟨k, .inl h⟩
    · refine .inr ⟨k, .inl ?_⟩
      have : det p' q p = - det p q p' := by unfold det; ring
      rw [this]; linarith

variable {ty : OpType} {geom : Nat → LineOrPoint K} {isFirst : Nat → Bool} {org : Nat → Pt K} {input : List Nat}

/-- The edges, as the specification has them. -/
def plainEdges (geom : Nat → LineOrPoint K) (isFirst : Nat → Bool) (input : List Nat) : List (Bool × Pt K × Pt K) :=
  input.map fun c => (isFirst c, (geom c).first, (geom c).second)

/-- Which contributions are made by the groups. -/
theorem mem_emits_iff {e : LineOrPoint K × Winding} {l : List (Grp K Nat)} : ∀ {R}, e ∈ emits ty isFirst R l ↔
    ∃ l1 g l2, l = l1 ++ g :: l2 ∧
      e ∈ emit ty (crossAll isFirst R (l1.flatMap Grp.cs)) (crossAll isFirst R ((l1 ++ [g]).flatMap Grp.cs)) g.geom := by
  induction l with
  | nil => intro R; simp [emits]
  | cons g l ih =>
    intro R
    simp only [emits, List.mem_append, ih]
    constructor
    · rintro (⟨l1, g', l2, rfl, h⟩ | h)
      · exact ⟨g :: l1, g', l2, rfl, by simpa [crossAll_append] using h⟩
      · exact ⟨[], g, l, rfl, by simpa [crossAll] using h⟩
    · rintro ⟨l1, g', l2, h1, h2⟩
      cases l1 with
      | nil =>
        simp only [List.nil_append, List.cons.injEq] at h1
        obtain ⟨rfl, rfl⟩ := h1
        exact .inr (by simpa [crossAll] using h2)
      | cons x l1 =>
        simp only [List.cons_append, List.cons.injEq] at h1
        obtain ⟨rfl, rfl⟩ := h1
        exact .inl ⟨l1, g', l2, rfl, by simpa [crossAll_append] using h2⟩

/-- The regions on both sides of a group that ends are given by the numbers of input edges. -/
theorem shape_counts (he : EdgesOk geom isFirst input) {pos pt : Pt K} {st st' : Sweep K Nat} {X X' : Abs K Nat}
    (h : Full org (fun i => (geom i).toLine) input pos st X) (hpt : pos < pt)
    (h' : Full org (fun i => (geom i).toLine) input pt st' X') (hgt' : ∀ e ∈ X'.E, pt < e.point)
    {out : Out K Nat} {L0 E0 U0 L E U S D1 : List (Grp K Nat)} {T : List (Out K Nat)}
    (hs : Shape pt X X' out L0 E0 U0 L E U S D1 T) {l1 l2 : List (Grp K Nat)} {g : Grp K Nat} (hE : E = l1 ++ g :: l2) (f : Bool) :
    ((L ++ l1).flatMap Grp.cs).countP (fun c => isFirst c = f) = edgesBelowOf (plainEdges geom isFirst input) f g.p g.q ∧
    g.cs.countP (fun c => isFirst c = f) = edgesAlongOf (plainEdges geom isFirst input) f g.p g.q := by
  have hgE : g ∈ E := by rw [hE]; simp
  have hgq := (hs.endE g hgE).2
  have hP : ∀ g ∈ X'.P, pt < g.p := by
    intro g hg
    have := (List.mem_filter.1 (h'.inv.core.evL.mem_iff.2 (List.mem_map_of_mem hg))).1
    exact hgt' _ this
  have hD : ∀ g ∈ X.D, g.q < pt := fun g hg => (h.hist.Dq g hg).trans_lt hpt
  have hD1 : ∀ g ∈ D1, g.q = pt ∧ g.p < pt := by
    intro g hg
    have := hs.endE g (hs.en.mem_iff.1 hg)
    exact ⟨this.2, this.2 ▸ this.1.2⟩
  have hpc : X'.pieces = X.D ++ D1 ++ (L ++ S ++ U) ++ X'.P := by
    unfold Abs.pieces; rw [hs.dn, hs.after, h'.inv.S, List.append_nil]
  have hfl : X'.pieces.filter (fun g => decide (g.p < pt ∧ pt ≤ g.q)) = D1 ++ (L ++ U) := by
    rw [hpc]
    simp only [List.filter_append]
    rw [filter_nil' (l := X.D), filter_self' (l := D1), filter_self' (l := L),
      filter_nil' (l := S), filter_self' (l := U), filter_nil' (l := X'.P)]
    · simp
    · intro g hg k; exact absurd (of_decide_eq_true k : _ ∧ _).1 (not_lt.2 (hP g hg).le)
    · intro g hg; exact decide_eq_true ⟨(hs.up g hg).1, (hs.up g hg).2.1.le⟩
    · intro g hg k; exact (of_decide_eq_true k : _ ∧ _).1.ne (hs.startS g hg).2
    · intro g hg; exact decide_eq_true ⟨(hs.low g hg).1, (hs.low g hg).2.1.le⟩
    · intro g hg; exact decide_eq_true ⟨(hD1 g hg).2, (hD1 g hg).1.ge⟩
    · intro g hg k; exact absurd (of_decide_eq_true k : _ ∧ _).2 (not_le.2 (hD g hg))
  have key : ∀ P : Nat → Bool, input.countP (fun c => P c && decide ((geom c).first < pt ∧ pt ≤ (geom c).second)) =
      (L.flatMap Grp.cs).countP P + ((l1.flatMap Grp.cs).countP P + (g.cs.countP P + (l2.flatMap Grp.cs).countP P)) + (U.flatMap Grp.cs).countP P := by
    intro P
    have t1 := h'.tiled.at P pt
    rw [he.linesOf] at t1
    have t2 := tri_countP X'.pieces P fun p q => decide (p < pt ∧ pt ≤ q)
    rw [hfl] at t2
    have e1 : input.countP (fun c => P c && decide ((geom c).first < pt ∧ pt ≤ (geom c).second)) =
        input.countP fun c => P c && decide (lo (geom c).toLine < pt ∧ pt ≤ hi (geom c).toLine) := by
      refine List.countP_congr fun c hc => ?_
      rw [(he.ends hc).1, (he.ends hc).2.1]
    rw [e1, ← t1, t2, List.flatMap_append, List.countP_append, List.flatMap_append, List.countP_append, (hs.en.flatMap_right Grp.cs).countP_eq, hE,
      List.flatMap_append, List.countP_append, List.flatMap_cons, List.countP_append]
    omega
  -- the position of the edge of a piece
  have hsub : ∀ g' ∈ X'.pieces, ∀ c ∈ g'.cs, ∃ k : K, 0 < k ∧ ∀ r, det g'.p g'.q r = k * det (geom c).first (geom c).second r := by
    intro g' hg' c hc
    have hok := h'.pieces.ok g' hg'
    have hsb := hok.sub c hc
    obtain ⟨e1, e2, e3⟩ := he.ends hsb.mem
    have k1 := hsb.p
    have k2 := hsb.q
    rw [onLine_iff, e1, e2] at k1 k2
    exact det_sub_pos e3 k1 k2 hok.line.2
  have memE : ∀ g' ∈ E, g' ∈ X'.pieces := by
    intro g' hg'
    rw [hpc]; simp [hs.en.mem_iff.2 hg']
  have memL : ∀ g' ∈ L, g' ∈ X'.pieces := by intro g' hg'; rw [hpc]; simp [hg']
  have memU : ∀ g' ∈ U, g' ∈ X'.pieces := by intro g' hg'; rw [hpc]; simp [hg']
  have hord : (∀ g' ∈ l1, 0 < det g'.p pt g.p) ∧ ∀ g' ∈ l2, det g'.p pt g.p < 0 := by
    have ho := hs.ordE
    rw [hE, List.pairwise_append, List.pairwise_cons] at ho
    constructor
    · intro g' hg'
      have := ho.2.2 g' hg' g (by simp)
      have : Lt g'.p g'.q g.p g.q := this
      rwa [hgq, (hs.endE g' (by rw [hE]; simp [hg'])).2, lt_end_iff] at this
    · intro g' hg'
      have := ho.2.1.1 g' hg'
      have : Lt g.p g.q g'.p g'.q := this
      rw [hgq, (hs.endE g' (by rw [hE]; simp [hg'])).2, lt_end_iff] at this
      have e : det g'.p pt g.p = - det g.p pt g'.p := by unfold det; ring
      rw [e]; linarith
  -- signs for each kind of group
  have sL : ∀ c ∈ L.flatMap Grp.cs, 0 < det (geom c).first (geom c).second pt := by
    intro c hc
    obtain ⟨g', hg', hc⟩ := List.mem_flatMap.1 hc
    obtain ⟨k, hk, hd⟩ := hsub g' (memL g' hg') c hc
    have := (hs.low g' hg').2.2
    rw [hd] at this
    exact pos_of_mul_pos_right this hk.le
  have sU : ∀ c ∈ U.flatMap Grp.cs, det (geom c).first (geom c).second pt < 0 := by
    intro c hc
    obtain ⟨g', hg', hc⟩ := List.mem_flatMap.1 hc
    obtain ⟨k, hk, hd⟩ := hsub g' (memU g' hg') c hc
    have := (hs.up g' hg').2.2
    rw [hd] at this
    exact neg_of_mul_neg_right this hk.le
  have sE : ∀ g' ∈ E, ∀ c ∈ g'.cs, det (geom c).first (geom c).second pt = 0 ∧ ∃ k : K, 0 < k ∧ det g'.p pt g.p = k * det (geom c).first (geom c).second g.p := by
    intro g' hg' c hc
    obtain ⟨k, hk, hd⟩ := hsub g' (memE g' hg') c hc
    have e := (hs.endE g' hg').2
    rw [e] at hd
    refine ⟨?_, k, hk, hd _⟩
    have := hd pt
    rw [det_right] at this
    rcases mul_eq_zero.1 this.symm with h | h
    · exact absurd h hk.ne'
    · exact h
  have s1 : ∀ c ∈ l1.flatMap Grp.cs, det (geom c).first (geom c).second pt = 0 ∧ 0 < det (geom c).first (geom c).second g.p := by
    intro c hc
    obtain ⟨g', hg', hc⟩ := List.mem_flatMap.1 hc
    obtain ⟨h0, k, hk, hd⟩ := sE g' (by rw [hE]; simp [hg']) c hc
    have := hord.1 g' hg'
    rw [hd] at this
    exact ⟨h0, pos_of_mul_pos_right this hk.le⟩
  have s2 : ∀ c ∈ l2.flatMap Grp.cs, det (geom c).first (geom c).second pt = 0 ∧ det (geom c).first (geom c).second g.p < 0 := by
    intro c hc
    obtain ⟨g', hg', hc⟩ := List.mem_flatMap.1 hc
    obtain ⟨h0, k, hk, hd⟩ := sE g' (by rw [hE]; simp [hg']) c hc
    have := hord.2 g' hg'
    rw [hd] at this
    exact ⟨h0, neg_of_mul_neg_right this hk.le⟩
  have sg : ∀ c ∈ g.cs, det (geom c).first (geom c).second pt = 0 ∧ det (geom c).first (geom c).second g.p = 0 := by
    intro c hc
    obtain ⟨h0, k, hk, hd⟩ := sE g hgE c hc
    rw [det_left] at hd
    rcases mul_eq_zero.1 hd.symm with h | h
    · exact absurd h hk.ne'
    · exact ⟨h0, h⟩
  have pick : ∀ (l : List Nat) (P Q : Nat → Bool), (∀ c ∈ l, P c = Q c) → l.countP P = l.countP Q := fun l P Q h =>
    List.countP_congr fun c hc => by rw [h c hc]
  have zero : ∀ (l : List Nat) (P : Nat → Bool), (∀ c ∈ l, P c = false) → l.countP P = 0 := fun l P h =>
    List.countP_eq_zero.2 fun c hc => by rw [h c hc]; simp
  constructor
  · have k := key fun c => decide (isFirst c = f) && decide (0 < det (geom c).first (geom c).second pt ∨
      det (geom c).first (geom c).second pt = 0 ∧ 0 < det (geom c).first (geom c).second g.p)
    rw [pick (L.flatMap Grp.cs) _ (fun c => decide (isFirst c = f)) fun c hc => by simp [sL c hc],
      pick (l1.flatMap Grp.cs) _ (fun c => decide (isFirst c = f)) fun c hc => by simp [s1 c hc],
      zero g.cs _ fun c hc => by simp [sg c hc],
      zero (l2.flatMap Grp.cs) _ fun c hc => by simp [(s2 c hc).1, (s2 c hc).2.le],
      zero (U.flatMap Grp.cs) _ fun c hc => by simp [(sU c hc).le, (sU c hc).ne]] at k
    rw [List.flatMap_append, List.countP_append]
    unfold edgesBelowOf plainEdges
    rw [List.countP_map]
    rw [hgq]
    refine Eq.trans ?_ (k.symm.trans (List.countP_congr fun c hc => ?_))
    · simp
    · rw [Function.comp_apply, decide_eq_true_iff, Bool.and_eq_true, Bool.and_eq_true, decide_eq_true_iff, decide_eq_true_iff, decide_eq_true_iff]
      exact ⟨fun h => ⟨h.1.1, h.2.1, h.2.2, h.1.2⟩, fun h => ⟨⟨h.1, h.2.2.2⟩, h.2.1, h.2.2.1⟩⟩
  · have k := key fun c => decide (isFirst c = f) && decide (det (geom c).first (geom c).second pt = 0 ∧ det (geom c).first (geom c).second g.p = 0)
    rw [zero (L.flatMap Grp.cs) _ fun c hc => by simp [(sL c hc).ne'],
      zero (l1.flatMap Grp.cs) _ fun c hc => by simp [(s1 c hc).2.ne'],
      pick g.cs _ (fun c => decide (isFirst c = f)) fun c hc => by simp [sg c hc],
      zero (l2.flatMap Grp.cs) _ fun c hc => by simp [(s2 c hc).2.ne],
      zero (U.flatMap Grp.cs) _ fun c hc => by simp [(sU c hc).ne]] at k
    unfold edgesAlongOf plainEdges
    rw [List.countP_map]
    rw [hgq]
    refine Eq.trans ?_ (k.symm.trans (List.countP_congr fun c hc => ?_))
    · simp
    · rw [Function.comp_apply, decide_eq_true_iff, Bool.and_eq_true, Bool.and_eq_true, decide_eq_true_iff, decide_eq_true_iff, decide_eq_true_iff]
      exact ⟨fun h => ⟨h.1.1, h.2.1, h.2.2, h.1.2⟩, fun h => ⟨⟨h.1, h.2.2.2⟩, h.2.1, h.2.2.1⟩⟩

/-- The final pieces. -/
structure Subdivision {C : Type} (lineOf : C → Line K) (input : List C) (D : List (Grp K C)) : Prop where
  ok : ∀ g ∈ D, PieceOk lineOf input g
  meet : D.Pairwise Meet
  tiled : Tiled lineOf (linesOf lineOf input) (D.flatMap Grp.tri)

section
variable {C : Type} {lineOf : C → Line K} {cs : List C} {D : List (Grp K C)}

theorem Subdivision.mem (h : Subdivision lineOf cs D) {c : C} (hc : c ∈ cs) (hl : (lineOf c).start ≠ (lineOf c).stop) :
    lo (lineOf c) < hi (lineOf c) ∧ ∃ l, Consecutive (lo (lineOf c)) (hi (lineOf c)) l ∧ ∀ ab ∈ l, ∃ g ∈ D, c ∈ g.cs ∧ g.p = ab.1 ∧ g.q = ab.2 := by
  have hlt : lo (lineOf c) < hi (lineOf c) := by
    rcases ofLine_cases (lineOf c) with ⟨e, -⟩ | ⟨e, -⟩
    · exact absurd e hl
    · exact e
  obtain ⟨tl, t1, t2, t3⟩ := h.tiled
  have hm : c ∈ tl.map (·.1) := by rw [t1]; exact List.mem_filter.2 ⟨hc, by simpa using hl⟩
  obtain ⟨e, he, rfl⟩ := List.mem_map.1 hm
  refine ⟨hlt, e.2, t2 e he, fun ab hab => ?_⟩
  have := t3.mem_iff.2 (List.mem_flatMap.2 ⟨e, he, List.mem_map.2 ⟨ab, hab, rfl⟩⟩)
  obtain ⟨g, hg, hm⟩ := List.mem_flatMap.1 this
  obtain ⟨c', hc', e'⟩ := List.mem_map.1 hm
  simp only [Prod.mk.injEq] at e'
  obtain ⟨rfl, e1⟩ := e'
  exact ⟨g, hg, hc', by rw [← e1], by rw [← e1]⟩

/-- A final piece of an input at a point of it. -/
theorem Subdivision.cover (h : Subdivision lineOf cs D) {c : C} (hc : c ∈ cs) (hl : (lineOf c).start ≠ (lineOf c).stop) {z : Pt K}
    (hz : OnLine (lineOf c) z) : ∃ g ∈ D, c ∈ g.cs ∧ OnSeg g.p g.q z := by
  obtain ⟨hlt, l, hl1, hl2⟩ := h.mem hc hl
  rw [onLine_iff, onSeg_iff hlt] at hz
  obtain ⟨ab, hab, h1, h2⟩ := consecutive_cover hl1 hlt hz.2.1 hz.2.2
  obtain ⟨g, hg, hcg, e1, e2⟩ := hl2 ab hab
  refine ⟨g, hg, hcg, ?_⟩
  have hs := (h.ok g hg).sub c hcg
  have k1 := (onSeg_iff hs.line).1 ((onLine_iff _ _).1 hs.p)
  have k2 := (onSeg_iff hs.line).1 ((onLine_iff _ _).1 hs.q)
  have hd := det_symm hs.line.ne k1.1 k2.1
  exact (onSeg_iff (h.ok g hg).line.2).2 ⟨det_trans hs.line.ne hd.1 hd.2 hz.1, e1 ▸ h1, e2 ▸ h2⟩

/-- If a final piece has the point inside, it is the only one with it. -/
theorem Subdivision.unique (h : Subdivision lineOf cs D) {g g' : Grp K C} (hg : g ∈ D) (hg' : g' ∈ D) {x : Pt K} (hx : Inside g.p g.q x)
    (hx' : OnSeg g'.p g'.q x) : g' = g := by
  by_contra hne
  have : Std.Symm fun a b : Grp K C => a ≠ b → Meet a b := ⟨fun a b h hn x h1 h2 => (h hn.symm x h2 h1).symm⟩
  have hp : D.Pairwise fun a b => a ≠ b → Meet a b := by
    refine List.Pairwise.imp ?_ h.meet
    exact fun h _ => h
  exact ((List.Pairwise.forall_of_forall (R := fun a b : Grp K C => a ≠ b → Meet a b) (fun a _ hn => absurd rfl hn) hp) hg hg' (Ne.symm hne) x hx.onSeg hx').1 hx

/-- No end of an input, and no crossing of two of them, is inside a final piece. -/
theorem Subdivision.free (h : Subdivision lineOf cs D) (hnd : ∀ c ∈ cs, (lineOf c).start ≠ (lineOf c).stop) {g : Grp K C} (hg : g ∈ D) {x : Pt K}
    (hx : Critical (cs.map lineOf) x) : ¬ Inside g.p g.q x := by
  intro hin
  have hgl : ∀ c ∈ cs, OnLine (lineOf c) x → c ∈ g.cs := by
    intro c hc hon
    obtain ⟨g', hg', hc', ho⟩ := h.cover hc (hnd c hc) hon
    rwa [h.unique hg hg' hin ho] at hc'
  have hin' : g.p < x ∧ x < g.q := ⟨hin.1, hin.2.1⟩
  rcases hx with ⟨l, hl, hx⟩ | ⟨l1, hl1, l2, hl2, hm⟩
  · obtain ⟨c, hc, rfl⟩ := List.mem_map.1 hl
    have hon : OnLine (lineOf c) x := by
      rcases hx with rfl | rfl
      · exact onSeg_left _ _
      · exact onSeg_right _ _
    have hs := (h.ok g hg).sub c (hgl c hc hon)
    have k1 := (onSeg_iff hs.line).1 ((onLine_iff _ _).1 hs.p)
    have k2 := (onSeg_iff hs.line).1 ((onLine_iff _ _).1 hs.q)
    have : x = lo (lineOf c) ∨ x = hi (lineOf c) := by
      unfold lo hi
      rcases le_total (lineOf c).start (lineOf c).stop with k | k
      · rw [min_eq_left k, max_eq_right k]; exact hx
      · rw [min_eq_right k, max_eq_left k]; exact hx.symm
    rcases this with e | e
    · exact absurd hin'.1 (not_lt.2 (e ▸ k1.2.1))
    · exact absurd hin'.2 (not_lt.2 (e ▸ k2.2.2))
  · obtain ⟨c1, hc1, rfl⟩ := List.mem_map.1 hl1
    obtain ⟨c2, hc2, rfl⟩ := List.mem_map.1 hl2
    have hon := (hm x).2 rfl
    have h1 := (h.ok g hg).sub c1 (hgl c1 hc1 hon.1)
    have h2 := (h.ok g hg).sub c2 (hgl c2 hc2 hon.2)
    exact hin'.1.ne ((hm g.p).1 ⟨h1.p, h2.p⟩)

/-- The final pieces are the parts of inputs between consecutive ends and crossings. -/
theorem Subdivision.exists (h : Subdivision lineOf cs D) (hnd : ∀ c ∈ cs, (lineOf c).start ≠ (lineOf c).stop) {c : C} (hc : c ∈ cs) {p q : Pt K} (hpq : p < q)
    (hp : OnLine (lineOf c) p) (hq : OnLine (lineOf c) q) (cp : Critical (cs.map lineOf) p) (cq : Critical (cs.map lineOf) q)
    (hfree : ∀ x, Critical (cs.map lineOf) x → ¬ Inside p q x) : ∃ g ∈ D, g.p = p ∧ g.q = q := by
  obtain ⟨hlt, l, hl1, hl2⟩ := h.mem hc (hnd c hc)
  rw [onLine_iff, onSeg_iff hlt] at hp hq
  have hat := consecutive_at q hl1
  rw [if_pos ⟨hp.2.1.trans_lt hpq, hq.2.2⟩] at hat
  obtain ⟨ab, hab, hk⟩ := List.countP_pos_iff.1 (by rw [hat]; exact Nat.one_pos)
  have hk : ab.1 < q ∧ q ≤ ab.2 := of_decide_eq_true hk
  obtain ⟨g, hg, hcg, e1, e2⟩ := hl2 ab hab
  rw [← e1, ← e2] at hk
  have hok := h.ok g hg
  have hs := hok.sub c hcg
  have k1 := (onSeg_iff hlt).1 ((onLine_iff _ _).1 hs.p)
  have k2 := (onSeg_iff hlt).1 ((onLine_iff _ _).1 hs.q)
  have hd := det_symm hlt.ne k1.1 k2.1
  have hd' := det_symm hlt.ne hp.1 hq.1
  refine ⟨g, hg, ?_, ?_⟩
  · rcases lt_trichotomy g.p p with k | k | k
    · exact absurd ⟨k, hpq.trans_le hk.2, det_trans hlt.ne hd.1 hd.2 hp.1⟩ (h.free hnd hg cp)
    · exact k
    · exact absurd ⟨k, hk.1, det_trans hlt.ne hd'.1 hd'.2 k1.1⟩ (hfree _ hok.cp)
  · by_contra k
    exact h.free hnd hg cq ⟨hk.1, lt_of_le_of_ne hk.2 (Ne.symm k), det_trans hlt.ne hd.1 hd.2 hq.1⟩

end

theorem crossAll_isTy (cs : List Nat) : (crossAll isFirst (Region.infinity ty) cs).isTy ty =
    inResult ty (decide (Odd (cs.countP fun c => isFirst c = true))) (decide (Odd (cs.countP fun c => isFirst c = false))) := by
  have : crossAll isFirst (Region.infinity ty) cs = (cs.map isFirst).foldl Region.cross (Region.infinity ty) := by
    rw [List.foldl_map]; rfl
  have e : ∀ f, oddly f (cs.map isFirst) = decide (Odd (cs.countP fun c => isFirst c = f)) := by
    intro f
    unfold oddly
    rw [List.count, List.countP_map, decide_eq_decide, Nat.odd_iff]
    rfl
  rw [this, C32_region_parity, e, e]

/-- What a group contributes, in terms of the input. -/
def BoundsOf (ty : OpType) (es : List (Bool × Pt K × Pt K)) (p q : Pt K) (w : Winding) : Prop :=
  resultAbove ty es p q ≠ resultBelow ty es p q ∧ w = if resultBelow ty es p q then .clockwise else .counterClockwise

theorem mem_emit {a b : Region} {g : LineOrPoint K} {e : LineOrPoint K × Winding} : e ∈ emit ty a b g ↔
    e.1 = g ∧ b.isTy ty ≠ a.isTy ty ∧ e.2 = if a.isTy ty then .clockwise else .counterClockwise := by
  unfold emit
  obtain ⟨e1, e2⟩ := e
  cases b.isTy ty <;> cases a.isTy ty <;> simp

/-- The edges of a run are those of the final groups with the result on one side only. -/
theorem Trace.edges {pos : Pt K} {st X es} (he : EdgesOk geom isFirst input) (h : Trace ty geom isFirst org input pos st X es) :
    ∃ pos' st' X' D2, Full org (fun i => (geom i).toLine) input pos' st' X' ∧ X'.E = [] ∧ X'.D = X.D ++ D2 ∧
      ∀ e, e ∈ es ↔ ∃ g ∈ D2, e.1 = g.geom ∧ BoundsOf ty (plainEdges geom isFirst input) g.p g.q e.2 := by
  induction h with
  | @done pos st X hF hE => exact ⟨pos, st, X, [], hF, hE, by simp, by simp⟩
  | @step pos pt st st' X X' out L0 E0 U0 L E U S D1 T es hF hgt hpt hmin hne h' hgt' hs ht ih =>
    obtain ⟨pos2, st2, X2, D2, i1, i2, i3, i4⟩ := ih
    refine ⟨pos2, st2, X2, D1 ++ D2, i1, i2, by rw [i3, hs.dn]; simp, fun e => ?_⟩
    have hreg : ∀ l1 g l2, E = l1 ++ g :: l2 →
        (crossAll isFirst (crossAll isFirst (Region.infinity ty) (L.flatMap Grp.cs)) (l1.flatMap Grp.cs)).isTy ty =
          resultBelow ty (plainEdges geom isFirst input) g.p g.q ∧
        (crossAll isFirst (crossAll isFirst (Region.infinity ty) (L.flatMap Grp.cs)) ((l1 ++ [g]).flatMap Grp.cs)).isTy ty =
          resultAbove ty (plainEdges geom isFirst input) g.p g.q := by
      intro l1 g l2 hE
      have hc := shape_counts he hF hpt h' hgt' hs hE
      rw [← crossAll_append, ← crossAll_append, ← List.flatMap_append, ← List.flatMap_append, crossAll_isTy, crossAll_isTy]
      unfold resultBelow resultAbove
      rw [(hc true).1, (hc false).1]
      refine ⟨rfl, ?_⟩
      rw [← List.append_assoc, List.flatMap_append (xs := L ++ l1), List.countP_append, List.countP_append, (hc true).1, (hc false).1, List.flatMap_singleton, (hc true).2, (hc false).2]
    rw [List.mem_append, i4, mem_emits_iff]
    constructor
    · rintro (⟨l1, g, l2, hE, hm⟩ | ⟨g, hg, hb⟩)
      · rw [mem_emit, (hreg l1 g l2 hE).1, (hreg l1 g l2 hE).2] at hm
        exact ⟨g, List.mem_append_left _ (hs.en.mem_iff.2 (by rw [hE]; simp)), hm⟩
      · exact ⟨g, List.mem_append_right _ hg, hb⟩
    · rintro ⟨g, hg, hb⟩
      rcases List.mem_append.1 hg with hg | hg
      · obtain ⟨l1, l2, hE⟩ := List.append_of_mem (hs.en.mem_iff.1 hg)
        refine .inl ⟨l1, g, l2, hE, ?_⟩
        rw [mem_emit, (hreg l1 g l2 hE).1, (hreg l1 g l2 hE).2]
        exact hb
      · exact .inr ⟨g, hg, hb⟩

/-- The order in which edges are added: by their right ends, and those with the same one from above to below. -/
def EdgeBefore (a b : LineOrPoint K) : Prop := a.second < b.second ∨ a.second = b.second ∧ 0 < det b.first b.second a.first

theorem EdgeBefore.asymm {a b : LineOrPoint K} (h : EdgeBefore a b) (h' : EdgeBefore b a) : False := by
  rcases h with h | ⟨e, h⟩ <;> rcases h' with h' | ⟨e', h'⟩
  · exact _root_.lt_asymm h h'
  · exact h.ne' e'
  · exact h'.ne' e
  · rw [e] at h'
    have : det a.first b.second b.first = - det b.first b.second a.first := by unfold det; ring
    rw [this] at h'
    linarith

theorem Trace.ordered {pos : Pt K} {st X es} (h : Trace ty geom isFirst org input pos st X es) :
    es.Pairwise fun a b => EdgeBefore a.1 b.1 := by
  induction h with
  | done => exact .nil
  | @step pos pt st st' X X' out L0 E0 U0 L E U S D1 T es hF hgt hpt hmin hne h' hgt' hs ht ih =>
    rw [List.pairwise_append]
    refine ⟨emits_pairwise (P := EdgeBefore) ?_ _, ih, ?_⟩
    · refine hs.ordE.imp_of_mem ?_
      intro a b ha hb hab
      have hab : Lt a.p a.q b.p b.q := hab
      rw [(hs.endE a ha).2, (hs.endE b hb).2, lt_end_iff] at hab
      have ea : a.geom.second = pt := (hs.endE a ha).2
      have eb : b.geom.second = pt := (hs.endE b hb).2
      refine .inr ⟨by rw [ea, eb], ?_⟩
      rw [ea]; exact hab
    · intro a ha b hb
      obtain ⟨g, hg, e1⟩ := mem_emits ha
      refine .inl ?_
      rw [e1]
      have : g.geom.second = pt := (hs.endE g hg).2
      rw [this]
      exact (ht.second_gt b hb).2

/-- The edges a complete run adds. -/
theorem Trace.bounds {pos : Pt K} {st X es} (he : EdgesOk geom isFirst input) (h : Trace ty geom isFirst org input pos st X es) (hD : X.D = []) :
    ∀ e, e ∈ es ↔ ∃ p q, e.1 = .line p q ∧ Bounds ty (plainEdges geom isFirst input) p q e.2 := by
  obtain ⟨pos', st', X', D2, hF, hE, hD2, hm⟩ := h.edges he
  rw [hD, List.nil_append] at hD2
  subst hD2
  have hA : X'.A = [] ∧ X'.P = [] ∧ X'.S = [] := by
    have : X'.A ++ X'.P ++ X'.S = [] := by
      rw [List.eq_nil_iff_forall_not_mem]
      intro g hg
      have := hF.inv.core.evR g hg
      rw [hE] at this; cases this
    simpa [and_assoc] using this
  have hp : X'.pieces = X'.D := by unfold Abs.pieces; simp [hA]
  have hsub : Subdivision (fun i => (geom i).toLine) input X'.D := ⟨fun g hg => hF.pieces.ok g (hp ▸ hg), hF.hist.meetD, hp ▸ hF.tiled⟩
  have hnd : ∀ c ∈ input, ((geom c).toLine).start ≠ ((geom c).toLine).stop := by
    intro c hc
    obtain ⟨a, b, e, hab⟩ := he.line c hc
    rw [e]; exact hab.ne
  have hcr : (plainEdges geom isFirst input).map (fun e => (⟨e.2.1, e.2.2⟩ : Line K)) = input.map fun i => (geom i).toLine := by
    unfold plainEdges
    rw [List.map_map]
    refine List.map_congr_left fun c hc => ?_
    obtain ⟨a, b, e, hab⟩ := he.line c hc
    simp [e, LineOrPoint.first, LineOrPoint.second, LineOrPoint.toLine]
  have hin : ∀ {p q x : Pt K}, p < q → (Between p q x ↔ Inside p q x) := by
    intro p q x hpq
    unfold Between Inside
    rw [onSeg_iff hpq]
    constructor
    · rintro ⟨⟨h1, h2, h3⟩, h4, h5⟩
      exact ⟨lt_of_le_of_ne h2 (Ne.symm h4), lt_of_le_of_ne h3 h5, h1⟩
    · rintro ⟨h1, h2, h3⟩
      exact ⟨⟨h3, h1.le, h2.le⟩, h1.ne', h2.ne⟩
  intro e
  rw [hm]
  constructor
  · rintro ⟨g, hg, e1, b1, b2⟩
    have hok := hsub.ok g hg
    refine ⟨g.p, g.q, e1.trans hok.line.1, ⟨hok.line.2, ?_, hcr ▸ hok.cp, hcr ▸ hok.cq, fun x hx hb => ?_⟩, b1, b2⟩
    · obtain ⟨c, hc⟩ := List.exists_mem_of_ne_nil _ hok.ne
      have hs := hok.sub c hc
      obtain ⟨k1, k2, -⟩ := he.ends hs.mem
      have j1 := hs.p
      have j2 := hs.q
      rw [onLine_iff, k1, k2] at j1 j2
      exact ⟨_, List.mem_map_of_mem hs.mem, j1, j2⟩
    · rw [hin hok.line.2] at hb
      exact hsub.free hnd hg (hcr ▸ hx) hb
  · rintro ⟨p, q, e1, ⟨hlt, ⟨o, ho, op, oq⟩, cp, cq, hfree⟩, b1, b2⟩
    obtain ⟨c, hc, rfl⟩ := List.mem_map.1 ho
    obtain ⟨k1, k2, -⟩ := he.ends hc
    obtain ⟨g, hg, rfl, rfl⟩ := hsub.exists hnd hc hlt (by rw [onLine_iff, k1, k2]; exact op) (by rw [onLine_iff, k1, k2]; exact oq)
      (hcr ▸ cp) (hcr ▸ cq) (fun x hx hb => hfree x (hcr ▸ hx) ((hin hlt).2 hb))
    exact ⟨g, hg, e1.trans (hsub.ok g hg).line.1.symm, b1, b2⟩

end GeoCrossings
