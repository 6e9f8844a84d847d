import Verif.Lemmas.BopHoles
import Verif.Props.Laminar
import Verif.Spec.ValidPolygon

/-! # C41, C55: what `Op::sweep` computes -/
set_option linter.unusedSectionVars false
namespace GeoCrossings
open Spec BoolOp Rings

variable {K : Type} [Field K] [LinearOrder K] [IsStrictOrderedRing K]

/-! ## Counting edges -/

theorem range_countP {α : Type _} (es : List α) (P : Option α → Bool) :
    (List.range es.length).countP (fun i => P es[i]?) = es.countP fun e => P (some e) := by
  induction es using List.reverseRecOn with
  | nil => rfl
  | append_singleton es e ih =>
    rw [List.length_append, List.length_singleton, List.range_succ, List.countP_append, List.countP_append, ← ih]
    congr 1
    · refine List.countP_congr fun i hi => ?_
      rw [List.getElem?_append_left (List.mem_range.1 hi)]
    · simp [List.countP_singleton]

theorem passesBelow_iff_under {r a b : Pt K} (h : a < b) : PassesBelow r a b ↔ Under r a b := by
  rw [passesBelow_iff]
  unfold Under
  refine or_iff_left ?_
  rintro ⟨h1, h2, -⟩
  exact absurd (h1.trans_lt h2) (not_lt.2 (Pt.x_le_of_le h.le))

theorem line_countP (P : LineOrPoint K → Prop) [DecidablePred P] (Q : Prop) [Decidable Q] (g : LineOrPoint K) (h : P g ↔ Q) :
    ([g].countP fun g => P g) = if Q then 1 else 0 := by
  rw [List.countP_singleton]
  exact if_congr (by rw [decide_eq_true_eq, h]) rfl rfl

theorem under_segBetween (r a b : Pt K) :
    ((segBetween a b).toList.countP fun g => Under r g.first g.second) = if PassesBelow r a b then 1 else 0 := by
  unfold segBetween
  rcases lt_trichotomy a b with h | h | h
  · rw [if_pos h, Option.toList_some, line_countP _ _ _ (passesBelow_iff_under h).symm]
  · subst h
    rw [if_neg (lt_irrefl a), if_neg (lt_irrefl a), if_neg]
    · rfl
    · rintro ⟨h1, h2, -⟩
      rw [min_self] at h1; rw [max_self] at h2
      exact absurd h1 (not_le.2 h2)
  · rw [if_neg (_root_.lt_asymm h), if_pos h, Option.toList_some]
    exact line_countP _ _ _ ((passesBelow_iff_under h).symm.trans ⟨PassesBelow.symm, PassesBelow.symm⟩)

theorem properEdges_cons (a b : Pt K) (l : List (Pt K)) : properEdges (a :: b :: l) = (segBetween a b).toList ++ properEdges (b :: l) := by
  unfold properEdges
  simp only [List.tail_cons, List.zip_cons_cons, List.filterMap_cons]
  cases segBetween a b <;> simp

theorem under_properEdges (r : Pt K) : ∀ ring : List (Pt K),
    (properEdges ring).countP (fun g => Under r g.first g.second) = (ring.zip ring.tail).countP fun e => PassesBelow r e.1 e.2
  | [] => rfl
  | [a] => rfl
  | a :: b :: l => by
    rw [properEdges_cons, List.countP_append, under_segBetween, under_properEdges r (b :: l)]
    simp only [List.tail_cons, List.zip_cons_cons, List.countP_cons, decide_eq_true_eq]
    omega

/-- The ends of the edges of a ring meet in even numbers, apart from the first and the last coordinate. -/
theorem properEdges_ends (v : Pt K) : ∀ (a : Pt K) (l : List (Pt K)),
    Even ((properEdges (a :: l)).countP (fun g => g.first = v) + (properEdges (a :: l)).countP (fun g => g.second = v) +
      ((if a = v then 1 else 0) + if (a :: l).getLast? = some v then 1 else 0))
  | a, [] => by
    have : properEdges [a] = [] := rfl
    rw [this]
    by_cases h : a = v <;> simp [h]
  | a, b :: l => by
    have ih := properEdges_ends v b l
    rw [properEdges_cons, List.countP_append, List.countP_append, List.getLast?_cons_cons]
    have e : Even (((segBetween a b).toList.countP fun g => g.first = v) + ((segBetween a b).toList.countP fun g => g.second = v) +
        ((if a = v then 1 else 0) + if b = v then 1 else 0)) := by
      unfold segBetween
      split
      · rw [Option.toList_some, line_countP _ (a = v) _ Iff.rfl, line_countP _ (b = v) _ Iff.rfl]
        exact ⟨_, rfl⟩
      · split
        · rw [Option.toList_some, line_countP _ (b = v) _ Iff.rfl, line_countP _ (a = v) _ Iff.rfl]
          rw [Nat.even_iff]; omega
        · have : a = b := le_antisymm (not_lt.1 (by assumption)) (not_lt.1 (by assumption))
          simp [this]
    rw [Nat.even_iff] at *
    omega

theorem closed_ends (v : Pt K) {ring : List (Pt K)} (h : Closed ring) :
    Even ((properEdges ring).countP (fun g => g.first = v) + (properEdges ring).countP (fun g => g.second = v)) := by
  cases ring with
  | nil => exact ⟨0, rfl⟩
  | cons a l =>
    have e := properEdges_ends v a l
    unfold Closed at h
    rw [← h] at e
    simp only [List.head?_cons, Option.some.injEq] at e
    rw [Nat.even_iff] at *
    omega

/-- Rings of up to three coordinates have no inside. -/
theorem short_even (r : Pt K) {ring : List (Pt K)} (h : Closed ring) (hl : ¬ 3 < ring.length) :
    Even ((ring.zip ring.tail).countP fun e => PassesBelow r e.1 e.2) := by
  match ring, h, hl with
  | [], _, _ => exact ⟨0, rfl⟩
  | [a], _, _ => exact ⟨0, rfl⟩
  | [a, b], h, _ =>
    have h : a = b := by simpa [Closed] using h
    subst h
    have : ¬ PassesBelow r a a := by
      rintro ⟨h1, h2, -⟩
      rw [min_self] at h1; rw [max_self] at h2
      exact absurd h1 (not_le.2 h2)
    simp [this]
  | [a, b, c], h, _ =>
    have h : a = c := by simpa [Closed] using h
    subst h
    have : PassesBelow r b a ↔ PassesBelow r a b := ⟨PassesBelow.symm, PassesBelow.symm⟩
    by_cases k : PassesBelow r a b <;> simp [this, k]
  | a :: b :: c :: d :: l, _, hl => simp at hl

/-- The edges of a multipolygon that pass below a point, counted over the edges recorded. -/
theorem polyEdges_parity (r : Pt K) (f : Bool) {mp : List (Polygon K)} (h : ∀ p ∈ mp, ∀ ring ∈ ringsOf p, Closed ring) :
    ((mp.flatMap fun p => polyEdges p f).countP (fun e => Under r e.geom.first e.geom.second)) % 2 = edgesBelow (mp.flatMap ringsOf) r % 2 := by
  have h1 : ∀ rs : List (List (Pt K)), (∀ ring ∈ rs, Closed ring) →
      (((rs.filter fun r => 3 < r.length).flatMap fun r => (properEdges r).map fun g => (⟨g, f⟩ : OpEdge K)).countP
        fun e => Under r e.geom.first e.geom.second) % 2 = edgesBelow rs r % 2 := by
    intro rs
    induction rs with
    | nil => intro _; rfl
    | cons ring rs ih =>
      intro hc
      have ih := ih fun x hx => hc x (by simp [hx])
      have e : edgesBelow (ring :: rs) r = ((ring.zip ring.tail).countP fun e => PassesBelow r e.1 e.2) + edgesBelow rs r := by
        simp [edgesBelow]
      rw [e, List.filter_cons]
      by_cases hl : 3 < ring.length
      · rw [if_pos (by simpa using hl), List.flatMap_cons, List.countP_append, List.countP_map]
        have := under_properEdges r ring
        simp only [Function.comp_def]
        rw [this]; omega
      · rw [if_neg (by simpa using hl)]
        have := short_even r (hc ring (by simp)) hl
        rw [Nat.even_iff] at this
        omega
  have h2 : (mp.flatMap fun p => polyEdges p f) =
      ((mp.flatMap ringsOf).filter fun r => 3 < r.length).flatMap fun r => (properEdges r).map fun g => (⟨g, f⟩ : OpEdge K) := by
    rw [List.filter_flatMap, List.flatMap_assoc]
    rfl
  rw [h2]
  refine h1 _ ?_
  intro ring hr
  obtain ⟨p, hp, hr⟩ := List.mem_flatMap.1 hr
  exact h p hp ring hr

theorem polyEdges_ends (v : Pt K) (f : Bool) {mp : List (Polygon K)} (h : ∀ p ∈ mp, ∀ ring ∈ ringsOf p, Closed ring) :
    Even ((mp.flatMap fun p => polyEdges p f).countP (fun e => e.geom.first = v) +
      (mp.flatMap fun p => polyEdges p f).countP (fun e => e.geom.second = v)) := by
  have h2 : (mp.flatMap fun p => polyEdges p f) =
      ((mp.flatMap ringsOf).filter fun r => 3 < r.length).flatMap fun r => (properEdges r).map fun g => (⟨g, f⟩ : OpEdge K) := by
    rw [List.filter_flatMap, List.flatMap_assoc]
    rfl
  rw [h2]
  have h3 : ∀ ring ∈ (mp.flatMap ringsOf).filter (fun r => 3 < r.length), Closed ring := by
    intro ring hr
    obtain ⟨p, hp, hr⟩ := List.mem_flatMap.1 (List.mem_of_mem_filter hr)
    exact h p hp ring hr
  generalize (mp.flatMap ringsOf).filter (fun r => 3 < r.length) = rs at h3
  induction rs with
  | nil => simp
  | cons ring rs ih =>
    have ih := ih fun x hx => h3 x (by simp [hx])
    have := closed_ends v (h3 ring (by simp))
    simp only [List.flatMap_cons, List.countP_append, List.countP_map, Function.comp_def]
    rw [Nat.even_iff] at *
    omega

/-- The edges recorded for the two operands. -/
def opEdges (a b : List (Polygon K)) : List (OpEdge K) := (a.flatMap fun p => polyEdges p true) ++ b.flatMap fun p => polyEdges p false

theorem polyEdges_flag {mp : List (Polygon K)} {f : Bool} : ∀ e ∈ mp.flatMap fun p => polyEdges p f, e.isFirst = f := by
  intro e he
  obtain ⟨p, -, he⟩ := List.mem_flatMap.1 he
  unfold polyEdges at he
  obtain ⟨r, -, he⟩ := List.mem_flatMap.1 he
  obtain ⟨g, -, rfl⟩ := List.mem_map.1 he
  rfl

theorem opEdges_count (a b : List (Polygon K)) (f : Bool) (P : LineOrPoint K → Prop) [DecidablePred P] :
    (List.range (opEdges a b).length).countP (fun i => isFirstOf (opEdges a b) i = f ∧ P (geomOf (opEdges a b) i)) =
      ((if f then a else b).flatMap fun p => polyEdges p f).countP fun e => P e.geom := by
  have h := range_countP (opEdges a b) fun o => decide ((o.map (·.isFirst)).getD false = f ∧ P ((o.map (·.geom)).getD (.point ⟨0, 0⟩)))
  have h2 : (List.range (opEdges a b).length).countP (fun i => isFirstOf (opEdges a b) i = f ∧ P (geomOf (opEdges a b) i)) =
      (opEdges a b).countP fun e => decide (e.isFirst = f ∧ P e.geom) := h
  rw [h2]
  unfold opEdges
  rw [List.countP_append]
  have e1 : ∀ (mp : List (Polygon K)) f', (mp.flatMap fun p => polyEdges p f').countP (fun e => decide (e.isFirst = f ∧ P e.geom)) =
      if f' = f then (mp.flatMap fun p => polyEdges p f').countP (fun e => decide (P e.geom)) else 0 := by
    intro mp f'
    by_cases k : f' = f
    · rw [if_pos k]
      refine List.countP_congr fun e he => ?_
      have := polyEdges_flag e he
      simp [this, k]
    · rw [if_neg k]
      refine countP_zero fun e he => ?_
      have := polyEdges_flag e he
      simp [this, k]
  rw [e1, e1]
  cases f <;> simp

theorem opEdges_ok {a b : List (Polygon K)} (ha : ∀ p ∈ a, ∀ ring ∈ ringsOf p, Closed ring) (hb : ∀ p ∈ b, ∀ ring ∈ ringsOf p, Closed ring) :
    EdgesOk (geomOf (opEdges a b)) (isFirstOf (opEdges a b)) (List.range (opEdges a b).length) := by
  refine ⟨?_, List.nodup_range, ?_⟩
  · intro c hc
    have hc := List.mem_range.1 hc
    have hm : (opEdges a b)[c] ∈ opEdges a b := List.getElem_mem hc
    have : ∃ p f, (opEdges a b)[c] ∈ polyEdges p f := by
      unfold opEdges at hm ⊢
      rcases List.mem_append.1 hm with h | h
      · obtain ⟨p, -, h⟩ := List.mem_flatMap.1 h; exact ⟨p, true, h⟩
      · obtain ⟨p, -, h⟩ := List.mem_flatMap.1 h; exact ⟨p, false, h⟩
    obtain ⟨p, f, h⟩ := this
    obtain ⟨x, y, h1, h2⟩ := C34_edges_wf p f _ h
    refine ⟨x, y, ?_, h2⟩
    unfold geomOf
    rw [List.getElem?_eq_getElem hc]
    exact h1
  · intro f v
    rw [opEdges_count a b f fun g => g.first = v, opEdges_count a b f fun g => g.second = v]
    cases f
    · exact polyEdges_ends v false hb
    · exact polyEdges_ends v true ha

theorem opEdges_under {a b : List (Polygon K)} (ha : ∀ p ∈ a, ∀ ring ∈ ringsOf p, Closed ring) (hb : ∀ p ∈ b, ∀ ring ∈ ringsOf p, Closed ring)
    (f : Bool) (r : Pt K) :
    decide (countUnder (geomOf (opEdges a b)) (isFirstOf (opEdges a b)) (List.range (opEdges a b).length) f r % 2 = 1) =
      decide (EvenOdd ((if f then a else b).flatMap ringsOf) r) := by
  refine decide_eq_decide.2 ?_
  unfold countUnder EvenOdd
  rw [opEdges_count a b f fun g => Under r g.first g.second, Nat.odd_iff]
  cases f
  · rw [if_neg (by simp), polyEdges_parity r false hb]
  · rw [if_pos rfl, polyEdges_parity r true ha]

theorem opEdges_eq {a b : List (Polygon K)} (ha : ∀ p ∈ a, ∀ ring ∈ ringsOf p, Closed ring) (hb : ∀ p ∈ b, ∀ ring ∈ ringsOf p, Closed ring) :
    (addMultiPolygon [] a true).bind (fun es => addMultiPolygon es b false) = some (opEdges a b) := by
  rw [(C34_edges_taken [] a true).1 ha, Option.bind_some, (C34_edges_taken _ b false).1 hb]
  simp [opEdges]

/-! ## The rings -/

theorem pathEdges_below (r : Pt K) [DecidablePred fun e : Sym2 (Pt K) => ∃ a b, e = s(a, b) ∧ PassesBelow r a b] : ∀ ring : List (Pt K),
    (pathEdges ring).countP (fun e => ∃ a b, e = s(a, b) ∧ PassesBelow r a b) = (ring.zip ring.tail).countP fun e => PassesBelow r e.1 e.2
  | [] => rfl
  | [a] => rfl
  | a :: b :: l => by
    have e : (∃ x y, s(a, b) = s(x, y) ∧ PassesBelow r x y) ↔ PassesBelow r a b := by
      constructor
      · rintro ⟨x, y, h1, h2⟩
        rw [Sym2.eq_iff] at h1
        rcases h1 with ⟨rfl, rfl⟩ | ⟨rfl, rfl⟩
        · exact h2
        · exact h2.symm
      · intro h; exact ⟨a, b, rfl, h⟩
    rw [pathEdges, Multiset.countP_cons, pathEdges_below r (b :: l)]
    simp only [List.tail_cons, List.zip_cons_cons, List.countP_cons, decide_eq_true_eq, e]

theorem rings_below (r : Pt K) {es : List (LineOrPoint K × Winding)} {rings : List (Ring K)}
    (h : (rings.map fun g => pathEdges g.coords).sum = (es.map fun e => edgeOf e.1 : Multiset _)) (hl : ∀ e ∈ es, e.1.first < e.1.second) :
    edgesBelow (rings.map (·.coords)) r = es.countP (edgeUnder r) := by
  classical
  have h1 : Multiset.countP (fun e : Sym2 (Pt K) => ∃ a b, e = s(a, b) ∧ PassesBelow r a b) (rings.map fun g => pathEdges g.coords).sum =
      edgesBelow (rings.map (·.coords)) r := by
    clear h
    induction rings with
    | nil => rfl
    | cons g rings ih =>
      simp only [List.map_cons, List.sum_cons, Multiset.countP_add, edgesBelow] at ih ⊢
      rw [ih, pathEdges_below]
  rw [← h1, h, Multiset.coe_countP, List.countP_map]
  refine List.countP_congr fun e he => ?_
  have hlt := hl e he
  simp only [Function.comp_apply, decide_eq_true_eq, edgeUnder, edgeOf]
  rw [← passesBelow_iff_under hlt]
  constructor
  · rintro ⟨x, y, h1, h2⟩
    rw [Sym2.eq_iff] at h1
    rcases h1 with ⟨h, h'⟩ | ⟨h, h'⟩
    · rw [h, h']; exact h2
    · rw [h, h']; exact h2.symm
  · exact fun hu => ⟨_, _, rfl, hu⟩

/-! ## The theorems -/

theorem sweepLoop_mono {dbg : Bool} {ty : OpType} {geom : Nat → LineOrPoint K} {isFirst : Nat → Bool} {nextAfter : K → K} {choice : Nat → Nat}
    {srt : List (Crossing K Nat) → List (Crossing K Nat)} {fuel n : Nat} :
    ∀ {it : CrossingsIter K Nat} {cells rings res}, sweepLoop dbg ty geom isFirst nextAfter choice srt fuel n it cells rings = some res →
      sweepLoop dbg ty geom isFirst nextAfter choice srt (fuel + 1) (n + 1) it cells rings = some res := by
  induction n with
  | zero => intro it cells rings res h; simp [sweepLoop] at h
  | succ n ih =>
    intro it cells rings res h
    rw [sweepLoop] at h ⊢
    cases hn : it.next (fun i => (geom i).toLine) nextAfter choice fuel with
    | none => rw [hn] at h; cases h
    | some o =>
      rw [hn] at h; rw [next_mono hn]
      obtain ⟨it', o⟩ := o
      cases o with
      | none => exact h
      | some p =>
        simp only at h ⊢
        cases hb : batchStep dbg ty geom isFirst srt it' cells rings with
        | none => rw [hb] at h; cases h
        | some x =>
          rw [hb] at h
          obtain ⟨it2, cells2, rings2⟩ := x
          exact ih h

theorem sweep_mono {ty : OpType} {edges : List (OpEdge K)} {nextAfter : K → K} {choice : Nat → Nat}
    {srt : List (Crossing K Nat) → List (Crossing K Nat)} {fuel : Nat} {res} (h : BoolOp.sweep ty edges nextAfter choice srt fuel = some res) (k : Nat) :
    BoolOp.sweep ty edges nextAfter choice srt (fuel + k) = some res := by
  induction k with
  | zero => exact h
  | succ k ih =>
    unfold BoolOp.sweep at ih ⊢
    obtain ⟨r, h1, h2⟩ := Option.bind_eq_some_iff.1 ih
    refine Option.bind_eq_some_iff.2 ⟨r, ?_, h2⟩
    unfold sweepRings at h1 ⊢
    cases ho : CrossingsIter.ofInput (fun i => (geomOf edges i).toLine) (List.range edges.length) with
    | none => rw [ho] at h1; cases h1
    | some it => rw [ho] at h1; exact sweepLoop_mono h1

/-- The edges meet in their ends only. -/
def EndsOnly (a b : LineOrPoint K) : Prop :=
  ∀ x, OnSeg a.first a.second x → OnSeg b.first b.second x → ¬ Inside a.first a.second x ∧ ¬ Inside b.first b.second x

theorem EndsOnly.symm {a b : LineOrPoint K} (h : EndsOnly a b) : EndsOnly b a := fun x h1 h2 => (h x h2 h1).symm

/-- The added edges meet in their ends only. -/
theorem Trace.endsOnly {ty : OpType} {geom : Nat → LineOrPoint K} {isFirst : Nat → Bool} {org : Nat → Pt K} {input : List Nat} {pos : Pt K} {st X es}
    (h : Trace ty geom isFirst org input pos st X es) : (es.map (·.1)).Pairwise EndsOnly := by
  obtain ⟨pos', st', X', D2, h1, h2, ⟨l, h3, h4⟩, h5⟩ := h.pieces
  have hm := h1.hist.meetD
  rw [h2, List.pairwise_append] at hm
  have hp2 : (D2.map Grp.geom).Pairwise EndsOnly := List.pairwise_map.2 (hm.2.1.imp fun hab => hab)
  exact (h3.pairwise_iff EndsOnly.symm).1 (hp2.sublist h4)

/-- The added edges are parts of input edges. -/
theorem Trace.within {ty : OpType} {geom : Nat → LineOrPoint K} {isFirst : Nat → Bool} {org : Nat → Pt K} {input : List Nat} {pos : Pt K} {st X es}
    (he : EdgesOk geom isFirst input) (h : Trace ty geom isFirst org input pos st X es) :
    ∀ e ∈ es, ∃ c ∈ input, OnSeg (geom c).first (geom c).second e.1.first ∧ OnSeg (geom c).first (geom c).second e.1.second := by
  obtain ⟨pos', st', X', D2, h1, h2, h3, -⟩ := h.pieces
  intro e hee
  obtain ⟨g, hg, hge⟩ := List.mem_map.1 (h3.subset (List.mem_map_of_mem hee))
  have hok := h1.pieces.ok g (by unfold Abs.pieces; rw [h2]; simp [hg])
  obtain ⟨c, hc⟩ := List.exists_mem_of_ne_nil _ hok.ne
  have hs := hok.sub c hc
  obtain ⟨e1, e2, -⟩ := he.ends hs.mem
  have k1 := hs.p
  have k2 := hs.q
  rw [onLine_iff, e1, e2] at k1 k2
  refine ⟨c, hs.mem, ?_, ?_⟩
  · rw [← hge]; exact k1
  · rw [← hge]; exact k2

/-- The recorded edges of rings of which no two edges overlap. -/
theorem opEdges_apart {a b : List (Polygon K)} (h : NoOverlap ((a ++ b).flatMap Spec.ringsOf)) :
    Apart2 (geomOf (opEdges a b)) (List.range (opEdges a b).length) := by
  let R : Pt K × Pt K → Pt K × Pt K → Prop := fun e e' =>
    ∀ x y, OnSeg e.1 e.2 x → OnSeg e.1 e.2 y → OnSeg e'.1 e'.2 x → OnSeg e'.1 e'.2 y → x = y
  have hsub : ∀ (mp : List (Polygon K)) (f : Bool), ((mp.flatMap fun p => polyEdges p f).map (·.geom)).Sublist
      (((mp.flatMap Spec.ringsOf).flatMap Spec.ringEdges).filterMap fun x => segBetween x.1 x.2) := by
    intro mp f
    have e1 : (mp.flatMap fun p => polyEdges p f).map (·.geom) = ((mp.flatMap Spec.ringsOf).filter fun r => 3 < r.length).flatMap properEdges := by
      unfold polyEdges
      rw [List.map_flatMap, List.filter_flatMap, List.flatMap_assoc]
      refine List.flatMap_congr fun p _ => ?_
      rw [List.map_flatMap]
      refine List.flatMap_congr fun r _ => ?_
      rw [List.map_map]
      exact List.map_id _
    rw [e1, List.filterMap_flatMap]
    exact List.filter_sublist.flatMap _
  have hall : ((opEdges a b).map (·.geom)).Sublist
      ((((a ++ b).flatMap Spec.ringsOf).flatMap Spec.ringEdges).filterMap fun x => segBetween x.1 x.2) := by
    unfold opEdges
    rw [List.map_append, List.flatMap_append, List.flatMap_append, List.filterMap_append]
    exact (hsub a true).append (hsub b false)
  have hP : ((opEdges a b).map (·.geom)).Pairwise fun g g' => R (g.first, g.second) (g'.first, g'.second) := by
    refine List.Pairwise.sublist hall ?_
    rw [List.pairwise_filterMap]
    refine h.imp fun {e e'} hee g hg g' hg' => ?_
    have on : ∀ (e : Pt K × Pt K) (g : LineOrPoint K), segBetween e.1 e.2 = some g → ∀ x, OnSeg g.first g.second x → OnSeg e.1 e.2 x := by
      intro e g hg x hx
      unfold segBetween at hg
      split at hg
      · cases hg; exact hx
      · split at hg
        · cases hg; exact onSeg_comm.1 hx
        · cases hg
    intro x y h1 h2 h3 h4
    exact hee x y (on _ _ hg x h1) (on _ _ hg y h2) (on _ _ hg' x h3) (on _ _ hg' y h4)
  have hget : ∀ i (hi : i < (opEdges a b).length), geomOf (opEdges a b) i = ((opEdges a b).map (·.geom))[i]'(by simpa using hi) := by
    intro i hi
    unfold geomOf
    rw [List.getElem?_eq_getElem hi, List.getElem_map]; rfl
  rw [List.pairwise_iff_getElem] at hP
  intro i hi j hj hij x y h1 h2 h3 h4
  have hi := List.mem_range.1 hi
  have hj := List.mem_range.1 hj
  rw [hget i hi] at h1 h2
  rw [hget j hj] at h3 h4
  rcases Nat.lt_or_gt_of_ne hij with k | k
  · exact hP i j (by simpa using hi) (by simpa using hj) k x y h1 h2 h3 h4
  · exact hP j i (by simpa using hj) (by simpa using hi) k x y h3 h4 h1 h2

/-- The edges that a run of `Op::sweep` adds, and what is known about them. With debug assertions the same edges are added. -/
theorem sweep_run_full (ty : OpType) {a b : List (Polygon K)} (ha : ∀ p ∈ a, ∀ ring ∈ ringsOf p, Closed ring)
    (hb : ∀ p ∈ b, ∀ ring ∈ ringsOf p, Closed ring) (nextAfter : K → K) (choice : Nat → Nat)
    {srt : List (Crossing K Nat) → List (Crossing K Nat)} (hst : Stable compareCrossings srt ∨ NoOverlap ((a ++ b).flatMap Spec.ringsOf)) :
    ∃ N em rg rings, (∀ fuel, N ≤ fuel → BoolOp.sweep ty (opEdges a b) nextAfter choice srt fuel = some rings ∧
        BoolOp.sweepDebug ty (opEdges a b) nextAfter choice srt fuel = (addAll true em Rings.default).bind Rings.finish) ∧
      (∀ v, AtVertex ty (geomOf (opEdges a b)) (isFirstOf (opEdges a b)) (List.range (opEdges a b).length) v
        (em.countP fun e => e.1.second = v) (em.countP fun e => e.1.first = v)) ∧
      Emitted em ∧ (em.map (·.1)).Pairwise EndsOnly ∧ ofEdges em = some rg ∧ rg.finish = some rings ∧
      (∀ e ∈ em, ∃ o ∈ opEdges a b, OnSeg o.geom.first o.geom.second e.1.first ∧ OnSeg o.geom.first o.geom.second e.1.second) ∧
      ∀ r, em.countP (edgeUnder r) % 2 = 1 ↔
        inResult ty (decide (EvenOdd (a.flatMap ringsOf) r)) (decide (EvenOdd (b.flatMap ringsOf) r)) = true := by
  have he := opEdges_ok ha hb
  set es := opEdges a b with hes
  obtain ⟨cl, hcl⟩ := critical_finite ((List.range es.length).map fun i => (geomOf es i).toLine)
  obtain ⟨pos, st, X, h1, h2, h3, h4, h5⟩ := full_init' (org := fun c => (LineOrPoint.ofLine (geomOf es c).toLine).first)
    (fun i => (geomOf es i).toLine) (List.range es.length) (fun _ _ => rfl)
  obtain ⟨em, t1, t2⟩ := sweepLoop_trace (ty := ty) he (hst.imp_right opEdges_apart) nextAfter choice hcl (X.measure cl + 1)
    (cells := fun _ => (Region.infinity ty, Region.infinity ty)) (by omega) h2 h3
    (by intro L g R e; rw [h4] at e; simp at e)
  have hlt : ∀ e ∈ em, e.1.first < e.1.second := by
    intro e he
    obtain ⟨⟨x, y, k1, k2⟩, -⟩ := t1.second_gt e he
    rw [k1]; exact k2
  obtain ⟨rg, rings, r1, r2⟩ := finish_total em hlt (fun v => t1.even he v (.inr h4)) t1.spread
  refine ⟨X.measure cl + 1, em, rg, rings, ?_, fun v => t1.degree he v (.inr h4), ⟨hlt, t1.sorted, fun v => t1.even he v (.inr h4), t1.spread, fun v => t1.vertex he v (.inr h4)⟩,
    t1.endsOnly, r1, r2, ?_, ?_⟩
  · intro fuel hf
    unfold BoolOp.sweep BoolOp.sweepDebug sweepRings
    have : CrossingsIter.ofInput (fun i => (geomOf es i).toLine) (List.range es.length) = some ⟨st, []⟩ := by
      unfold CrossingsIter.ofInput; rw [h1]; rfl
    rw [this]
    simp only
    rw [t2 fuel fuel (by omega) (by omega), t2 fuel fuel (by omega) (by omega)]
    have e1 : addAll false em Rings.default = some rg := (addAll_false _ _).trans r1
    rw [e1, Option.bind_some, r2]
    exact ⟨rfl, rfl⟩
  · intro e hee
    obtain ⟨c, hc, k⟩ := t1.within he e hee
    have hc := List.mem_range.1 hc
    refine ⟨es[c], List.getElem_mem hc, ?_⟩
    have : geomOf es c = es[c].geom := by unfold geomOf; rw [List.getElem?_eq_getElem hc]; rfl
    rw [← this]; exact k
  · intro r
    have hp := t1.parity he r (.inr ⟨h4, h5⟩)
    rw [opEdges_under ha hb, opEdges_under ha hb] at hp
    exact hp

theorem sweep_run_debug (ty : OpType) {a b : List (Polygon K)} (ha : ∀ p ∈ a, ∀ ring ∈ ringsOf p, Closed ring)
    (hb : ∀ p ∈ b, ∀ ring ∈ ringsOf p, Closed ring) (nextAfter : K → K) (choice : Nat → Nat)
    {srt : List (Crossing K Nat) → List (Crossing K Nat)} (hst : Stable compareCrossings srt ∨ NoOverlap ((a ++ b).flatMap Spec.ringsOf)) :
    ∃ N em rg rings, (∀ fuel, N ≤ fuel → BoolOp.sweep ty (opEdges a b) nextAfter choice srt fuel = some rings ∧
        BoolOp.sweepDebug ty (opEdges a b) nextAfter choice srt fuel = (addAll true em Rings.default).bind Rings.finish) ∧
      Emitted em ∧ (em.map (·.1)).Pairwise EndsOnly ∧ ofEdges em = some rg ∧ rg.finish = some rings ∧
      (∀ e ∈ em, ∃ o ∈ opEdges a b, OnSeg o.geom.first o.geom.second e.1.first ∧ OnSeg o.geom.first o.geom.second e.1.second) ∧
      ∀ r, em.countP (edgeUnder r) % 2 = 1 ↔
        inResult ty (decide (EvenOdd (a.flatMap ringsOf) r)) (decide (EvenOdd (b.flatMap ringsOf) r)) = true := by
  obtain ⟨N, em, rg, rings, h, -, hs⟩ := sweep_run_full ty ha hb nextAfter choice hst
  exact ⟨N, em, rg, rings, h, hs⟩

theorem sweep_run (ty : OpType) {a b : List (Polygon K)} (ha : ∀ p ∈ a, ∀ ring ∈ ringsOf p, Closed ring)
    (hb : ∀ p ∈ b, ∀ ring ∈ ringsOf p, Closed ring) (nextAfter : K → K) (choice : Nat → Nat)
    {srt : List (Crossing K Nat) → List (Crossing K Nat)} (hst : Stable compareCrossings srt ∨ NoOverlap ((a ++ b).flatMap Spec.ringsOf)) :
    ∃ N em rg rings, (∀ fuel, N ≤ fuel → BoolOp.sweep ty (opEdges a b) nextAfter choice srt fuel = some rings) ∧
      Emitted em ∧ (em.map (·.1)).Pairwise EndsOnly ∧ ofEdges em = some rg ∧ rg.finish = some rings ∧
      (∀ e ∈ em, ∃ o ∈ opEdges a b, OnSeg o.geom.first o.geom.second e.1.first ∧ OnSeg o.geom.first o.geom.second e.1.second) ∧
      ∀ r, em.countP (edgeUnder r) % 2 = 1 ↔
        inResult ty (decide (EvenOdd (a.flatMap ringsOf) r)) (decide (EvenOdd (b.flatMap ringsOf) r)) = true := by
  obtain ⟨N, em, rg, rings, h, hs⟩ := sweep_run_debug ty ha hb nextAfter choice hst
  exact ⟨N, em, rg, rings, fun fuel hf => (h fuel hf).1, hs⟩

/-- All that is known about a run of `Op::sweep`. -/
theorem sweep_spec (ty : OpType) {a b : List (Polygon K)} (ha : ∀ p ∈ a, ∀ ring ∈ ringsOf p, Closed ring)
    (hb : ∀ p ∈ b, ∀ ring ∈ ringsOf p, Closed ring) (nextAfter : K → K) (choice : Nat → Nat)
    {srt : List (Crossing K Nat) → List (Crossing K Nat)} (hst : Stable compareCrossings srt ∨ NoOverlap ((a ++ b).flatMap Spec.ringsOf)) :
    ∃ N rings, (∀ fuel, N ≤ fuel → BoolOp.sweep ty (opEdges a b) nextAfter choice srt fuel = some rings) ∧
      (∀ g ∈ rings, SimpleClosed g.coords) ∧
      ∀ r, EvenOdd (rings.map (·.coords)) r ↔ inResult ty (decide (EvenOdd (a.flatMap ringsOf) r)) (decide (EvenOdd (b.flatMap ringsOf) r)) = true := by
  obtain ⟨N, em, rg, rings, h1, h2, -, r1, r2, -, h3⟩ := sweep_run ty ha hb nextAfter choice hst
  refine ⟨N, rings, h1, C37_rings_simple em (fun e he => (h2.lt e he).ne) r1 r2, ?_⟩
  intro r
  rw [← h3 r]
  show Odd _ ↔ _
  rw [rings_below r (C35_edges_conserved em (fun e he => (h2.lt e he).ne) r1 r2) h2.lt, Nat.odd_iff]

/-- **C55.** On operands whose rings are closed, `Op::sweep` terminates without a panic, whatever order the event queue gives to
equal events: from some number of steps on, the result is always the same. -/
theorem C55_sweep_total (ty : OpType) {a b : List (Polygon K)} (ha : ∀ p ∈ a, ∀ ring ∈ ringsOf p, Closed ring)
    (hb : ∀ p ∈ b, ∀ ring ∈ ringsOf p, Closed ring) (nextAfter : K → K) (choice : Nat → Nat)
    {srt : List (Crossing K Nat) → List (Crossing K Nat)} (hst : Stable compareCrossings srt ∨ NoOverlap ((a ++ b).flatMap Spec.ringsOf)) :
    ∃ es, (addMultiPolygon [] a true).bind (fun es => addMultiPolygon es b false) = some es ∧
      ∃ N rings, ∀ fuel, N ≤ fuel → BoolOp.sweep ty es nextAfter choice srt fuel = some rings := by
  obtain ⟨N, rings, h, -⟩ := sweep_spec ty ha hb nextAfter choice hst
  exact ⟨_, opEdges_eq ha hb, N, rings, h⟩

/-- **C41 (up to `Op::sweep`).** The rings that `Op::sweep` returns are simple closed polygons, and a point is inside of them, by
the even-odd rule, iff the truth table of the operation holds for its membership in the two operands.

Missing from C41: `assemble`, which follows; with it the statement fails, see `C41_fails_for_boolean_op` below. It is assumed that
the sort of the crossings is stable, see `C41_needs_stable_sort`, or that no two edges overlap. -/
theorem C41_sweep_partial (ty : OpType) {a b : List (Polygon K)} (ha : ∀ p ∈ a, ∀ ring ∈ ringsOf p, Closed ring)
    (hb : ∀ p ∈ b, ∀ ring ∈ ringsOf p, Closed ring) (nextAfter : K → K) (choice : Nat → Nat)
    {srt : List (Crossing K Nat) → List (Crossing K Nat)} (hst : Stable compareCrossings srt ∨ NoOverlap ((a ++ b).flatMap Spec.ringsOf))
    {es : List (OpEdge K)} (hes : (addMultiPolygon [] a true).bind (fun es => addMultiPolygon es b false) = some es)
    {fuel : Nat} {rings : List (Ring K)} (hr : BoolOp.sweep ty es nextAfter choice srt fuel = some rings) :
    (∀ g ∈ rings, SimpleClosed g.coords) ∧
    ∀ r, EvenOdd (rings.map (·.coords)) r ↔
      inResult ty (decide (EvenOdd (a.flatMap ringsOf) r)) (decide (EvenOdd (b.flatMap ringsOf) r)) = true := by
  rw [opEdges_eq ha hb, Option.some.injEq] at hes
  subst hes
  obtain ⟨N, rings', h, h1, h2⟩ := sweep_spec ty ha hb nextAfter choice hst
  have := sweep_mono hr N
  rw [h _ (by omega), Option.some.injEq] at this
  subst this
  exact ⟨h1, h2⟩

/-- **C41 (when the holes get proper parents).** If `boolean_op` returns, and `assemble` gave every hole an exterior ring as its
parent, a point is inside the rings of the returned multipolygon, by the even-odd rule, iff the truth table holds for the
operands. -/
theorem C41_boolean_op_partial (ty : OpType) {a b : List (Polygon K)} (ha : ∀ p ∈ a, ∀ ring ∈ ringsOf p, Closed ring)
    (hb : ∀ p ∈ b, ∀ ring ∈ ringsOf p, Closed ring) (nextAfter : K → K) (choice : Nat → Nat)
    {srt srt' : List (Crossing K Nat) → List (Crossing K Nat)} (hst : Stable compareCrossings srt ∨ NoOverlap ((a ++ b).flatMap Spec.ringsOf))
    {fuel : Nat} {polys : List (Polygon K)} (hr : booleanOp a b ty nextAfter choice srt srt' fuel = some polys)
    (hp : ∀ rings parents, BoolOp.sweep ty (opEdges a b) nextAfter choice srt fuel = some rings →
      Laminar.findParents false rings nextAfter choice srt' fuel = some parents →
      ∀ i r, rings[i]? = some r → r.isHole → ∃ p, rings[parents i]? = some p ∧ p.isHole = false) :
    ∀ r, EvenOdd (polys.flatMap ringsOf) r ↔
      inResult ty (decide (EvenOdd (a.flatMap ringsOf) r)) (decide (EvenOdd (b.flatMap ringsOf) r)) = true := by
  have e1 : (addMultiPolygon [] a true).bind (fun es => addMultiPolygon es b false) = some (opEdges a b) := opEdges_eq ha hb
  unfold booleanOp at hr
  obtain ⟨es1, k1, hr⟩ := Option.bind_eq_some_iff.1 hr
  obtain ⟨es2, k2, hr⟩ := Option.bind_eq_some_iff.1 hr
  rw [k1, Option.bind_some, k2, Option.some.injEq] at e1
  subst e1
  obtain ⟨rings, k3, hr⟩ := Option.bind_eq_some_iff.1 hr
  unfold Laminar.assemble at hr
  obtain ⟨parents, k4, hr⟩ := Option.bind_eq_some_iff.1 hr
  have hp := hp rings parents k3 k4
  rw [Laminar.C39_each_ring_once rings parents hp, Option.some.injEq] at hr
  have hperm := Laminar.C39_conserved rings parents hp
  rw [hr] at hperm
  intro r
  rw [← (C41_sweep_partial ty ha hb nextAfter choice hst (opEdges_eq ha hb) k3).2 r]
  have : edgesBelow (polys.flatMap ringsOf) r = edgesBelow (rings.map (·.coords)) r := (hperm.map _).sum_eq
  unfold EvenOdd
  rw [this]

/-! ## Cases, and where C41 fails -/

section cases

/-- Two triangles that cross in two points. -/
def triA : List (Polygon ℚ) := [⟨[⟨0, 0⟩, ⟨4, 0⟩, ⟨0, 4⟩, ⟨0, 0⟩], []⟩]
/-- See `triA`. -/
def triB : List (Polygon ℚ) := [⟨[⟨1, 1⟩, ⟨5, 1⟩, ⟨1, 5⟩, ⟨1, 1⟩], []⟩]

theorem id_stable {α : Type _} (cmp : α → α → Option Ordering) : Stable cmp id := fun _ _ => rfl

/-- For the cases below. -/
instance (l : List (Pt ℚ)) : Decidable (Closed l) := by unfold Closed; infer_instance

example : (∀ p ∈ triA, ∀ ring ∈ ringsOf p, Closed ring) ∧ (∀ p ∈ triB, ∀ ring ∈ ringsOf p, Closed ring) ∧
    ((BoolOp.sweep .intersection (opEdges triA triB) id (fun _ => 0) id 40).map fun l => l.map (·.coords)) =
      some [[⟨1, 1⟩, ⟨1, 3⟩, ⟨3, 1⟩, ⟨1, 1⟩]] ∧
    ((booleanOp triA triB .xor id (fun _ => 0) id id 40).map fun l => l.map fun p => (p.ext.length, p.ints.length)) =
      some [(7, 0), (5, 0)] := by decide +kernel

/-- Two triangles that touch in their left corner. -/
def touchA : List (Polygon ℚ) := [⟨[⟨0, 0⟩, ⟨1, -3⟩, ⟨4, -1⟩, ⟨0, 0⟩], []⟩]
/-- See `touchA`. -/
def touchB : List (Polygon ℚ) := [⟨[⟨0, 0⟩, ⟨2, 1⟩, ⟨5, 5⟩, ⟨0, 0⟩], []⟩]

/-- **C41 fails for `boolean_op`.** For the union of two triangles that touch in their left corner, the second is returned as a
hole of the first, and a point of it is not inside the result. (`Rings::add_edge` joins the four edges at the corner in the order
in which they end, so that one ring gets the winding of the other.) -/
theorem C41_fails_for_boolean_op : (∀ p ∈ touchA, ∀ ring ∈ ringsOf p, Closed ring) ∧ (∀ p ∈ touchB, ∀ ring ∈ ringsOf p, Closed ring) ∧
    ∃ r, EvenOdd (touchB.flatMap ringsOf) r ∧
      ∃ polys, booleanOp touchA touchB .union id (fun _ => 0) id id 60 = some polys ∧
        ¬ InMulti (polys.map fun p => (p.ext, p.ints)) r := by
  refine ⟨by decide +kernel, by decide +kernel, ⟨2, 3 / 2⟩, by decide +kernel,
    [⟨[⟨0, 0⟩, ⟨4, -1⟩, ⟨1, -3⟩, ⟨0, 0⟩], [[⟨5, 5⟩, ⟨0, 0⟩, ⟨2, 1⟩, ⟨5, 5⟩]]⟩], by decide +kernel, by decide +kernel⟩

/-- A polygon with a hole that crosses its exterior. -/
def dupA : List (Polygon ℚ) := [⟨[⟨0, 1⟩, ⟨3, 3⟩, ⟨2, 2⟩, ⟨0, 2⟩, ⟨0, 1⟩], [[⟨3, 2⟩, ⟨1, 3⟩, ⟨1, 0⟩, ⟨3, 2⟩]]⟩]
/-- See `dupA`. -/
def dupB : List (Polygon ℚ) := [⟨[⟨0, 0⟩, ⟨3, 1⟩, ⟨0, 3⟩, ⟨0, 0⟩], []⟩]

/-- **C41 fails for `boolean_op`, also by the even-odd rule.** For this difference, one of the rings is returned twice: it is taken
for a hole and becomes its own parent. So the condition of `C41_boolean_op_partial` cannot be left out. -/
theorem C41_fails_by_even_odd : (∀ p ∈ dupA, ∀ ring ∈ ringsOf p, Closed ring) ∧ (∀ p ∈ dupB, ∀ ring ∈ ringsOf p, Closed ring) ∧
    ∃ r, inResult .difference (decide (EvenOdd (dupA.flatMap ringsOf) r)) (decide (EvenOdd (dupB.flatMap ringsOf) r)) = true ∧
      ((booleanOp dupA dupB .difference id (fun _ => 0) id id 100).map fun polys => decide (EvenOdd (polys.flatMap ringsOf) r)) =
        some false := by
  refine ⟨by decide +kernel, by decide +kernel, ⟨3 / 2, 5 / 2⟩, by decide +kernel, by decide +kernel⟩

/-- Two triangles with edges that overlap. -/
def overlapA : List (Polygon ℚ) := [⟨[⟨0, 0⟩, ⟨0, 1⟩, ⟨2, 2⟩, ⟨0, 0⟩], []⟩]
/-- See `overlapA`. -/
def overlapB : List (Polygon ℚ) := [⟨[⟨1, 2⟩, ⟨1, 1⟩, ⟨2, 2⟩, ⟨1, 2⟩], []⟩]
/-- A correct way to sort, that reverses the order of equal elements. -/
def srtRev (l : List (Crossing ℚ Nat)) : List (Crossing ℚ Nat) := insertionSortBy compareCrossings l.reverse

/-- **C41 needs a stable sort.** `sort_unstable_by`, op.rs:77, may reverse equal elements; if it does, the "intersection" of two
triangles with overlapping edges has inside of it a point that is not in the first. -/
theorem C41_needs_stable_sort : ∃ r, ¬ EvenOdd (overlapA.flatMap ringsOf) r ∧
    ∃ rings, BoolOp.sweep .intersection (opEdges overlapA overlapB) id (fun _ => 0) srtRev 60 = some rings ∧
      EvenOdd (rings.map (·.coords)) r := by
  refine ⟨⟨5 / 4, 15 / 8⟩, by decide +kernel, [⟨[⟨1, 3 / 2⟩, ⟨1, 2⟩, ⟨2, 2⟩, ⟨1, 3 / 2⟩], false⟩], by decide +kernel, by decide +kernel⟩

end cases

end GeoCrossings
