import Verif.Props.BopNormal
import Verif.Props.BopDebugSound

/-! # C83: when the result of a boolean operation is empty -/
set_option linter.unusedSectionVars false
namespace GeoCrossings
open Spec BoolOp Rings

variable {K : Type} [Field K] [LinearOrder K] [IsStrictOrderedRing K]

/-! ## A point inside -/

theorem det_up (a b m : Pt K) (t : K) : det a b ⟨m.x, m.y + t⟩ = det a b m + t * (b.x - a.x) := by
  unfold det; ring

theorem pt_ext {a b : Pt K} (h1 : a.x = b.x) (h2 : a.y = b.y) : a = b := by
  cases a; cases b; simp only at h1 h2; rw [h1, h2]

/-- A step so small that no edge above the point is passed. -/
theorem small_step (l : List (Pt K × Pt K)) (m : Pt K) : ∃ t : K, 0 < t ∧ ∀ e ∈ l, e.1.x < e.2.x → det e.1 e.2 m < 0 → det e.1 e.2 ⟨m.x, m.y + t⟩ < 0 := by
  induction l with
  | nil => exact ⟨1, one_pos, by simp⟩
  | cons e l ih =>
    obtain ⟨t, ht, h⟩ := ih
    have mono : ∀ s, 0 < s → s ≤ t → ∀ f ∈ l, f.1.x < f.2.x → det f.1 f.2 m < 0 → det f.1 f.2 ⟨m.x, m.y + s⟩ < 0 := by
      intro s _ hst f hf h1 h2
      have := h f hf h1 h2
      rw [det_up] at this ⊢
      nlinarith
    by_cases he : e.1.x < e.2.x ∧ det e.1 e.2 m < 0
    · obtain ⟨h1, h2⟩ := he
      have hw : 0 < e.2.x - e.1.x := sub_pos.2 h1
      set s := -det e.1 e.2 m / (2 * (e.2.x - e.1.x)) with hs
      have hs0 : 0 < s := div_pos (by linarith) (by linarith)
      have hs1 : s * (e.2.x - e.1.x) = -det e.1 e.2 m / 2 := by rw [hs]; field_simp
      refine ⟨min t s, lt_min ht hs0, fun f hf k1 k2 => ?_⟩
      rcases List.mem_cons.1 hf with rfl | hf
      · rw [det_up]
        have := mul_le_mul_of_nonneg_right (min_le_right t s) hw.le
        linarith
      · exact mono _ (lt_min ht hs0) (min_le_left _ _) f hf k1 k2
    · refine ⟨t, ht, fun f hf k1 k2 => ?_⟩
      rcases List.mem_cons.1 hf with rfl | hf
      · exact absurd ⟨k1, k2⟩ he
      · exact h f hf k1 k2

/-- Some edge is not vertical. -/
theorem Emitted.slanted {em : List (LineOrPoint K × Winding)} (H : Emitted em) (hne : em ≠ []) : ∃ e ∈ em, e.1.first.x < e.1.second.x := by
  by_contra hcon
  have hv : ∀ e ∈ em, e.1.first.x = e.1.second.x := by
    intro e he
    rcases H.lt e he with h | h
    · exact absurd ⟨e, he, h⟩ hcon
    · exact h.1
  obtain ⟨e, he, hmin⟩ : ∃ e ∈ em, ∀ f ∈ em, e.1.first ≤ f.1.first := by
    clear hcon hv H
    induction em with
    | nil => exact absurd rfl hne
    | cons x l ih =>
      by_cases hl : l = []
      · subst hl; exact ⟨x, by simp, by simp⟩
      · obtain ⟨e, he, h⟩ := ih hl
        rcases le_total x.1.first e.1.first with k | k
        · exact ⟨x, by simp, fun f hf => (List.mem_cons.1 hf).elim (fun e => by rw [e]) fun hf => k.trans (h f hf)⟩
        · exact ⟨e, by simp [he], fun f hf => (List.mem_cons.1 hf).elim (fun e => by rw [e]; exact k) fun hf => h f hf⟩
  have h2 : em.countP (fun f => f.1.second = e.1.first) = 0 := by
    rw [List.countP_eq_zero]
    intro f hf
    simp only [decide_eq_true_eq]
    intro k
    have := H.lt f hf
    rw [k] at this
    exact absurd (hmin f hf) (not_le.2 this)
  have h1 := H.even e.1.first
  rw [h2, Nat.add_zero] at h1
  obtain ⟨l1, l2, hl⟩ := List.append_of_mem he
  have hp : 0 < (l1 ++ l2).countP (fun f => f.1.first = e.1.first) := by
    rw [hl, List.countP_append, List.countP_cons] at h1
    rw [List.countP_append]
    simp only [decide_true, if_true] at h1
    by_contra k
    have e1 : List.countP (fun f => decide (f.1.first = e.1.first)) l1 = 0 := by omega
    have e2 : List.countP (fun f => decide (f.1.first = e.1.first)) l2 = 0 := by omega
    rw [e1, e2] at h1
    exact absurd h1 (by decide)
  obtain ⟨f, hf, k⟩ := List.countP_pos_iff.1 hp
  simp only [decide_eq_true_eq] at k
  have hfm : f ∈ em := by rw [hl]; simp only [List.mem_append, List.mem_cons] at hf ⊢; tauto
  have hd : det e.1.first e.1.second f.1.second = 0 := by
    have x1 := hv e he
    have x2 := hv f hfm
    rw [k] at x2
    unfold det
    rw [← x1, ← x2]; ring
  have hs := H.spread
  rw [hl, List.pairwise_append, List.pairwise_cons] at hs
  rcases List.mem_append.1 hf with hf | hf
  · refine hs.2.2 f hf e (by simp) k ?_
    have x1 := hv e he
    have x2 := hv f hfm
    rw [k] at x2
    unfold det
    rw [k, ← x1, ← x2]; ring
  · exact hs.2.1.1 f hf k.symm hd

/-- If there are edges, some point has an odd number of them below. -/
theorem Emitted.odd {em : List (LineOrPoint K × Winding)} (H : Emitted em) (hm : (em.map (·.1)).Pairwise EndsOnly) (hne : em ≠ []) :
    ∃ r, Odd (em.countP (edgeUnder r)) := by
  obtain ⟨e, he, hx⟩ := H.slanted hne
  obtain ⟨l1, l2, rfl⟩ := List.append_of_mem he
  set p := e.1.first with hp
  set q := e.1.second with hq
  set m : Pt K := ⟨(p.x + q.x) / 2, (p.y + q.y) / 2⟩ with hmd
  have hpm : p.x < m.x := by show p.x < (p.x + q.x) / 2; linarith
  have hmq : m.x < q.x := by show (p.x + q.x) / 2 < q.x; linarith
  have hdm : det p q m = 0 := by rw [hmd]; unfold det; ring
  have hin : Inside p q m := ⟨.inl hpm, .inl hmq, hdm⟩
  have hoff : ∀ f ∈ l1 ++ l2, ¬ OnSeg f.1.first f.1.second m := by
    intro f hf hon
    rw [List.map_append, List.map_cons, List.pairwise_append, List.pairwise_cons] at hm
    rcases List.mem_append.1 hf with hf | hf
    · exact (hm.2.2 f.1 (List.mem_map_of_mem hf) e.1 (by simp) m hon hin.onSeg).2 hin
    · exact (hm.2.1.1 f.1 (List.mem_map_of_mem hf) m hin.onSeg hon).1 hin
  obtain ⟨t, ht, hstep⟩ := small_step ((l1 ++ l2).map fun f => (f.1.first, f.1.second)) m
  have same : ∀ f ∈ l1 ++ l2, edgeUnder (⟨m.x, m.y + t⟩ : Pt K) f = edgeUnder m f := by
    intro f hf
    unfold edgeUnder
    rw [decide_eq_decide]
    unfold Under
    refine and_congr_right fun k1 => and_congr_right fun k2 => ?_
    have hfx : f.1.first.x < f.1.second.x := lt_of_le_of_lt k1 k2
    have hne0 : det f.1.first f.1.second m ≠ 0 := by
      intro h0
      have hlt : f.1.first < f.1.second := .inl hfx
      refine hoff f hf ((onSeg_iff hlt).2 ⟨h0, ?_, le_of_lt (show m < f.1.second from Or.inl k2)⟩)
      rcases k1.eq_or_lt with k | k
      · -- the first end has the same abscissa, so it is the point
        have : m = f.1.first := by
          have e0 : (f.1.second.x - f.1.first.x) * (m.y - f.1.first.y) = 0 := by
            have : det f.1.first f.1.second m = (f.1.second.x - f.1.first.x) * (m.y - f.1.first.y) - (f.1.second.y - f.1.first.y) * (m.x - f.1.first.x) := by
              unfold det; ring
            rw [this, ← k] at h0
            simpa using h0
          have e1 := (mul_eq_zero.1 e0).resolve_left (sub_ne_zero.2 hfx.ne')
          exact pt_ext k.symm (sub_eq_zero.1 e1)
        rw [this]
      · exact le_of_lt (show f.1.first < m from Or.inl k)
    rw [det_up]
    constructor
    · intro h
      by_contra hc
      have := hstep _ (List.mem_map.2 ⟨f, hf, rfl⟩) hfx (lt_of_le_of_ne (not_lt.1 hc) hne0)
      rw [det_up] at this
      exact absurd h (not_lt.2 this.le)
    · intro h
      have := mul_pos ht (sub_pos.2 hfx)
      linarith
  have e0 : edgeUnder m e = false := by
    unfold edgeUnder
    rw [decide_eq_false_iff_not]
    rintro ⟨-, -, h⟩
    exact absurd h (by rw [← hp, ← hq, hdm]; exact lt_irrefl _)
  have e1 : edgeUnder (⟨m.x, m.y + t⟩ : Pt K) e = true := by
    unfold edgeUnder
    rw [decide_eq_true_iff]
    refine ⟨hpm.le, hmq, ?_⟩
    rw [← hp, ← hq, det_up, hdm, zero_add]
    exact mul_pos ht (sub_pos.2 hx)
  have c1 : (l1 ++ l2).countP (edgeUnder (⟨m.x, m.y + t⟩ : Pt K)) = (l1 ++ l2).countP (edgeUnder m) :=
    List.countP_congr fun f hf => by rw [same f hf]
  rw [List.countP_append, List.countP_append] at c1
  by_cases ho : Odd ((l1 ++ e :: l2).countP (edgeUnder m))
  · exact ⟨m, ho⟩
  · refine ⟨⟨m.x, m.y + t⟩, ?_⟩
    rw [List.countP_append, List.countP_cons, e0] at ho
    rw [List.countP_append, List.countP_cons, e1]
    rw [Nat.odd_iff] at ho ⊢
    simp only [Bool.false_eq_true, if_false, if_true] at ho ⊢
    omega

/-! ## Empty results -/

section
variable {ty : OpType} {a b : List (Polygon K)} {na : K → K} {ch : Nat → Nat} {srt : List (Crossing K Nat) → List (Crossing K Nat)} {fuel : Nat} {rings : List (Ring K)}

/-- **C83.** `Op::sweep` returns no rings exactly if no point has the truth table of the operation satisfied. -/
theorem C83_empty (ha : ∀ p ∈ a, ∀ ring ∈ ringsOf p, Closed ring) (hb : ∀ p ∈ b, ∀ ring ∈ ringsOf p, Closed ring)
    (hst : Stable compareCrossings srt ∨ NoOverlap ((a ++ b).flatMap Spec.ringsOf)) (h : BoolOp.sweep ty (opEdges a b) na ch srt fuel = some rings) :
    rings = [] ↔ ∀ r, inResult ty (decide (EvenOdd (a.flatMap ringsOf) r)) (decide (EvenOdd (b.flatMap ringsOf) r)) = false := by
  obtain ⟨N, rings1, s1, -, s3⟩ := sweep_spec ty ha hb na ch hst
  obtain ⟨M, em, rg, rings2, h1, H, hm, r1, r2, -, -⟩ := sweep_edges ty ha hb na ch hst
  have e1 := sweep_mono h (N + M)
  have e2 := e1
  rw [s1 _ (by omega), Option.some.injEq] at e1
  rw [(h1 _ (by omega)).1, Option.some.injEq] at e2
  subst e1 e2
  constructor
  · rintro rfl r
    rw [← Bool.not_eq_true, ← s3 r]
    simp [EvenOdd, edgesBelow]
  · intro hr
    have hem : em = [] := by
      by_contra hne
      obtain ⟨r, ho⟩ := H.odd hm hne
      rw [← rings_below r (C35_edges_conserved em (fun e he => (H.lt e he).ne) r1 r2) H.lt] at ho
      exact absurd ((s3 r).1 ho) (by rw [hr r]; exact Bool.false_ne_true)
    subst hem
    have : rg = Rings.default := (Option.some.inj r1).symm
    subst this
    exact (Option.some.inj r2).symm

/-- **C83.** The difference is empty exactly if the first operand is within the second. -/
theorem C83_within (ha : ∀ p ∈ a, ∀ ring ∈ ringsOf p, Closed ring) (hb : ∀ p ∈ b, ∀ ring ∈ ringsOf p, Closed ring)
    (hst : Stable compareCrossings srt ∨ NoOverlap ((a ++ b).flatMap Spec.ringsOf)) (h : BoolOp.sweep .difference (opEdges a b) na ch srt fuel = some rings) :
    rings = [] ↔ ∀ r, EvenOdd (a.flatMap ringsOf) r → EvenOdd (b.flatMap ringsOf) r := by
  rw [C83_empty ha hb hst h]
  refine forall_congr' fun r => ?_
  by_cases h1 : EvenOdd (a.flatMap ringsOf) r <;> by_cases h2 : EvenOdd (b.flatMap ringsOf) r <;> simp [inResult, h1, h2]

/-- **C83.** The symmetric difference is empty exactly if the operands have the same points inside. -/
theorem C83_equal (ha : ∀ p ∈ a, ∀ ring ∈ ringsOf p, Closed ring) (hb : ∀ p ∈ b, ∀ ring ∈ ringsOf p, Closed ring)
    (hst : Stable compareCrossings srt ∨ NoOverlap ((a ++ b).flatMap Spec.ringsOf)) (h : BoolOp.sweep .xor (opEdges a b) na ch srt fuel = some rings) :
    rings = [] ↔ ∀ r, EvenOdd (a.flatMap ringsOf) r ↔ EvenOdd (b.flatMap ringsOf) r := by
  rw [C83_empty ha hb hst h]
  refine forall_congr' fun r => ?_
  by_cases h1 : EvenOdd (a.flatMap ringsOf) r <;> by_cases h2 : EvenOdd (b.flatMap ringsOf) r <;> simp [inResult, h1, h2]

/-- **C83.** The intersection is empty exactly if no point is inside both operands. -/
theorem C83_disjoint (ha : ∀ p ∈ a, ∀ ring ∈ ringsOf p, Closed ring) (hb : ∀ p ∈ b, ∀ ring ∈ ringsOf p, Closed ring)
    (hst : Stable compareCrossings srt ∨ NoOverlap ((a ++ b).flatMap Spec.ringsOf)) (h : BoolOp.sweep .intersection (opEdges a b) na ch srt fuel = some rings) :
    rings = [] ↔ ∀ r, ¬ (EvenOdd (a.flatMap ringsOf) r ∧ EvenOdd (b.flatMap ringsOf) r) := by
  rw [C83_empty ha hb hst h]
  refine forall_congr' fun r => ?_
  by_cases h1 : EvenOdd (a.flatMap ringsOf) r <;> by_cases h2 : EvenOdd (b.flatMap ringsOf) r <;> simp [inResult, h1, h2]

/-- **C83.** If no point has the truth table satisfied, `boolean_op` returns no polygons. -/
theorem C83_boolean_op (ha : ∀ p ∈ a, ∀ ring ∈ ringsOf p, Closed ring) (hb : ∀ p ∈ b, ∀ ring ∈ ringsOf p, Closed ring)
    (hst : Stable compareCrossings srt ∨ NoOverlap ((a ++ b).flatMap Spec.ringsOf))
    (hr : ∀ r, inResult ty (decide (EvenOdd (a.flatMap ringsOf) r)) (decide (EvenOdd (b.flatMap ringsOf) r)) = false)
    (srt2 : List (Crossing K Nat) → List (Crossing K Nat)) : ∃ N, ∀ fuel, N ≤ fuel → booleanOp a b ty na ch srt srt2 fuel = some [] := by
  obtain ⟨N, em, rg, rings, h1, H, hm, r1, r2, -, -⟩ := sweep_edges ty ha hb na ch hst
  have e := (C83_empty ha hb hst (h1 N (le_refl _)).1).2 hr
  subst e
  obtain ⟨M, par, k⟩ := findParents_same H hm r1 r2 srt2 srt2 na na ch ch
  refine ⟨max N M, fun fuel hf => ?_⟩
  obtain ⟨es, j1, j2⟩ := Option.bind_eq_some_iff.1 (opEdges_eq ha hb)
  unfold booleanOp Laminar.assemble
  simp only [j1, j2, Option.bind_some, (h1 fuel (by omega)).1, (k fuel (by omega)).1]
  rfl

/-- **C83.** If `boolean_op` returns in a build with debug assertions, it returns no polygons exactly if no point has the truth table satisfied. -/
theorem C83_debug (ha : ∀ p ∈ a, ∀ ring ∈ ringsOf p, Closed ring) (hb : ∀ p ∈ b, ∀ ring ∈ ringsOf p, Closed ring)
    {srt2 : List (Crossing K Nat) → List (Crossing K Nat)} (hst : Stable compareCrossings srt ∨ NoOverlap ((a ++ b).flatMap Spec.ringsOf))
    {polys : List (Polygon K)} (h : booleanOpDebug a b ty na ch srt srt2 fuel = some polys) :
    polys = [] ↔ ∀ r, inResult ty (decide (EvenOdd (a.flatMap ringsOf) r)) (decide (EvenOdd (b.flatMap ringsOf) r)) = false := by
  obtain ⟨⟨N, h1⟩, h2⟩ := C63_debug_sound ty ha hb hst h
  constructor
  · rintro rfl r
    rw [← Bool.not_eq_true, ← h2 r]
    simp [EvenOdd, edgesBelow]
  · intro hr
    obtain ⟨M, h3⟩ := C83_boolean_op (na := na) (ch := ch) ha hb hst hr srt2
    have := h1 (max N M) (by omega)
    rw [h3 _ (by omega), Option.some.injEq] at this
    exact this.symm

end

/-! ## Examples -/

/-- The triangle `triA` with a vertex added on each side, starting elsewhere and taken the other way. -/
def triASub : List (Polygon ℚ) := [⟨[⟨2, 0⟩, ⟨4, 0⟩, ⟨2, 2⟩, ⟨0, 4⟩, ⟨0, 1⟩, ⟨0, 0⟩, ⟨2, 0⟩], []⟩]

/-- A larger triangle around `triA`, and a triangle that touches it on one side. -/
def triAround : List (Polygon ℚ) := [⟨[⟨-1, -1⟩, ⟨-1, 8⟩, ⟨8, -1⟩, ⟨-1, -1⟩], []⟩]
def triBeside : List (Polygon ℚ) := [⟨[⟨4, 0⟩, ⟨4, 4⟩, ⟨0, 4⟩, ⟨4, 0⟩], []⟩]

set_option synthInstance.maxSize 1024 in
/-- Empty results of operands that are not equal as lists; and results that are not empty. -/
example : BoolOp.sweep .difference (opEdges triA triAround) id (fun _ => 0) id 60 = some [] ∧
    BoolOp.sweep .xor (opEdges triA triASub) id (fun _ => 0) id 60 = some [] ∧
    BoolOp.sweep .intersection (opEdges triA triBeside) id (fun _ => 0) id 60 = some [] ∧
    booleanOp triA triASub .xor id (fun _ => 0) id id 60 = some [] ∧
    (BoolOp.sweep .difference (opEdges triAround triA) id (fun _ => 0) id 60).map (·.length) = some 2 ∧
    (BoolOp.sweep .union (opEdges triA triBeside) id (fun _ => 0) id 60).map (·.map (·.coords)) =
      some [[⟨4, 0⟩, ⟨0, 0⟩, ⟨0, 4⟩, ⟨4, 4⟩, ⟨4, 0⟩]] := by
  decide +kernel

/-- So `triA` and `triASub` have the same points inside. -/
theorem triASub_same : ∀ r, EvenOdd (triA.flatMap ringsOf) r ↔ EvenOdd (triASub.flatMap ringsOf) r :=
  (C83_equal (a := triA) (b := triASub) (na := id) (ch := fun _ => 0) (srt := id) (fuel := 60) (rings := []) (by decide +kernel) (by decide +kernel)
    (.inl (id_stable _)) (by decide +kernel)).1 rfl

end GeoCrossings
