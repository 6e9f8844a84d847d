import Verif.Lemmas.LamInput

/-! # C41, C58: the holes that `Op::sweep` finds and the polygons that `boolean_op` returns -/
set_option linter.unusedSectionVars false
namespace GeoCrossings
open Spec BoolOp Rings

variable {K : Type} [Field K] [LinearOrder K] [IsStrictOrderedRing K]

/-- The run that gave some result. -/
theorem sweep_run_of (ty : OpType) {a b : List (Polygon K)} (ha : ∀ p ∈ a, ∀ ring ∈ ringsOf p, Closed ring)
    (hb : ∀ p ∈ b, ∀ ring ∈ ringsOf p, Closed ring) {nextAfter : K → K} {choice : Nat → Nat}
    {srt : List (Crossing K Nat) → List (Crossing K Nat)} (hst : Stable compareCrossings srt ∨ NoOverlap ((a ++ b).flatMap Spec.ringsOf))
    {fuel : Nat} {rings : List (Ring K)} (hr : BoolOp.sweep ty (opEdges a b) nextAfter choice srt fuel = some rings) :
    ∃ em rg, Emitted em ∧ (em.map (·.1)).Pairwise EndsOnly ∧ ofEdges em = some rg ∧ rg.finish = some rings ∧
      (∀ e ∈ em, ∃ o ∈ opEdges a b, OnSeg o.geom.first o.geom.second e.1.first ∧ OnSeg o.geom.first o.geom.second e.1.second) ∧
      ∀ r, em.countP (edgeUnder r) % 2 = 1 ↔
        inResult ty (decide (EvenOdd (a.flatMap ringsOf) r)) (decide (EvenOdd (b.flatMap ringsOf) r)) = true := by
  obtain ⟨N, em, rg, rings', h1, h2, h3, r1, r2, h5, h4⟩ := sweep_run ty ha hb nextAfter choice hst
  have := sweep_mono hr N
  rw [h1 _ (by omega), Option.some.injEq] at this
  subst this
  exact ⟨em, rg, h2, h3, r1, r2, h5, h4⟩

/-- **C58.** A ring that `Op::sweep` returns is marked as a hole iff the region just below its least vertex belongs to the result of
the operation, provided that no point is the left end of more than two edges of the result (without this it fails, see
`C58_needs_two`). -/
theorem C58_is_hole (ty : OpType) {a b : List (Polygon K)} (ha : ∀ p ∈ a, ∀ ring ∈ ringsOf p, Closed ring)
    (hb : ∀ p ∈ b, ∀ ring ∈ ringsOf p, Closed ring) (nextAfter : K → K) (choice : Nat → Nat)
    {srt : List (Crossing K Nat) → List (Crossing K Nat)} (hst : Stable compareCrossings srt ∨ NoOverlap ((a ++ b).flatMap Spec.ringsOf))
    {es : List (OpEdge K)} (hes : (addMultiPolygon [] a true).bind (fun es => addMultiPolygon es b false) = some es)
    {fuel : Nat} {rings : List (Ring K)} (hr : BoolOp.sweep ty es nextAfter choice srt fuel = some rings)
    (h2 : ∀ v, (edgesOf rings).countP (fun e => e.first = v) ≤ 2) :
    ∀ g ∈ rings, ∀ v ∈ g.coords, (∀ q ∈ g.coords, v ≤ q) →
      (g.isHole = true ↔ inResult ty (decide (EvenOdd (a.flatMap ringsOf) v)) (decide (EvenOdd (b.flatMap ringsOf) v)) = true) := by
  rw [opEdges_eq ha hb, Option.some.injEq] at hes
  subst hes
  obtain ⟨em, rg, H, -, r1, r2, -, h4⟩ := sweep_run_of ty ha hb hst hr
  intro g hg v hv hmin
  rw [← h4 v]
  have hp := edgesOf_perm (C35_edges_conserved em (fun e he => (H.lt e he).ne) r1 r2) H.lines
  refine H.isHole (fun w => ?_) r1 r2 g hg v hv hmin
  have := h2 w
  rw [hp.countP_eq, List.countP_map] at this
  exact this

/-- The parents that `assemble` finds for the rings of `Op::sweep`. -/
theorem findParents_of {em : List (LineOrPoint K × Winding)} (H : Emitted em) (hm : (em.map (·.1)).Pairwise EndsOnly) {rg : Rings K} {rings : List (Ring K)}
    (r1 : ofEdges em = some rg) (r2 : rg.finish = some rings) (hpa : ∀ v, PairedAt em v)
    (srt' : List (Crossing K Nat) → List (Crossing K Nat)) (nextAfter : K → K) (choice : Nat → Nat) :
    ∃ N parents, (∀ fuel, N ≤ fuel → Laminar.findParents false rings nextAfter choice srt' fuel = some parents) ∧
      ∀ i r, rings[i]? = some r → r.isHole → ∃ p, rings[parents i]? = some p ∧ p.isHole = false := by
  have R := ringEdgesOk H hm r1 r2 hpa
  obtain ⟨it, i1, N, par, k1, pos, reg, k2, k3⟩ := lam_run (P := ParInv (geomR rings) (inputR rings) (ringR rings) (holeR rings) rings.length)
    R.he R.ha (holeR rings) (ringR rings) srt' nextAfter choice
    (fun pos hp => ⟨by simp, by simp, fun c hc hle => absurd (hp c hc) (not_lt.2 hle)⟩) (fun _ _ _ _ _ _ _ _ hs h => h.step R hs)
  refine ⟨N, par, fun fuel hf => by rw [findParents_eq (by simp), i1, Option.bind_some, k1 false (by simp) fuel hf], ?_⟩
  intro i r hi hh
  have hrm := List.mem_of_getElem? hi
  have hsc := C37_rings_simple em (fun e he => (H.lt e he).ne) r1 r2 r hrm
  have hne := consec_ne (C35_edges_conserved em (fun e he => (H.lt e he).ne) r1 r2) H.lt
  obtain ⟨q, hq⟩ : ∃ q, q ∈ r.coords := List.exists_mem_of_ne_nil _ (by
    have := hsc.2.2
    intro h; rw [h] at this; simp at this)
  obtain ⟨e, he, -⟩ := end_properEdges (hne r hrm) (by have := hsc.2.2; omega) q hq
  obtain ⟨c, hc, rfl, rfl⟩ := exists_inputR hne hi he
  have hcl : (geomR rings c).first ≤ pos := (R.he.ends hc).2.2.le.trans (k2 c hc)
  obtain ⟨x1, x2⟩ := k3.hol c hc hcl (by unfold holeR; rw [hi]; exact hh)
  refine ⟨rings[par (ringR rings c)], List.getElem?_eq_getElem x2, ?_⟩
  unfold holeR at x1
  rw [List.getElem?_eq_getElem x2] at x1
  exact x1

theorem evenOdd_polygonsFor {rings : List (Ring K)} {parents : Nat → Nat}
    (k2 : ∀ i r, rings[i]? = some r → r.isHole → ∃ p, rings[parents i]? = some p ∧ p.isHole = false) (r : Pt K) :
    EvenOdd ((polygonsFor rings parents).flatMap ringsOf) r ↔ EvenOdd (rings.map (·.coords)) r := by
  have hperm := Laminar.C39_conserved rings parents k2
  have : edgesBelow ((polygonsFor rings parents).flatMap ringsOf) r = edgesBelow (rings.map (·.coords)) r := (hperm.map _).sum_eq
  unfold EvenOdd
  rw [this]

/-- **C41 (when at most two edges of the result start at each point).** Suppose that no point is the left end of more than two edges
of the result. Then `boolean_op` returns, and a point is inside the rings of the returned multipolygon, by the even-odd rule, iff the
truth table of the operation holds for its membership in the two operands.

Without the assumption the statement fails, see `C41_fails_for_boolean_op`. -/
theorem C41_boolean_op_two_partial (ty : OpType) {a b : List (Polygon K)} (ha : ∀ p ∈ a, ∀ ring ∈ ringsOf p, Closed ring)
    (hb : ∀ p ∈ b, ∀ ring ∈ ringsOf p, Closed ring) (nextAfter : K → K) (choice : Nat → Nat)
    {srt srt' : List (Crossing K Nat) → List (Crossing K Nat)} (hst : Stable compareCrossings srt ∨ NoOverlap ((a ++ b).flatMap Spec.ringsOf))
    (h2 : ∀ es fuel rings, (addMultiPolygon [] a true).bind (fun es => addMultiPolygon es b false) = some es →
      BoolOp.sweep ty es nextAfter choice srt fuel = some rings → ∀ v, (edgesOf rings).countP (fun e => e.first = v) ≤ 2) :
    ∃ N polys, (∀ fuel, N ≤ fuel → booleanOp a b ty nextAfter choice srt srt' fuel = some polys) ∧
      ∀ r, EvenOdd (polys.flatMap ringsOf) r ↔
        inResult ty (decide (EvenOdd (a.flatMap ringsOf) r)) (decide (EvenOdd (b.flatMap ringsOf) r)) = true := by
  obtain ⟨N, rings, h, h1, h3⟩ := sweep_spec ty ha hb nextAfter choice hst
  obtain ⟨em, rg, H, hm, r1, r2, -, -⟩ := sweep_run_of ty ha hb hst (h N (le_refl _))
  obtain ⟨N', parents, k1, k2⟩ := findParents_of H hm r1 r2 (paired_of_two H r1 r2 (h2 _ N rings (opEdges_eq ha hb) (h N (le_refl _)))) srt' nextAfter choice
  have hbo : ∀ fuel, max N N' ≤ fuel → booleanOp a b ty nextAfter choice srt srt' fuel = some (polygonsFor rings parents) := by
    intro fuel hf
    have e1 : (addMultiPolygon [] a true).bind (fun es => addMultiPolygon es b false) = some (opEdges a b) := opEdges_eq ha hb
    obtain ⟨es1, q1, q2⟩ := Option.bind_eq_some_iff.1 e1
    unfold booleanOp
    rw [q1, Option.bind_some, q2, Option.bind_some, h fuel (by omega), Option.bind_some]
    unfold Laminar.assemble
    rw [k1 fuel (by omega), Option.bind_some]
    exact Laminar.C39_each_ring_once rings parents k2
  refine ⟨max N N', polygonsFor rings parents, hbo, ?_⟩
  intro r
  rw [← h3 r]
  exact evenOdd_polygonsFor k2 r

end GeoCrossings
