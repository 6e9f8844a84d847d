import Verif.Props.BopBoundary
import Verif.Spec.BopExpr

/-! # C85: nested boolean operations -/
set_option linter.unusedSectionVars false
namespace GeoCrossings
open Spec BoolOp Rings

variable {K : Type} [Field K] [LinearOrder K] [IsStrictOrderedRing K]

/-- Evaluating an expression by calls of the operations. Each call sweeps the edges of the results of its two parts, with its own choices
and sort, and its polygons have the rings that the sweep returned. -/
inductive Returns : BopExpr K → List (Polygon K) → Prop
  | operand (a : List (Polygon K)) : Returns (.operand a) a
  | op {e f : BopExpr K} {a b : List (Polygon K)} {ty : OpType} {na : K → K} {ch : Nat → Nat} {srt : List (Crossing K Nat) → List (Crossing K Nat)}
      {fuel : Nat} {rings : List (Ring K)} {polys : List (Polygon K)} : Returns e a → Returns f b →
      (Stable compareCrossings srt ∨ NoOverlap ((a ++ b).flatMap Spec.ringsOf)) →
      BoolOp.sweep ty (opEdges a b) na ch srt fuel = some rings → (polys.flatMap ringsOf).Perm (rings.map (·.coords)) → Returns (.op ty e f) polys

theorem evenOdd_perm {l l' : List (List (Pt K))} (h : l.Perm l') (r : Pt K) : EvenOdd l r ↔ EvenOdd l' r := by
  unfold EvenOdd edgesBelow
  rw [(h.map _).sum_eq]

theorem onRings_perm {l l' : List (List (Pt K))} (h : l.Perm l') (z : Pt K) : OnRings l z ↔ OnRings l' z := by
  unfold OnRings
  simp only [h.mem_iff]

theorem polys_nil {polys : List (Polygon K)} : polys.flatMap ringsOf = [] ↔ polys = [] := by
  cases polys <;> simp [ringsOf]

theorem returns_closed {e : BopExpr K} {polys : List (Polygon K)} (h : Returns e polys) (hc : e.closed) :
    (∀ p ∈ polys, ∀ ring ∈ ringsOf p, Closed ring) ∧ ∀ r, EvenOdd (polys.flatMap ringsOf) r ↔ e.inside r = true := by
  induction h with
  | operand a => exact ⟨hc, fun r => by simp [BopExpr.inside]⟩
  | op h1 h2 hst hs hp ih1 ih2 =>
    obtain ⟨a1, a2⟩ := ih1 hc.1
    obtain ⟨b1, b2⟩ := ih2 hc.2
    obtain ⟨s1, -, -, -, s5, -⟩ := result_edges a1 b1 hst hs
    refine ⟨fun p hpm ring hr => ?_, fun r => ?_⟩
    · obtain ⟨g, hg, rfl⟩ := List.mem_map.1 (hp.mem_iff.1 (List.mem_flatMap.2 ⟨p, hpm, hr⟩))
      exact (s1 g hg).1
    · rw [evenOdd_perm hp, s5 r]
      simp only [BopExpr.inside, a2 r, b2 r, Bool.decide_eq_true]

/-- **C85 (region).** A point is inside the result of nested operations iff the expression is true of its membership in the operands. -/
theorem C85_region {e : BopExpr K} (hc : e.closed) {polys : List (Polygon K)} (h : Returns e polys) (r : Pt K) :
    EvenOdd (polys.flatMap ringsOf) r ↔ e.inside r = true := (returns_closed h hc).2 r

/-- **C85 (no panic).** Every call in the evaluation of an expression returns: the sweep of the results of the two parts, whatever these
were, has no panic and ends, in any run. -/
theorem C85_returns {e f : BopExpr K} (he : e.closed) (hf : f.closed) {a b : List (Polygon K)} (ha : Returns e a) (hb : Returns f b) (ty : OpType)
    (na : K → K) (ch : Nat → Nat) {srt : List (Crossing K Nat) → List (Crossing K Nat)}
    (hst : Stable compareCrossings srt ∨ NoOverlap ((a ++ b).flatMap Spec.ringsOf)) :
    ∃ N rings, (∀ fuel, N ≤ fuel → BoolOp.sweep ty (opEdges a b) na ch srt fuel = some rings) ∧ Returns (.op ty e f) (asPolys rings) := by
  obtain ⟨N, rings, h1, -⟩ := sweep_spec ty (returns_closed ha he).1 (returns_closed hb hf).1 na ch hst
  exact ⟨N, rings, h1, .op ha hb hst (h1 N (le_refl _)) (by rw [asPolys_rings])⟩

/-- So every expression has a result. -/
theorem C85_total (e : BopExpr K) (hc : e.closed) : ∃ polys, Returns e polys := by
  induction e with
  | operand a => exact ⟨a, .operand a⟩
  | op ty e f ih1 ih2 =>
    obtain ⟨a, ha⟩ := ih1 hc.1
    obtain ⟨b, hb⟩ := ih2 hc.2
    obtain ⟨N, rings, -, h⟩ := C85_returns hc.1 hc.2 ha hb ty id (fun _ => 0) (.inl (id_stable _))
    exact ⟨_, h⟩

/-- **C85 (`boolean_op`).** If each part was evaluated and `boolean_op` returned in a build with debug assertions, its polygons
are a result of the expression. -/
theorem C85_boolean_op {e f : BopExpr K} (he : e.closed) (hf : f.closed) {a b : List (Polygon K)} (ha : Returns e a) (hb : Returns f b) {ty : OpType}
    {na : K → K} {ch : Nat → Nat} {srt srt2 : List (Crossing K Nat) → List (Crossing K Nat)}
    (hst : Stable compareCrossings srt ∨ NoOverlap ((a ++ b).flatMap Spec.ringsOf)) {fuel : Nat} {polys : List (Polygon K)}
    (h : booleanOpDebug a b ty na ch srt srt2 fuel = some polys) : Returns (.op ty e f) polys := by
  have ca := (returns_closed ha he).1
  have cb := (returns_closed hb hf).1
  have e1 : (addMultiPolygon [] a true).bind (fun es => addMultiPolygon es b false) = some (opEdges a b) := opEdges_eq ca cb
  obtain ⟨es1, q1, q2⟩ := Option.bind_eq_some_iff.1 e1
  unfold booleanOpDebug at h
  rw [q1, Option.bind_some, q2, Option.bind_some] at h
  obtain ⟨rings, d1, d2⟩ := Option.bind_eq_some_iff.1 h
  obtain ⟨par, d3, d4⟩ := Option.bind_eq_some_iff.1 d2
  obtain ⟨N, em, rg, k, H, hm, r1, r2, hpa, h4⟩ := sweepDebug_run ty ca cb hst d1
  obtain ⟨N', parents, k1, k2⟩ := findParents_of H hm r1 r2 hpa srt2 na ch
  have d5 := Laminar.findParents_mono (Laminar.findParents_le d3) N'
  rw [k1 _ (Nat.le_add_left _ _), Option.some.injEq] at d5
  subst d5
  rw [Laminar.C39_each_ring_once rings parents k2, Option.some.injEq] at d4
  subst d4
  exact .op ha hb hst (k N (le_refl _)).1 (Laminar.C39_conserved rings parents k2)

/-- **C85 (empty).** The result of nested operations has no polygons exactly if the expression is true at no point. -/
theorem C85_empty {ty : OpType} {e f : BopExpr K} (hc : (BopExpr.op ty e f).closed) {polys : List (Polygon K)} (h : Returns (.op ty e f) polys) :
    polys = [] ↔ ∀ r, (BopExpr.op ty e f).inside r = false := by
  cases h with
  | op h1 h2 hst hs hp =>
    obtain ⟨a1, a2⟩ := returns_closed h1 hc.1
    obtain ⟨b1, b2⟩ := returns_closed h2 hc.2
    have := C83_empty a1 b1 hst hs
    simp only [a2, b2, Bool.decide_eq_true] at this
    simp only [BopExpr.inside]
    rw [← polys_nil, ← this]
    constructor
    · intro k
      rw [k] at hp
      simpa using hp.symm.eq_nil
    · rintro rfl
      exact hp.eq_nil

/-- **C85 (equivalent expressions).** Two expressions have the same value at all points exactly if their results have the same points on
their boundaries, however the calls were made. -/
theorem C85_boundary {ty ty' : OpType} {e f e' f' : BopExpr K} (hc : (BopExpr.op ty e f).closed) (hc' : (BopExpr.op ty' e' f').closed)
    {polys polys' : List (Polygon K)} (h : Returns (.op ty e f) polys) (h' : Returns (.op ty' e' f') polys') :
    (∀ r, (BopExpr.op ty e f).inside r = (BopExpr.op ty' e' f').inside r) ↔
      ∀ z, OnRings (polys.flatMap ringsOf) z ↔ OnRings (polys'.flatMap ringsOf) z := by
  cases h with
  | op h1 h2 hst hs hp =>
    cases h' with
    | op h1' h2' hst' hs' hp' =>
      obtain ⟨a1, a2⟩ := returns_closed h1 hc.1
      obtain ⟨b1, b2⟩ := returns_closed h2 hc.2
      obtain ⟨a1', a2'⟩ := returns_closed h1' hc'.1
      obtain ⟨b1', b2'⟩ := returns_closed h2' hc'.2
      have := C84_boundary a1 b1 a1' b1' hst hst' hs hs'
      simp only [a2, b2, a2', b2', Bool.decide_eq_true] at this
      simp only [BopExpr.inside, onRings_perm hp, onRings_perm hp']
      exact this

/-- **C85 (laws).** Both sides of a law of sets have results with the same points inside and the same points on their boundaries. -/
theorem C85_laws {e e' : BopExpr K} (hl : SetLaw e e') (hc : e.closed) {polys polys' : List (Polygon K)} (h : Returns e polys) (h' : Returns e' polys') :
    (∀ r, EvenOdd (polys.flatMap ringsOf) r ↔ EvenOdd (polys'.flatMap ringsOf) r) ∧
      ∀ z, OnRings (polys.flatMap ringsOf) z ↔ OnRings (polys'.flatMap ringsOf) z := by
  have hi : ∀ r, e.inside r = e'.inside r := by
    intro r
    cases hl with
    | union_assoc a b c | inter_assoc a b c | xor_assoc a b c | union_inter a b c | inter_union a b c | inter_xor a b c | diff_union a b c
    | diff_inter a b c | diff_diff a b c =>
      simp only [BopExpr.inside, inResult]
      cases a.inside r <;> cases b.inside r <;> cases c.inside r <;> rfl
    | inter_diff a b | xor_union a b | xor_diff a b | union_xor a b =>
      simp only [BopExpr.inside, inResult]
      cases a.inside r <;> cases b.inside r <;> rfl
  have hc' : e'.closed := by
    cases hl <;> simp only [BopExpr.closed] at hc ⊢ <;> tauto
  refine ⟨fun r => by rw [C85_region hc h, C85_region hc' h', hi r], ?_⟩
  cases hl <;> exact (C85_boundary hc hc' h h').1 hi

/-! ## Examples -/

/-- For the example: operations one after the other. -/
def thenOp (ty : OpType) (a b : Option (List (Polygon ℚ))) : Option (List (Polygon ℚ)) :=
  a.bind fun a => b.bind fun b => (BoolOp.sweep ty (opEdges a b) id (fun _ => 0) id 90).map asPolys

set_option synthInstance.maxSize 1024 in
/-- `(A ∪ B) ∖ (A ∩ B)` and `A ⊕ B` of two triangles that cross; and `A ∖ (A ∪ B)`, which is empty. -/
example : (thenOp .difference (thenOp .union (some triA) (some triB)) (thenOp .intersection (some triA) (some triB))).map (·.map (·.ext)) =
      (thenOp .xor (some triA) (some triB)).map (·.map (·.ext)) ∧
    (thenOp .xor (some triA) (some triB)).map (·.map (·.ext)) =
      some [[⟨3, 1⟩, ⟨4, 0⟩, ⟨0, 0⟩, ⟨0, 4⟩, ⟨1, 3⟩, ⟨1, 1⟩, ⟨3, 1⟩], [⟨3, 1⟩, ⟨1, 3⟩, ⟨1, 5⟩, ⟨5, 1⟩, ⟨3, 1⟩]] ∧
    thenOp .difference (some triA) (thenOp .union (some triA) (some triB)) = some [] := by
  decide +kernel

end GeoCrossings
