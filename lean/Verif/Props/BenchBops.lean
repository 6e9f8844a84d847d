import Verif.Model.BenchBops
import Verif.Props.BopRegion
import Verif.Props.BopSize
import Verif.Lemmas.MonoArea
import Verif.Lemmas.MonoBase
import Verif.Spec.ValidPolygon

/-!
# What the fixture tests of `boolean_op` check (C104)
-/
set_option linter.unusedSectionVars false
namespace GeoCrossings.Fixture
open Spec

variable {K : Type} [Field K] [LinearOrder K] [IsStrictOrderedRing K]

/-! ## The conversions -/

theorem closeRing_of {r : List (Pt K)} (h : Closed r) : closeRing r = r := by
  unfold closeRing
  cases hr : r.head? with
  | none => rfl
  | some a => exact if_pos (h.symm.trans hr)

/-- **C104 (conversions).** Converting a polygon and converting it back keeps the exterior and drops the holes. -/
theorem C104_round_trip {p : Polygon K} (h : Closed p.ext) : convertBackPoly (convertPoly p) = ⟨p.ext, []⟩ ∧
    (convertBackPoly (convertPoly p) = p ↔ p.ints = []) := by
  have e : convertBackPoly (convertPoly p) = ⟨p.ext, []⟩ := by
    unfold convertBackPoly convertPoly
    rw [closeRing_of h, closeRing_of h]
  refine ⟨e, ?_⟩
  rw [e]
  obtain ⟨ext, ints⟩ := p
  simp [eq_comm]

/-- The area of a polygon: that of the exterior less those of the holes. -/
def areaOf (p : Polygon K) : K := |ringArea p.ext| - (p.ints.map fun r => |ringArea r|).sum

/-- **C104 (area).** The converted polygon has a larger area exactly if there are holes: what the other library is given, and what is reported of
its results, is not the polygon. -/
theorem C104_area {p : Polygon K} (h : ValidPolygon p.ext p.ints) : areaOf p ≤ areaOf (convertPoly p) ∧ (areaOf (convertPoly p) = areaOf p ↔ p.ints = []) := by
  have e : areaOf (convertPoly p) = |ringArea p.ext| := by
    unfold areaOf convertPoly
    rw [closeRing_of (h.closed p.ext (by simp)).1]
    simp
  have pos : ∀ l : List (List (Pt K)), l ⊆ p.ints → 0 ≤ (l.map fun r => |ringArea r|).sum ∧ ((l.map fun r => |ringArea r|).sum = 0 → l = []) := by
    intro l
    induction l with
    | nil => simp
    | cons r l ih =>
      intro hl
      have hr : 0 < |ringArea r| := by
        rcases Monotone.winding_area (Monotone.valid_single h (List.mem_cons_of_mem _ (hl (List.mem_cons_self ..)))) with k | k
        · exact abs_pos.2 k.2.ne
        · exact abs_pos.2 k.2.ne'
      have := (ih fun x hx => hl (List.mem_cons_of_mem _ hx)).1
      rw [List.map_cons, List.sum_cons]
      exact ⟨by linarith, fun k => by linarith⟩
  obtain ⟨k1, k2⟩ := pos p.ints fun _ h => h
  rw [e, areaOf]
  refine ⟨by linarith, fun k => k2 (by linarith), fun k => by rw [k]; simp⟩

/-! ## The comparison -/

section
variable {na : K → K} {ch : Nat → Nat} {srt srt2 : List (Crossing K Nat) → List (Crossing K Nat)} {fuel : Nat}

/-- The rings of a result are closed and simple. -/
theorem debug_rings {ty : OpType} {a b : List (Polygon K)} (ha : ∀ p ∈ a, ∀ ring ∈ ringsOf p, Closed ring) (hb : ∀ p ∈ b, ∀ ring ∈ ringsOf p, Closed ring)
    (hst : Stable BoolOp.compareCrossings srt ∨ NoOverlap ((a ++ b).flatMap Spec.ringsOf)) {polys : List (Polygon K)}
    (h : booleanOpDebug a b ty na ch srt srt2 fuel = some polys) : ∀ p ∈ polys, ∀ ring ∈ ringsOf p, SimpleClosed ring := by
  have e1 : (addMultiPolygon [] a true).bind (fun es => addMultiPolygon es b false) = some (opEdges a b) := opEdges_eq ha hb
  obtain ⟨es1, q1, q2⟩ := Option.bind_eq_some_iff.1 e1
  unfold booleanOpDebug at h
  rw [q1, Option.bind_some, q2, Option.bind_some] at h
  obtain ⟨rings, d1, d2⟩ := Option.bind_eq_some_iff.1 h
  obtain ⟨par, d3, d4⟩ := Option.bind_eq_some_iff.1 d2
  obtain ⟨N, em, rg, k, H, hm, r1, r2, hpa, -⟩ := sweepDebug_run ty ha hb hst d1
  obtain ⟨N1, parents, k1, k2⟩ := findParents_of H hm r1 r2 hpa srt2 na ch
  have d5 := Laminar.findParents_mono (Laminar.findParents_le d3) N1
  rw [k1 _ (Nat.le_add_left _ _), Option.some.injEq] at d5
  subst d5
  rw [Laminar.C39_each_ring_once rings parents k2, Option.some.injEq] at d4
  subst d4
  have hp := Laminar.C39_conserved rings parents k2
  have hsc := C37_rings_simple em (fun e he => (H.lt e he).ne) r1 r2
  intro p hp' ring hring
  obtain ⟨g, hg, rfl⟩ := List.mem_map.1 (hp.mem_iff.1 (List.mem_flatMap.2 ⟨p, hp', hring⟩))
  exact hsc g hg

/-- A result is empty for `geo` exactly if it has no polygons. -/
theorem multiEmpty_iff {ty : OpType} {a b : List (Polygon K)} (ha : ∀ p ∈ a, ∀ ring ∈ ringsOf p, Closed ring) (hb : ∀ p ∈ b, ∀ ring ∈ ringsOf p, Closed ring)
    (hst : Stable BoolOp.compareCrossings srt ∨ NoOverlap ((a ++ b).flatMap Spec.ringsOf)) {polys : List (Polygon K)}
    (h : booleanOpDebug a b ty na ch srt srt2 fuel = some polys) : multiEmpty polys = true ↔ polys = [] := by
  have := debug_rings ha hb hst h
  cases polys with
  | nil => simp [multiEmpty]
  | cons p l =>
    have k := (this p (by simp) p.ext (by simp [ringsOf])).2.2
    have : p.ext ≠ [] := fun e => by rw [e] at k; simp at k
    simp [multiEmpty, this]

/-- The operation a fixture means: its truth table, and whether the operands are swapped. -/
def meant (ty : String) : Option (Bool → Bool → Bool) :=
  if ty = "intersection" then some fun a b => a && b
  else if ty = "union" then some fun a b => a || b
  else if ty = "xor" then some fun a b => a != b
  else if ty = "diff" then some fun a b => a && !b
  else if ty = "diff_ba" then some fun a b => b && !a
  else none

/-- The runs of `boolean_op` in a test. -/
def runner (na : K → K) (ch : Nat → Nat) (srt srt2 : List (Crossing K Nat) → List (Crossing K Nat)) (fuel : Nat) : Runner K :=
  fun a b ty => booleanOpDebug a b ty na ch srt srt2 fuel

variable {p1 p2 p : List (Polygon K)}

/-- **C104 (operations).** What the fixture test computes is the operation that is named. -/
theorem C104_operation (h1 : ∀ p ∈ p1, ∀ ring ∈ ringsOf p, Closed ring) (h2 : ∀ p ∈ p2, ∀ ring ∈ ringsOf p, Closed ring)
    (hst : Stable BoolOp.compareCrossings srt) {ty : String} {ours : List (Polygon K)} (h : fixtureOp (runner na ch srt srt2 fuel) ty p1 p2 = some ours) :
    ∃ f, meant ty = some f ∧ (∀ q ∈ ours, ∀ ring ∈ ringsOf q, Closed ring) ∧ ∀ r, EvenOdd (ours.flatMap ringsOf) r ↔
      f (decide (EvenOdd (p1.flatMap ringsOf) r)) (decide (EvenOdd (p2.flatMap ringsOf) r)) = true := by
  have key : ∀ {ty a b}, (∀ p ∈ a, ∀ ring ∈ ringsOf p, Closed ring) → (∀ p ∈ b, ∀ ring ∈ ringsOf p, Closed ring) →
      runner na ch srt srt2 fuel a b ty = some ours → (∀ q ∈ ours, ∀ ring ∈ ringsOf q, Closed ring) ∧
        ∀ r, EvenOdd (ours.flatMap ringsOf) r ↔ inResult ty (decide (EvenOdd (a.flatMap ringsOf) r)) (decide (EvenOdd (b.flatMap ringsOf) r)) = true :=
    fun ha hb k => ⟨fun q hq ring hr => (debug_rings ha hb (.inl hst) k q hq ring hr).1, (C63_debug_sound _ ha hb (.inl hst) k).2⟩
  unfold fixtureOp at h
  unfold meant
  split_ifs at h ⊢
  · exact ⟨_, rfl, key h1 h2 h⟩
  · exact ⟨_, rfl, key h1 h2 h⟩
  · exact ⟨_, rfl, key h1 h2 h⟩
  · exact ⟨_, rfl, key h1 h2 h⟩
  · exact ⟨_, rfl, key h2 h1 h⟩

/-- **C104.** The fixture test says `identical` exactly if both runs return and every point inside the expected result is inside the operation of the
two operands. It does not notice if there are more. -/
theorem C104_identical (h1 : ∀ p ∈ p1, ∀ ring ∈ ringsOf p, Closed ring) (h2 : ∀ p ∈ p2, ∀ ring ∈ ringsOf p, Closed ring)
    (hp : ∀ q ∈ p, ∀ ring ∈ ringsOf q, Closed ring) (hst : Stable BoolOp.compareCrossings srt) (ty : String) :
    (fixtureComment (runner na ch srt srt2 fuel) ty p1 p2 p = .identical →
      ∃ f, meant ty = some f ∧ ∀ r, EvenOdd (p.flatMap ringsOf) r →
        f (decide (EvenOdd (p1.flatMap ringsOf) r)) (decide (EvenOdd (p2.flatMap ringsOf) r)) = true) ∧
    (fixtureComment (runner na ch srt srt2 fuel) ty p1 p2 p = .relerr →
      ∃ f r, meant ty = some f ∧ EvenOdd (p.flatMap ringsOf) r ∧
        f (decide (EvenOdd (p1.flatMap ringsOf) r)) (decide (EvenOdd (p2.flatMap ringsOf) r)) = false) := by
  unfold fixtureComment
  cases ho : fixtureOp (runner na ch srt srt2 fuel) ty p1 p2 with
  | none => exact ⟨fun k => by simp at k, fun k => by simp at k⟩
  | some ours =>
    obtain ⟨f, hf, hc, hr⟩ := C104_operation h1 h2 hst ho
    simp only
    cases hd : runner na ch srt srt2 fuel p ours .difference with
    | none => exact ⟨fun k => by simp at k, fun k => by simp at k⟩
    | some diff =>
      simp only
      have e1 := multiEmpty_iff hp hc (.inl hst) hd
      have e2 := C83_debug hp hc (.inl hst) hd
      refine ⟨fun k => ⟨f, hf, fun r h => ?_⟩, fun k => ?_⟩
      · split_ifs at k with q
        have q : multiEmpty diff = true := by simpa using q
        have := e2.1 (e1.1 q) r
        rw [← hr r]
        by_contra hn
        simp [inResult, h, hn] at this
      · split_ifs at k with q
        have q : multiEmpty diff ≠ true := by simpa using q
        obtain ⟨r, h⟩ := not_forall.1 (mt e2.2 (mt e1.2 q))
        refine ⟨f, r, hf, ?_⟩
        rw [Bool.not_eq_false] at h
        have h' := hr r
        by_cases a1 : EvenOdd (p.flatMap ringsOf) r <;> by_cases a2 : EvenOdd (ours.flatMap ringsOf) r <;>
          simp only [inResult, a1, a2, decide_true, decide_false, Bool.not_true, Bool.not_false, Bool.and_true, Bool.and_false, Bool.false_eq_true] at h
        exact ⟨a1, by rw [← Bool.not_eq_true, ← h']; exact a2⟩

/-- **C104 (a check of both sides).** With the symmetric difference in place of the difference the test would be exact. -/
theorem C104_xor {ours : List (Polygon K)} (hp : ∀ q ∈ p, ∀ ring ∈ ringsOf q, Closed ring) (ho : ∀ q ∈ ours, ∀ ring ∈ ringsOf q, Closed ring)
    (hst : Stable BoolOp.compareCrossings srt) {diff : List (Polygon K)} (h : runner na ch srt srt2 fuel p ours .xor = some diff) :
    multiEmpty diff = true ↔ ∀ r, EvenOdd (p.flatMap ringsOf) r ↔ EvenOdd (ours.flatMap ringsOf) r := by
  rw [multiEmpty_iff hp ho (.inl hst) h, C83_debug hp ho (.inl hst) h]
  refine forall_congr' fun r => ?_
  by_cases h1 : EvenOdd (p.flatMap ringsOf) r <;> by_cases h2 : EvenOdd (ours.flatMap ringsOf) r <;> simp [inResult, h1, h2]

end

/-! ## Examples -/

/-- What a fixture may expect of the union of `triA` and `triAround`: too little. -/
theorem C104_one_sided : fixtureComment (runner id (fun _ => 0) id id 60) "union" triA triAround triA = .identical ∧
    ¬ ∀ r : Pt ℚ, EvenOdd (triA.flatMap ringsOf) r ↔ (EvenOdd (triA.flatMap ringsOf) r ∨ EvenOdd (triAround.flatMap ringsOf) r) := by
  refine ⟨by decide +kernel, fun h => ?_⟩
  exact absurd ((h ⟨-1 / 2, 1⟩).2 (.inr (by decide +kernel))) (by decide +kernel)

/-- It does notice if there is too little in the result; and `diff_ba` is the other difference. -/
example : fixtureComment (runner id (fun _ => 0) id id 60) "intersection" triA triAround triAround = .relerr ∧
    fixtureComment (runner id (fun _ => 0) id id 60) "diff_ba" triB triA triDiff = .identical ∧
    fixtureComment (runner id (fun _ => 0) id id 60) "diff" triB triA triDiff = .relerr ∧
    fixtureComment (runner id (fun _ => 0) id id 60) "sum" triB triA triDiff = .panic := by
  decide +kernel

end GeoCrossings.Fixture
