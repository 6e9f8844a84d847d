import Verif.Lemmas.BopAnySort
import Verif.Props.BopPlain

/-! # C73: the sort of the crossings matters for overlapping edges only -/
set_option linter.unusedSectionVars false
namespace GeoCrossings
open Spec BoolOp Rings

variable {K : Type} [Field K] [LinearOrder K] [IsStrictOrderedRing K]

/-- **C73.** If no two edges of the operands have more than one point in common, then all ways to sort the crossings of a batch, stable or not, make `Op::sweep` return
the same rings, which are right by the even-odd rule; and `boolean_op`, if it is run with enough fuel, does not depend on the sort in `Op::sweep`. Compare
`C41_needs_stable_sort`. -/
theorem C73_any_sort (ty : OpType) {a b : List (Polygon K)} (ha : ∀ p ∈ a, ∀ ring ∈ ringsOf p, Closed ring)
    (hb : ∀ p ∈ b, ∀ ring ∈ ringsOf p, Closed ring) (hab : NoOverlap ((a ++ b).flatMap ringsOf)) (nextAfter : K → K) (choice : Nat → Nat) :
    ∃ N es rings, (addMultiPolygon [] a true).bind (fun es => addMultiPolygon es b false) = some es ∧
      (∀ srt fuel, N ≤ fuel → BoolOp.sweep ty es nextAfter choice srt fuel = some rings) ∧
      (∀ r, EvenOdd (rings.map (·.coords)) r ↔
        inResult ty (decide (EvenOdd (a.flatMap ringsOf) r)) (decide (EvenOdd (b.flatMap ringsOf) r)) = true) ∧
      ∀ srt₁ srt₂ srt' fuel, N ≤ fuel →
        booleanOp a b ty nextAfter choice srt₁ srt' fuel = booleanOp a b ty nextAfter choice srt₂ srt' fuel := by
  have he := opEdges_ok ha hb
  obtain ⟨N, rings, k1, -, k3⟩ := sweep_spec ty ha hb nextAfter choice (srt := id) (.inr hab)
  obtain ⟨cl, hcl⟩ := critical_finite ((List.range (opEdges a b).length).map fun i => (geomOf (opEdges a b) i).toLine)
  obtain ⟨pos, st, X, h1, h2, h3, h4, h5⟩ := full_init' (org := fun c => (LineOrPoint.ofLine (geomOf (opEdges a b) c).toLine).first)
    (fun i => (geomOf (opEdges a b) i).toLine) (List.range (opEdges a b).length) (fun _ _ => rfl)
  have hany : ∀ srt fuel, X.measure cl < fuel → BoolOp.sweep ty (opEdges a b) nextAfter choice srt fuel = BoolOp.sweep ty (opEdges a b) nextAfter choice id fuel := by
    intro srt fuel hf
    unfold BoolOp.sweep sweepRings
    have : CrossingsIter.ofInput (fun i => (geomOf (opEdges a b) i).toLine) (List.range (opEdges a b).length) = some ⟨st, []⟩ := by
      unfold CrossingsIter.ofInput; rw [h1]; rfl
    rw [this]
    simp only
    rw [sweepLoop_any (ty := ty) he (opEdges_apart hab) srt id nextAfter choice hcl (X.measure cl + 1)
      (cells := fun _ => (Region.infinity ty, Region.infinity ty)) (by omega) h2 h3 (by intro L g R e; rw [h4] at e; simp at e) fuel fuel hf hf]
  have hall : ∀ srt fuel, max N (X.measure cl + 1) ≤ fuel → BoolOp.sweep ty (opEdges a b) nextAfter choice srt fuel = some rings :=
    fun srt fuel hf => (hany srt fuel (by omega)).trans (k1 fuel (by omega))
  have hes := opEdges_eq ha hb
  refine ⟨max N (X.measure cl + 1), opEdges a b, rings, hes, hall, k3, fun srt₁ srt₂ srt' fuel hf => ?_⟩
  obtain ⟨es, j1, j2⟩ := Option.bind_eq_some_iff.1 hes
  unfold booleanOp
  simp only [j1, j2, Option.bind_some, hall srt₁ fuel hf, hall srt₂ fuel hf]

/-! ## Examples -/

/-- An end of the second edge is not on the line through the first, or their boxes have no point in common. -/
def skewEdges (e e' : Pt K × Pt K) : Bool := decide (det e.1 e.2 e'.1 ≠ 0 ∨ det e.1 e.2 e'.2 ≠ 0) || boxApart e e' e'

theorem skewEdges_spec {e e' : Pt K × Pt K} (h : skewEdges e e' = true) {x y : Pt K} (h1 : OnSeg e.1 e.2 x) (h2 : OnSeg e.1 e.2 y) (h3 : OnSeg e'.1 e'.2 x)
    (h4 : OnSeg e'.1 e'.2 y) : x = y := by
  by_contra hxy
  unfold skewEdges at h
  rw [Bool.or_eq_true] at h
  rcases h with h | h
  · have on : ∀ z, OnSeg e.1 e.2 z → det e.1 e.2 z = 0 := by
      rintro z ⟨t, -, -, zx, zy⟩
      rw [det_param zx zy]; simp
    rcases of_decide_eq_true h with h | h
    · exact h (det_on h3 h4 hxy (on x h1) (on y h2))
    · exact h (det_on (onSeg_comm.1 h3) (onSeg_comm.1 h4) hxy (on x h1) (on y h2))
  · exact absurd ⟨h1, h3, h3⟩ (boxApart_spec h x)

theorem noOverlap_of_check {rings : List (List (Pt K))} (h : (rings.flatMap ringEdges).Pairwise fun e e' => skewEdges e e' = true) : NoOverlap rings :=
  h.imp fun hs _ _ h1 h2 h3 h4 => skewEdges_spec hs h1 h2 h3 h4

/-- The triangles that touch in a corner meet the assumptions; the sort that reverses equal crossings gives what the stable one gives. -/
example : ((∀ p ∈ touchA, ∀ ring ∈ ringsOf p, Closed ring) ∧ (∀ p ∈ touchB, ∀ ring ∈ ringsOf p, Closed ring)) ∧ NoOverlap ((touchA ++ touchB).flatMap ringsOf) ∧
    BoolOp.sweep .union (opEdges touchA touchB) id (fun _ => 0) srtRev 60 = BoolOp.sweep .union (opEdges touchA touchB) id (fun _ => 0) id 60 :=
  ⟨by decide +kernel, noOverlap_of_check (by decide +kernel), by decide +kernel⟩

/-- Crossing triangles: the assumptions hold too. -/
example : NoOverlap ((triA ++ triB).flatMap ringsOf) ∧
    ((BoolOp.sweep .intersection (opEdges triA triB) id (fun _ => 0) srtRev 40).map fun l => l.map (·.coords)) =
      some [[⟨1, 1⟩, ⟨1, 3⟩, ⟨3, 1⟩, ⟨1, 1⟩]] :=
  ⟨noOverlap_of_check (by decide +kernel), by decide +kernel⟩

/-- The triangles for which a stable sort is needed do overlap. -/
example : ¬ NoOverlap ((overlapA ++ overlapB).flatMap ringsOf) := by
  intro h
  have h := (List.pairwise_iff_getElem.1 h) 2 4 (by decide) (by decide) (by decide) ⟨1, 1⟩ ⟨2, 2⟩
  refine absurd (h ⟨1 / 2, ?_⟩ ⟨0, ?_⟩ ⟨0, ?_⟩ ⟨1, ?_⟩) (by decide +kernel) <;> decide +kernel

end GeoCrossings
