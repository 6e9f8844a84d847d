import Verif.Model.Crossings
import Mathlib.Algebra.Order.Ring.Rat
import Mathlib.Algebra.Field.Rat

/-!
# Claims of the documentation that the code does not meet

Concrete runs of the model, evaluated by the kernel, which refute C28 and C30 as stated.
-/
namespace GeoCrossings

/-- Two overlapping segments with a common right end. -/
abbrev overlapInput : List (Line ℚ) := [⟨⟨0, 0⟩, ⟨2, 0⟩⟩, ⟨⟨1, 0⟩, ⟨2, 0⟩⟩]

/-- Two segments starting at the origin, one of which is crossed later by the third, already active, segment. -/
abbrev fanInput : List (Line ℚ) := [⟨⟨-1, 2⟩, ⟨2, -1 / 2⟩⟩, ⟨⟨0, 0⟩, ⟨1, 0⟩⟩, ⟨⟨0, 0⟩, ⟨1, 1⟩⟩]

/-- **C28 is false (duplicates).** `Intersections` yields the single intersecting pair of `overlapInput` twice: once because
the piece of the first line that ends at `(1,0)` meets the second line there, and once for the overlap. -/
theorem C28_pair_yielded_twice :
    intersectionsOf id id (fun _ => 0) 40 overlapInput =
      some [(⟨⟨0, 0⟩, ⟨2, 0⟩⟩, ⟨⟨1, 0⟩, ⟨2, 0⟩⟩, .collinear ⟨⟨1, 0⟩, ⟨2, 0⟩⟩),
            (⟨⟨0, 0⟩, ⟨2, 0⟩⟩, ⟨⟨1, 0⟩, ⟨2, 0⟩⟩, .collinear ⟨⟨1, 0⟩, ⟨2, 0⟩⟩)] := by
  decide +kernel

/-- **C28 is false (omissions).** `Intersections` on `fanInput` yields one tuple only; the second and third line, which
meet at the origin, are not among its pairs. -/
theorem C28_pair_missed :
    lineIntersection (⟨⟨0, 0⟩, ⟨1, 0⟩⟩ : Line ℚ) ⟨⟨0, 0⟩, ⟨1, 1⟩⟩ = some (.singlePoint ⟨0, 0⟩) ∧
    (∀ c ∈ [0, 1, 2], intersectionsOf id id (fun _ => c) 40 fanInput =
      some [(⟨⟨0, 0⟩, ⟨1, 1⟩⟩, ⟨⟨-1, 2⟩, ⟨2, -1 / 2⟩⟩, .singlePoint ⟨7 / 11, 7 / 11⟩)]) := by
  decide +kernel

/-- **C30 is false.** On `fanInput` the first piece of the third line is reported at its left end, which is the first end
point of the line, with `first_segment` false (it was reset by the split at `sweep.rs:141`). -/
theorem C30_first_piece_not_flagged :
    ∃ out, crossingsOf id id (fun _ => 0) 40 fanInput = some out ∧
      ∃ b ∈ out, ∃ c ∈ b.2, b.1 = (⟨0, 0⟩ : Pt ℚ) ∧ c.crossable = ⟨⟨0, 0⟩, ⟨1, 1⟩⟩ ∧ c.atLeft = true ∧
        c.line.first = ⟨0, 0⟩ ∧ c.firstSegment = false := by
  have h : (match crossingsOf id id (fun _ => 0) 40 fanInput with
      | none => false
      | some out => out.any fun b => b.2.any fun c => decide (b.1 = (⟨0, 0⟩ : Pt ℚ) ∧ c.crossable = ⟨⟨0, 0⟩, ⟨1, 1⟩⟩ ∧
        c.atLeft = true ∧ c.line.first = ⟨0, 0⟩ ∧ c.firstSegment = false)) = true := by decide +kernel
  cases ho : crossingsOf id id (fun _ => 0) 40 fanInput with
  | none => rw [ho] at h; cases h
  | some out => rw [ho] at h; simpa [List.any_eq_true, and_assoc, ← exists_and_left] using h

end GeoCrossings
