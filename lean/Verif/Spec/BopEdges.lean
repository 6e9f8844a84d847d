import Verif.Spec.Bops
import Verif.Spec.Sweep

/-!
# Which edges bound the result of a boolean operation

The edges of the operands are given as `(f, a, b)`: the operand, and the ends with `a < b`.
-/
namespace GeoCrossings.Spec
variable {K : Type _} [Field K] [LinearOrder K]

/-- Just to the left of `q`, the edge from `a` to `b` is below the segment from `p` to `q`. -/
def RunsBelow (p q a b : Pt K) : Prop := a < q ∧ q ≤ b ∧ (0 < det a b q ∨ det a b q = 0 ∧ 0 < det a b p)

/-- Just to the left of `q`, the edge from `a` to `b` covers the segment from `p` to `q`. -/
def RunsAlong (p q a b : Pt K) : Prop := a < q ∧ q ≤ b ∧ det a b q = 0 ∧ det a b p = 0

instance (p q a b : Pt K) : Decidable (RunsBelow p q a b) := by unfold RunsBelow; infer_instance
instance (p q a b : Pt K) : Decidable (RunsAlong p q a b) := by unfold RunsAlong; infer_instance

/-- The number of edges of the operand `f` below the segment, near `q`. -/
def edgesBelowOf (es : List (Bool × Pt K × Pt K)) (f : Bool) (p q : Pt K) : Nat :=
  es.countP fun e => e.1 = f ∧ RunsBelow p q e.2.1 e.2.2

/-- The number of edges of the operand `f` that cover the segment, near `q`. -/
def edgesAlongOf (es : List (Bool × Pt K × Pt K)) (f : Bool) (p q : Pt K) : Nat :=
  es.countP fun e => e.1 = f ∧ RunsAlong p q e.2.1 e.2.2

/-- Whether the result lies just below the segment. -/
def resultBelow (ty : OpType) (es : List (Bool × Pt K × Pt K)) (p q : Pt K) : Bool :=
  inResult ty (decide (Odd (edgesBelowOf es true p q))) (decide (Odd (edgesBelowOf es false p q)))

/-- Whether the result lies just above the segment. -/
def resultAbove (ty : OpType) (es : List (Bool × Pt K × Pt K)) (p q : Pt K) : Bool :=
  inResult ty (decide (Odd (edgesBelowOf es true p q + edgesAlongOf es true p q)))
    (decide (Odd (edgesBelowOf es false p q + edgesAlongOf es false p q)))

/-- The segment is a part of an edge between two ends or crossings of edges, with none in between. -/
structure IsPiece (es : List (Bool × Pt K × Pt K)) (p q : Pt K) : Prop where
  lt : p < q
  on : ∃ e ∈ es, OnSeg e.2.1 e.2.2 p ∧ OnSeg e.2.1 e.2.2 q
  cp : Critical (es.map fun e => ⟨e.2.1, e.2.2⟩) p
  cq : Critical (es.map fun e => ⟨e.2.1, e.2.2⟩) q
  free : ∀ x, Critical (es.map fun e => ⟨e.2.1, e.2.2⟩) x → ¬ Between p q x

/-- The segment separates the result from the outside; `w` says on which side the result is. -/
structure Bounds (ty : OpType) (es : List (Bool × Pt K × Pt K)) (p q : Pt K) (w : Winding) : Prop where
  piece : IsPiece es p q
  changes : resultAbove ty es p q ≠ resultBelow ty es p q
  side : w = if resultBelow ty es p q then .clockwise else .counterClockwise

end GeoCrossings.Spec
