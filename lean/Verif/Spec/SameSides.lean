import Verif.Spec.ValidPolygon

/-!
# Specification: the same polygon, drawn in another way
-/
namespace GeoCrossings.Spec

variable {K : Type _} [Field K] [LinearOrder K]

/-- `a` and `b` are joined by a side of one of the rings, in whichever direction. -/
def IsSide (rings : List (List (Pt K))) (a b : Pt K) : Prop := ∃ r ∈ rings, (a, b) ∈ ringEdges r ∨ (b, a) ∈ ringEdges r

/-- The rings have the same sides, as sets of points. -/
def SameSides (rings rings' : List (List (Pt K))) : Prop := ∀ a b, IsSide rings a b ↔ IsSide rings' a b

/-- The second closed ring is the first one, drawn from another start or in the other direction. -/
inductive Redrawn : List (Pt K) → List (Pt K) → Prop
  | same (r : List (Pt K)) : Redrawn r r
  | reverse {r r' : List (Pt K)} : Redrawn r r' → Redrawn r r'.reverse
  | rotate {r l : List (Pt K)} {x y : Pt K} : Redrawn r (x :: (y :: l ++ [x])) → Redrawn r (y :: l ++ [x, y])

end GeoCrossings.Spec
