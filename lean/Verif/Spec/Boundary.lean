import Verif.Spec.ValidPolygon

/-! # The points on the sides of rings -/
namespace GeoCrossings.Spec
variable {K : Type _} [Field K] [LinearOrder K]

/-- `z` lies on a side of one of the rings. -/
def OnRings (rings : List (List (Pt K))) (z : Pt K) : Prop := ∃ ring ∈ rings, ∃ e ∈ ringEdges ring, OnSeg e.1 e.2 z

end GeoCrossings.Spec
