import Verif.Spec.Bops
import Verif.Spec.ValidPolygon

/-! # Valid multipolygons -/
namespace GeoCrossings.Spec

variable {K : Type _} [Field K] [LinearOrder K] [IsStrictOrderedRing K]

/-- Valid polygons that do not touch each other, and have no point in common. -/
structure ValidMulti (polys : List (Polygon K)) : Prop where
  valid : ∀ p ∈ polys, ValidPolygon p.ext p.ints
  /-- No two rings touch or cross. -/
  plain : PlainRings (polys.flatMap ringsOf)
  /-- No point is inside two of the polygons. -/
  apart : polys.Pairwise fun p q => ∀ r, ¬ (EvenOdd (ringsOf p) r ∧ EvenOdd (ringsOf q) r)

end GeoCrossings.Spec
