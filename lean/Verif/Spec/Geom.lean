import Verif.Model.LineOrPoint
import Verif.Spec.SweepOrder

/-! # Specification: the point set of a geometry -/
namespace GeoCrossings.Spec

variable {K : Type _} [Field K] [LinearOrder K]

/-- The closed set of points a geometry stands for. -/
def On : LineOrPoint K → Pt K → Prop
  | .point p, r => r = p
  | .line p q, r => OnSeg p q r

end GeoCrossings.Spec
