import Verif.Model.Bops
import Verif.Spec.EvenOdd

/-! # Affine maps of the plane -/
namespace GeoCrossings.Spec

variable {K : Type _} [Field K] [LinearOrder K]

/-- An invertible affine map: rotations, reflections, scalings, shears, translations, and what is composed of them. -/
structure Affine (K : Type _) [Field K] where
  a : K
  b : K
  c : K
  d : K
  e : K
  f : K
  ne : a * d - b * c ≠ 0

/-- The image of a point. -/
def Affine.app (T : Affine K) (p : Pt K) : Pt K := ⟨T.a * p.x + T.b * p.y + T.e, T.c * p.x + T.d * p.y + T.f⟩

def Affine.line (T : Affine K) (l : Line K) : Line K := ⟨T.app l.start, T.app l.stop⟩

/-- The images of rings. -/
def Affine.rings (T : Affine K) (rings : List (List (Pt K))) : List (List (Pt K)) := rings.map (List.map T.app)

def Affine.polys (T : Affine K) (ps : List (Polygon K)) : List (Polygon K) :=
  ps.map fun p => ⟨p.ext.map T.app, p.ints.map (List.map T.app)⟩

end GeoCrossings.Spec
