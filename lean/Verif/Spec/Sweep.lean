import Verif.Spec.Geom

/-!
# What the sweep is expected to report

Stated about the input lines only: points on them, their ends, where two of them meet, and consecutive pieces.
-/
namespace GeoCrossings.Spec

variable {K : Type _} [Field K] [LinearOrder K]

/-- `x` lies on the line `l` (which may be a single point). -/
def OnLine (l : Line K) (x : Pt K) : Prop := OnSeg l.start l.stop x

/-- The lexicographically smaller end. -/
def lo (l : Line K) : Pt K := min l.start l.stop

/-- The lexicographically greater end. -/
def hi (l : Line K) : Pt K := max l.start l.stop

/-- `r` is the only common point of `l1` and `l2`. -/
def MeetAt (l1 l2 : Line K) (r : Pt K) : Prop := ∀ x, OnLine l1 x ∧ OnLine l2 x ↔ x = r

/-- The common points of `l1` and `l2` form a segment from `s` to `t`. -/
def OverlapOn (l1 l2 : Line K) (s t : Pt K) : Prop := s < t ∧ ∀ x, OnLine l1 x ∧ OnLine l2 x ↔ OnSeg s t x

/-- `r` is an end of one of the lines, or the only common point of two of them. -/
def Critical (ls : List (Line K)) (r : Pt K) : Prop :=
  (∃ l ∈ ls, r = l.start ∨ r = l.stop) ∨ ∃ l1 ∈ ls, ∃ l2 ∈ ls, MeetAt l1 l2 r

/-- `r` lies between the ends `p < q` of a segment. -/
def Between (p q r : Pt K) : Prop := OnSeg p q r ∧ r ≠ p ∧ r ≠ q

/-- The pieces follow each other from `p` to `q`, each from its smaller to its greater end. -/
def Consecutive : Pt K → Pt K → List (Pt K × Pt K) → Prop
  | p, q, [] => p = q
  | p, q, (a, b) :: l => a = p ∧ a < b ∧ Consecutive b q l

/-- The pieces of a segment from `p` to `q` lie on it and follow each other. -/
def Tiling (p q : Pt K) (l : List (Pt K × Pt K)) : Prop :=
  Consecutive p q l ∧ ∀ ab ∈ l, OnSeg p q ab.1 ∧ OnSeg p q ab.2

end GeoCrossings.Spec
