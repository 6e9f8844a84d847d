import Verif.Model.LineOrPoint
import Verif.Spec.Geom

/-! # Rounded arithmetic -/
namespace GeoCrossings.Spec

variable {K : Type _} [Field K] [LinearOrder K]

/-- Numbers that can be represented, and for each of them the next one. (Floats are like this if nothing overflows.) -/
structure Grid (K : Type _) [LinearOrder K] where
  rep : K → Prop
  up : K → K
  rep_up : ∀ x, rep x → rep (up x)
  lt_up : ∀ x, rep x → x < up x
  up_le : ∀ x y, rep x → rep y → x < y → up x ≤ y

/-- Both coordinates can be represented. -/
def Grid.RepPt (G : Grid K) (p : Pt K) : Prop := G.rep p.x ∧ G.rep p.y

/-- The end points can be represented. -/
def Grid.RepGeom (G : Grid K) (g : LineOrPoint K) : Prop := G.RepPt g.first ∧ G.RepPt g.second

/-- `z` is the only common point of the lines, and an end point of neither. -/
def CrossAt (a b : Line K) (z : Pt K) : Prop :=
  (∀ r, OnSeg a.start a.stop r ∧ OnSeg b.start b.stop r ↔ r = z) ∧ z ≠ a.start ∧ z ≠ a.stop ∧ z ≠ b.start ∧ z ≠ b.stop

/-- The point is in the bounding box of the line. -/
def InBox (l : Line K) (p : Pt K) : Prop :=
  min l.start.x l.stop.x ≤ p.x ∧ p.x ≤ max l.start.x l.stop.x ∧ min l.start.y l.stop.y ≤ p.y ∧ p.y ≤ max l.start.y l.stop.y

/-- What is asked of the computed crossing points: they can be represented, and they are in the bounding boxes of both lines. -/
def Boxed (G : Grid K) (ip : Line K → Line K → Pt K) : Prop :=
  ∀ a b z, CrossAt a b z → G.RepPt a.start → G.RepPt a.stop → G.RepPt b.start → G.RepPt b.stop →
    G.RepPt (ip a b) ∧ InBox a (ip a b) ∧ InBox b (ip a b)

end GeoCrossings.Spec
