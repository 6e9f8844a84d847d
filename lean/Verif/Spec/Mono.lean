import Verif.Spec.SweepOrder
import Verif.Spec.EvenOdd
import Verif.Model.MonoPoly

/-! # Specification: chains, the area under a chain, the area of a ring -/
namespace GeoCrossings.Spec

variable {K : Type _} [Field K] [LinearOrder K]

/-- `l` leads from `s` to `e`. -/
def Leads (l : List (Pt K)) (s e : Pt K) : Prop := l.head? = some s ∧ l.getLast? = some e

/-- Two chains from a common left end to a different common right end, both strictly increasing. -/
def MonotonePair (top bot : List (Pt K)) : Prop :=
  ∃ s e, s ≠ e ∧ Leads top s e ∧ Leads bot s e ∧ top.Pairwise (· < ·) ∧ bot.Pairwise (· < ·)

/-- `a b` is an edge of the chain `l`. -/
def EdgeOf (l : List (Pt K)) (a b : Pt K) : Prop := ∃ pre post, l = pre ++ a :: b :: post

/-- `r` lies on the chain `l`. -/
def OnChain (l : List (Pt K)) (r : Pt K) : Prop := ∃ a b, EdgeOf l a b ∧ OnSeg a b r

/-- The signed area between a chain and the x-axis. -/
def areaUnder : List (Pt K) → K
  | a :: b :: l => (b.x - a.x) * (a.y + b.y) / 2 + areaUnder (b :: l)
  | _ => 0

/-- Sum of `x₁ y₂ - x₂ y₁` over the edges of a path. -/
def crossSum : List (Pt K) → K
  | a :: b :: l => (a.x * b.y - b.x * a.y) + crossSum (b :: l)
  | _ => 0

/-- The signed area of a closed ring (positive if counter-clockwise), by the shoelace formula. -/
def ringArea (ring : List (Pt K)) : K := crossSum ring / 2

/-- No point of `top` is below a point of `bot`. -/
def LiesAbove (top bot : List (Pt K)) : Prop :=
  ∀ x y y', OnChain top ⟨x, y⟩ → OnChain bot ⟨x, y'⟩ → y' ≤ y

/-- Some edge of the chain passes below `r`. -/
def ChainBelow (l : List (Pt K)) (r : Pt K) : Prop := ∃ a b, EdgeOf l a b ∧ PassesBelow r a b

/-- There is no point above `top` that is not above `bot`. For increasing chains with common ends this follows from `LiesAbove`
(`LiesAbove.nowhereBelow`); it does not exclude that vertical edges of the two overlap. -/
def NowhereBelow (top bot : List (Pt K)) : Prop := ∀ r, ChainBelow top r → ChainBelow bot r

/-- The trapezoids follow each other without gap, with positive widths, from abscissa `a` to `b`. -/
def Contiguous : K → List (Trapz K) → K → Prop
  | a, [], b => a = b
  | a, t :: ts, b => t.left.x = a ∧ t.left.x < t.right.x ∧ Contiguous t.right.x ts b

/-- The upper side of the trapezoid lies on one edge of `top`, its lower side on one edge of `bot`. -/
def Follows (m : MonoPoly K) (t : Trapz K) : Prop :=
  (∃ a b, EdgeOf m.top a b ∧ OnSeg a b ⟨t.left.x, t.left.top⟩ ∧ OnSeg a b ⟨t.right.x, t.right.top⟩) ∧
  (∃ a b, EdgeOf m.bot a b ∧ OnSeg a b ⟨t.left.x, t.left.bot⟩ ∧ OnSeg a b ⟨t.right.x, t.right.bot⟩)

end GeoCrossings.Spec
