import Verif.Model.Events
import Mathlib.Algebra.Order.Field.Basic
import Mathlib.Order.WithBot

/-!
# Specification: points of a segment, and the vertical order at a sweep position

The sweep line at position `c` is a vertical line through `c`, tilted by an infinitesimal amount so that it
separates the points `≤ c` from the points `> c` (lexicographically). It therefore cuts a segment just right
of `c.x` at heights up to `c.y`, and just left of `c.x` at heights above `c.y`.
-/
namespace GeoCrossings.Spec

variable {K : Type _} [Field K] [LinearOrder K]

/-- `r` is a point of the closed segment `p q`. -/
def OnSeg (p q r : Pt K) : Prop :=
  ∃ t : K, 0 ≤ t ∧ t ≤ 1 ∧ r.x = p.x + t * (q.x - p.x) ∧ r.y = p.y + t * (q.y - p.y)

/-- The three points lie on a common line. -/
def Collinear3 (p q r : Pt K) : Prop := (q.x - p.x) * (r.y - p.y) = (q.y - p.y) * (r.x - p.x)

/-- Height at which the sweep line at `c` cuts the segment `p q`; a vertical segment is cut at `c` itself. -/
def heightAt (p q c : Pt K) : K :=
  if p.x = q.x then c.y else p.y + (c.x - p.x) * ((q.y - p.y) / (q.x - p.x))

/-- Slope of a segment; vertical segments are steepest. -/
def slope (p q : Pt K) : WithTop K :=
  if p.x = q.x then ⊤ else ((q.y - p.y) / (q.x - p.x) : K)

/-- Along the tilted sweep line at `c`, the segment `p₁ q₁` is cut strictly below `p₂ q₂`. -/
def BelowAt (c p₁ q₁ p₂ q₂ : Pt K) : Prop :=
  heightAt p₁ q₁ c < heightAt p₂ q₂ c ∨
  (heightAt p₁ q₁ c = heightAt p₂ q₂ c ∧
    if heightAt p₁ q₁ c ≤ c.y then slope p₁ q₁ < slope p₂ q₂ else slope p₂ q₂ < slope p₁ q₁)

/-- The segments do not meet at a point `≤ c` that is past both left ends, unless they are collinear. -/
def NoMeetUpTo (c p₁ q₁ p₂ q₂ : Pt K) : Prop :=
  ∀ r, p₁ < r → p₂ < r → r ≤ c → OnSeg p₁ q₁ r → OnSeg p₂ q₂ r →
    Collinear3 p₁ q₁ p₂ ∧ Collinear3 p₁ q₁ q₂

end GeoCrossings.Spec
