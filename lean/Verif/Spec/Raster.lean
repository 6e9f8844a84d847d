import Verif.Spec.Mono

/-! # Specification: rows of a band, points of a trapezoid, extreme heights -/
namespace GeoCrossings.Spec

variable {K : Type _} [Field K] [LinearOrder K]

/-- The lower boundary of row `j`, when `[cmin, cmax)` is cut into `h` rows of equal height. -/
def rowLine (cmin cmax : K) (h j : Nat) : K := cmin + j * ((cmax - cmin) / h)

/-- The height `y` belongs to row `j`. -/
def InRow (cmin cmax : K) (h j : Nat) (y : K) : Prop := rowLine cmin cmax h j ≤ y ∧ y < rowLine cmin cmax h (j + 1)

/-- A point of a trapezoid. -/
def InTrapz (t : Trapz K) (p : Pt K) : Prop :=
  ∃ s : K, 0 ≤ s ∧ s ≤ 1 ∧ p.x = t.left.x + s * (t.right.x - t.left.x) ∧
    t.left.bot + s * (t.right.bot - t.left.bot) ≤ p.y ∧ p.y ≤ t.left.top + s * (t.right.top - t.left.top)

/-- `v` is the greatest (`le := (· ≤ ·)`) or least (`le := (· ≥ ·)`) of the values `f`, `g` over the list. -/
def Extreme (le : K → K → Prop) (ts : List (Trapz K)) (f g : Trapz K → K) (v : K) : Prop :=
  (∃ t ∈ ts, v = f t ∨ v = g t) ∧ ∀ t ∈ ts, le (f t) v ∧ le (g t) v

def HighestTop (ts : List (Trapz K)) (v : K) : Prop := Extreme (· ≤ ·) ts (·.left.top) (·.right.top) v
def LowestTop (ts : List (Trapz K)) (v : K) : Prop := Extreme (· ≥ ·) ts (·.left.top) (·.right.top) v
def HighestBot (ts : List (Trapz K)) (v : K) : Prop := Extreme (· ≤ ·) ts (·.left.bot) (·.right.bot) v
def LowestBot (ts : List (Trapz K)) (v : K) : Prop := Extreme (· ≥ ·) ts (·.left.bot) (·.right.bot) v

/-- Height `y` lies strictly between a bottom corner and a top corner of the trapezoids. -/
def StrictlyWithin (ts : List (Trapz K)) (y : K) : Prop :=
  (∃ t ∈ ts, t.left.bot < y ∨ t.right.bot < y) ∧ (∃ t ∈ ts, y < t.left.top ∨ y < t.right.top)

end GeoCrossings.Spec

namespace GeoCrossings.Spec
variable {K : Type _} [Field K] [LinearOrder K]

/-- What an area of the part of `t` with heights between `a` and `b` has to satisfy: it is additive, it vanishes where `t` is
empty, and where `t` is bounded by two straight sides it is the width times the mean of the two parallel sides. (For real numbers
the Lebesgue measure does, see `volume_bandArea`.) -/
structure BandArea (t : Trapz K) (A : K → K → K) : Prop where
  add : ∀ a b c, a ≤ b → b ≤ c → A a b + A b c = A a c
  empty : ∀ a b, a ≤ b → (∀ u, a < u → u < b → ∀ x, ¬InTrapz t ⟨x, u⟩) → A a b = 0
  slab : ∀ a b w v w' v', a < b → w ≤ v → w' ≤ v' →
    (∀ u, a < u → u < b → ∀ x, InTrapz t ⟨x, u⟩ ↔
      w + (u - a) / (b - a) * (w' - w) ≤ x ∧ x ≤ v + (u - a) / (b - a) * (v' - v)) →
    A a b = (b - a) * ((v - w) + (v' - w')) / 2

end GeoCrossings.Spec
