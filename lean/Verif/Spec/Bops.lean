import Verif.Model.Bops

/-! # Specification of the boolean operations -/
namespace GeoCrossings.Spec

/-- Membership in the result of an operation, given membership in the operands. -/
def inResult : OpType → Bool → Bool → Bool
  | .intersection, a, b => a && b
  | .union, a, b => a || b
  | .difference, a, b => a && !b
  | .xor, a, b => a != b

/-- Whether an odd number of the crossed edges belong to the given operand. -/
def oddly (first : Bool) (seq : List Bool) : Bool := decide (seq.count first % 2 = 1)

variable {K : Type _} [LinearOrder K]

/-- The segment between two coordinates, lower end first; nothing if they coincide. -/
def segBetween (a b : Pt K) : Option (LineOrPoint K) :=
  if a < b then some (.line a b) else if b < a then some (.line b a) else none

/-- The non-degenerate segments between consecutive coordinates. -/
def properEdges (ring : List (Pt K)) : List (LineOrPoint K) :=
  (ring.zip ring.tail).filterMap fun x => segBetween x.1 x.2

/-- The edges of rings. -/
def edgesOf (rings : List (Ring K)) : List (LineOrPoint K) := rings.flatMap fun g => properEdges g.coords

def ringsOf (p : Polygon K) : List (List (Pt K)) := p.ext :: p.ints

/-- The edges a polygon contributes. -/
def polyEdges (p : Polygon K) (isFirst : Bool) : List (OpEdge K) :=
  ((ringsOf p).filter fun r => 3 < r.length).flatMap fun r => (properEdges r).map fun g => ⟨g, isFirst⟩

def Closed (ring : List (Pt K)) : Prop := ring.head? = ring.getLast?

/-- The polygons for given rings and a parent for every hole: one for every ring that is not a hole, in order, with the holes
assigned to it, in order. -/
def polygonsFor (rings : List (Ring K)) (parents : Nat → Nat) : List (Polygon K) :=
  (rings.zipIdx.filter fun x => !x.1.isHole).map fun x =>
    ⟨x.1.coords, (rings.zipIdx.filter fun y => y.1.isHole ∧ parents y.2 = x.2).map fun y => y.1.coords⟩

/-- Going upwards across edges of nested rings. `parent h` is the exterior ring that has `h` as a hole. Just below the edges one is
in the region of exterior `below` (`none`: outside); each edge lists its ring and the region just above it. -/
inductive Column (isHole : Nat → Bool) (parent : Nat → Nat) : Option Nat → List (Nat × Option Nat) → Prop
  | nil {b} : Column isHole parent b []
  | enter {e l} : isHole e = false → Column isHole parent (some e) l → Column isHole parent none ((e, some e) :: l)
  | leave {e l} : isHole e = false → Column isHole parent none l → Column isHole parent (some e) ((e, none) :: l)
  | enterHole {h l} : isHole h = true → Column isHole parent none l → Column isHole parent (some (parent h)) ((h, none) :: l)
  | leaveHole {h l} : isHole h = true → Column isHole parent (some (parent h)) l → Column isHole parent none ((h, some (parent h)) :: l)

/-- The holes of the column that are left without having been entered in the column before. -/
def leftFirst (isHole : Nat → Bool) : Option Nat → List (Nat × Option Nat) → List Nat
  | _, [] => []
  | none, (r, a) :: l => (if isHole r then [r] else []) ++ leftFirst isHole a l
  | some _, (r, a) :: l => (leftFirst isHole a l).filter (· ≠ r)

end GeoCrossings.Spec
