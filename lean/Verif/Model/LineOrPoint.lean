import Verif.Model.Events
import Mathlib.Algebra.Order.Field.Basic

/-!
# Model of `src/line_or_point.rs` and `src/utils.rs`, and of the parts of the `geo` crate they use

Scalars are an arbitrary linearly ordered field (exact arithmetic); rounding is not modelled.
-/
namespace GeoCrossings

/-- `geo::kernels::Orientation`. -/
inductive Orientation where
  | counterClockwise
  | clockwise
  | collinear
deriving DecidableEq, Repr

/-- `geo::winding_order::WindingOrder`. -/
inductive Winding where
  | clockwise
  | counterClockwise
deriving DecidableEq, Repr

/-- `winding_order_as_orientation` — utils.rs:4-9. -/
def Winding.toOrientation : Winding → Orientation
  | .clockwise => .clockwise
  | .counterClockwise => .counterClockwise

/-- `winding_inverse` — utils.rs:11-16. -/
def Winding.inverse : Winding → Winding
  | .clockwise => .counterClockwise
  | .counterClockwise => .clockwise

/-- `geo::Line`: two end points, in any order. -/
structure Line (K : Type _) where
  start : Pt K
  stop : Pt K
deriving DecidableEq, Repr

/-- `LineOrPoint` — line_or_point.rs:22-26. -/
inductive LineOrPoint (K : Type _) where
  | point (p : Pt K)
  | line (p q : Pt K)
deriving DecidableEq, Repr

section order
variable {K : Type _} [LinearOrder K]

/-- `From<Line>` — line_or_point.rs:29-39. -/
def LineOrPoint.ofLine (l : Line K) : LineOrPoint K :=
  match compare l.start l.stop with
  | .lt => .line l.start l.stop
  | .eq => .point l.start
  | .gt => .line l.stop l.start

/-- `From<Coordinate>` — line_or_point.rs:42-46. -/
def LineOrPoint.ofCoord (c : Pt K) : LineOrPoint K := .point c

/-- The documented invariant of the type (line_or_point.rs:17-21): ends of a line are in strict order. -/
def LineOrPoint.WF : LineOrPoint K → Prop
  | .point _ => True
  | .line p q => p < q

end order

section
variable {K : Type _}

/-- `is_line` — line_or_point.rs:51-53. -/
def LineOrPoint.isLine : LineOrPoint K → Bool
  | .line _ _ => true
  | .point _ => false

/-- `line` — line_or_point.rs:57-62. -/
def LineOrPoint.toLine : LineOrPoint K → Line K
  | .line p q => ⟨p, q⟩
  | .point p => ⟨p, p⟩

/-- `first` — line_or_point.rs:65-70. -/
def LineOrPoint.first : LineOrPoint K → Pt K
  | .point p => p
  | .line p _ => p

/-- `second` — line_or_point.rs:72-77. -/
def LineOrPoint.second : LineOrPoint K → Pt K
  | .point p => p
  | .line _ q => q

end

section arith
variable {K : Type _} [Field K] [LinearOrder K]

/-- Twice the signed area of the triangle `p q r`. -/
def det (p q r : Pt K) : K := (q.x - p.x) * (r.y - p.y) - (q.y - p.y) * (r.x - p.x)

/-- `geo::kernels::Kernel::orient2d`, exact. -/
def orient2d (p q r : Pt K) : Orientation :=
  if 0 < det p q r then .counterClockwise
  else if det p q r < 0 then .clockwise
  else .collinear

/-- `orientation_as_ordering` — line_or_point.rs:259-265. -/
def orientationAsOrdering : Orientation → Ordering
  | .counterClockwise => .lt
  | .clockwise => .gt
  | .collinear => .eq

/-- Line against point — line_or_point.rs:223-231. -/
def pcmpLinePoint (p q r : Pt K) : Option Ordering :=
  if r > q ∨ p > r then none
  else some ((orientationAsOrdering (orient2d p q r)).then .gt)

/-- Line against line once `p1 ≤ p2` — line_or_point.rs:236-251. (The condition of line 236 is
transcribed as it stands: `p1 >= q2 || p2 >= q2`.) -/
def pcmpLineLine (p1 q1 p2 q2 : Pt K) : Option Ordering :=
  if p1 ≥ q2 ∨ p2 ≥ q2 then none
  else some ((orientationAsOrdering (orient2d p1 q1 p2)).then (orientationAsOrdering (orient2d p1 q1 q2)))

/-- `PartialOrd for LineOrPoint` — line_or_point.rs:208-255. -/
def LineOrPoint.pcmp : LineOrPoint K → LineOrPoint K → Option Ordering
  | .point p, .point q => if p = q then some .eq else none
  | .point r, .line p q => (pcmpLinePoint p q r).map Ordering.swap
  | .line p q, .point r => pcmpLinePoint p q r
  | .line p1 q1, .line p2 q2 =>
    if p1 > p2 then (pcmpLineLine p2 q2 p1 q1).map Ordering.swap
    else pcmpLineLine p1 q1 p2 q2

/-- `PartialEq for LineOrPoint` — line_or_point.rs:192-197. -/
def LineOrPoint.peq (a b : LineOrPoint K) : Bool := a.pcmp b == some .eq

/-! ### `geo::algorithm::line_intersection` (not in `/repo`; the `geo` 0.20 algorithm, exact arithmetic) -/

/-- `geo::line_intersection::LineIntersection` (the `is_proper` flag is dropped: unused by the crate). -/
inductive LineIntersection (K : Type _) where
  | singlePoint (p : Pt K)
  | collinear (l : Line K)
deriving DecidableEq, Repr

/-- `Line::bounding_rect().intersects(coord)`. -/
def inRect (l : Line K) (c : Pt K) : Bool :=
  min l.start.x l.stop.x ≤ c.x && c.x ≤ max l.start.x l.stop.x &&
  (min l.start.y l.stop.y ≤ c.y && c.y ≤ max l.start.y l.stop.y)

/-- `p.bounding_rect().intersects(&q.bounding_rect())`. -/
def rectsMeet (p q : Line K) : Bool :=
  max (min p.start.x p.stop.x) (min q.start.x q.stop.x) ≤ min (max p.start.x p.stop.x) (max q.start.x q.stop.x) &&
  max (min p.start.y p.stop.y) (min q.start.y q.stop.y) ≤ min (max p.start.y p.stop.y) (max q.start.y q.stop.y)

/-- `geo`'s private `collinear_intersection`: which end points lie in the other bounding rectangle. -/
def collinearIntersection (p q : Line K) : Option (LineIntersection K) :=
  let qs := inRect p q.start
  let qe := inRect p q.stop
  let ps := inRect q p.start
  let pe := inRect q p.stop
  if qs && qe then some (.collinear q)
  else if ps && pe then some (.collinear p)
  else if qs && ps then
    if q.start = p.start ∧ ¬ qe ∧ ¬ pe then some (.singlePoint q.start) else some (.collinear ⟨q.start, p.start⟩)
  else if qs && pe then
    if q.start = p.stop ∧ ¬ qe ∧ ¬ ps then some (.singlePoint q.start) else some (.collinear ⟨q.start, p.stop⟩)
  else if qe && ps then
    if q.stop = p.start ∧ ¬ qs ∧ ¬ pe then some (.singlePoint q.stop) else some (.collinear ⟨q.stop, p.start⟩)
  else if qe && pe then
    if q.stop = p.stop ∧ ¬ qs ∧ ¬ ps then some (.singlePoint q.stop) else some (.collinear ⟨q.stop, p.stop⟩)
  else none

/-- The point where the two supporting lines meet (`geo`'s `proper_intersection` computes the same value
after translating coordinates to limit rounding). -/
def properIntersection (p q : Line K) : Pt K :=
  let t := det q.start q.stop p.start / (det q.start q.stop p.start - det q.start q.stop p.stop)
  ⟨p.start.x + t * (p.stop.x - p.start.x), p.start.y + t * (p.stop.y - p.start.y)⟩

/-- `geo::line_intersection`. -/
def lineIntersection (p q : Line K) : Option (LineIntersection K) :=
  if !rectsMeet p q then none
  else
    let pq1 := orient2d p.start p.stop q.start
    let pq2 := orient2d p.start p.stop q.stop
    if pq1 = pq2 ∧ pq1 ≠ .collinear then none
    else
      let qp1 := orient2d q.start q.stop p.start
      let qp2 := orient2d q.start q.stop p.stop
      if qp1 = qp2 ∧ qp1 ≠ .collinear then none
      else if pq1 = .collinear ∧ pq2 = .collinear ∧ qp1 = .collinear ∧ qp2 = .collinear then
        collinearIntersection p q
      else if pq1 = .collinear ∨ pq2 = .collinear ∨ qp1 = .collinear ∨ qp2 = .collinear then
        some <| .singlePoint <|
          if p.start = q.start ∨ p.start = q.stop then p.start
          else if p.stop = q.start ∨ p.stop = q.stop then p.stop
          else if pq1 = .collinear then q.start
          else if pq2 = .collinear then q.stop
          else if qp1 = .collinear then p.start
          else p.stop
      else some (.singlePoint (properIntersection p q))

/-! ### intersections -/

/-- `intersect_line` — line_or_point.rs:83-111. The outer `none` is the panic at line 84. -/
def LineOrPoint.intersectLine (self other : LineOrPoint K) : Option (Option (LineOrPoint K)) :=
  if !other.isLine then none
  else
    let line := other.toLine
    match self with
    | .point p =>
      if orient2d line.start p line.stop = .collinear then
        if p ≥ line.start ∧ p ≤ line.stop then some (some (.point p)) else some none
      else some none
    | .line p q =>
      some <| (lineIntersection ⟨p, q⟩ line).map fun
        | .singlePoint i => .ofCoord i
        | .collinear l => .ofLine l

/-- `intersect_line_ordered` — line_or_point.rs:116-179. `nextAfter` stands for
`x.next_after(T::infinity())`; exact arithmetic has no such function, so it is a parameter, and we prove that
the branch calling it is never taken. The `debug_assert`s of lines 154-169 are executed. -/
def LineOrPoint.intersectLineOrdered (nextAfter : K → K) (self other : LineOrPoint K) :
    Option (Option (LineOrPoint K)) :=
  match self.intersectLine other with
  | none => none
  | some (some (.point pt)) =>
    let c := self.first
    let x := if pt.x = c.x ∧ pt.y < c.y then nextAfter pt.x else pt.x
    if self.first ≤ ⟨x, pt.y⟩ ∧ other.first ≤ ⟨x, pt.y⟩ then some (some (.point ⟨x, pt.y⟩)) else none
  | some e => some e

end arith
end GeoCrossings
