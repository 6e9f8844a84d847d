import Verif.Model.LineOrPoint

/-!
# `intersect_line_ordered` in rounded arithmetic

With floats, what is inexact in `line_or_point.rs` is the crossing point of two lines that `geo` computes: `orient2d` of the robust
kernel is exact, comparisons, minima and maxima are, and the other intersection points are end points of the operands. Here the crossing
point is `ip`, any function, and `up` is `x.next_after(T::infinity())`; the rest is as in `Model/LineOrPoint.lean`.
-/
namespace GeoCrossings

section arith
variable {K : Type _} [Field K] [LinearOrder K]

/-- `geo::line_intersection`, as in `Model/LineOrPoint.lean`, except for the last line. -/
def lineIntersectionR (ip : Line K → Line K → Pt K) (p q : Line K) : Option (LineIntersection K) :=
  if !rectsMeet p q then none
  else
    let pq1 := orient2d p.start p.stop q.start
    let pq2 := orient2d p.start p.stop q.stop
    if pq1 = pq2 ∧ pq1 ≠ .collinear then none
    else
      let qp1 := orient2d q.start q.stop p.start
      let qp2 := orient2d q.start q.stop p.stop
      if qp1 = qp2 ∧ qp1 ≠ .collinear then none
      else if pq1 = .collinear ∧ pq2 = .collinear ∧ qp1 = .collinear ∧ qp2 = .collinear then
        collinearIntersection p q
      else if pq1 = .collinear ∨ pq2 = .collinear ∨ qp1 = .collinear ∨ qp2 = .collinear then
        some <| .singlePoint <|
          if p.start = q.start ∨ p.start = q.stop then p.start
          else if p.stop = q.start ∨ p.stop = q.stop then p.stop
          else if pq1 = .collinear then q.start
          else if pq2 = .collinear then q.stop
          else if qp1 = .collinear then p.start
          else p.stop
      else some (.singlePoint (ip p q))

/-- `intersect_line` — line_or_point.rs:83-111. The outer `none` is the panic at line 84. -/
def LineOrPoint.intersectLineR (ip : Line K → Line K → Pt K) (self other : LineOrPoint K) : Option (Option (LineOrPoint K)) :=
  if !other.isLine then none
  else
    let line := other.toLine
    match self with
    | .point p =>
      if orient2d line.start p line.stop = .collinear then
        if p ≥ line.start ∧ p ≤ line.stop then some (some (.point p)) else some none
      else some none
    | .line p q =>
      some <| (lineIntersectionR ip ⟨p, q⟩ line).map fun
        | .singlePoint i => .ofCoord i
        | .collinear l => .ofLine l

/-- `intersect_line_ordered` — line_or_point.rs:116-179. The `debug_assert`s of lines 154-169 are executed if `debug`. -/
def LineOrPoint.intersectLineOrderedR (debug : Bool) (ip : Line K → Line K → Pt K) (up : K → K) (self other : LineOrPoint K) :
    Option (Option (LineOrPoint K)) :=
  match self.intersectLineR ip other with
  | none => none
  | some (some (.point pt)) =>
    let c := self.first
    let x := if pt.x = c.x ∧ pt.y < c.y then up pt.x else pt.x
    if debug ∧ ¬ (self.first ≤ ⟨x, pt.y⟩ ∧ other.first ≤ ⟨x, pt.y⟩) then none else some (some (.point ⟨x, pt.y⟩))
  | some e => some e

end arith
end GeoCrossings
