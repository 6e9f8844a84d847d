import Verif.Model.LineOrPoint
import Mathlib.Data.Sym.Sym2
import Mathlib.Data.Multiset.AddSub
import Mathlib.Algebra.Group.Nat.Even
import Mathlib.Algebra.Order.Group.Multiset

/-! # Specification: undirected edges, degrees, and simple rings -/
namespace GeoCrossings.Spec

variable {K : Type _}

/-- The undirected edges along a path, as a multiset. -/
def pathEdges : List (Pt K) → Multiset (Sym2 (Pt K))
  | a :: b :: l => s(a, b) ::ₘ pathEdges (b :: l)
  | _ => 0

/-- The undirected edge of a geometry. -/
def edgeOf (e : LineOrPoint K) : Sym2 (Pt K) := s(e.first, e.second)

/-- The number of edge ends at a vertex. -/
def degree [DecidableEq K] (es : List (LineOrPoint K)) (p : Pt K) : Nat :=
  es.countP (fun e => e.first = p) + es.countP (fun e => e.second = p)

/-- A closed list of vertices that visits no vertex twice, apart from the last which repeats the first. -/
def SimpleClosed (l : List (Pt K)) : Prop := l.head? = l.getLast? ∧ l.dropLast.Nodup ∧ 4 ≤ l.length

end GeoCrossings.Spec
