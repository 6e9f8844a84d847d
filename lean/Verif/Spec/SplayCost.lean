import Verif.Model.Splay
import Mathlib.Algebra.BigOperators.Group.List.Basic

/-!
# Counting the calls in a history of a splay tree

An `extend` by `k` entries counts as `k` calls.
-/

namespace GeoCrossings.Spec
open Splay

variable {K V : Type _}

/-- How many calls this is. -/
def calls1 : Op K V → Nat
  | .extend l => l.length
  | _ => 1

/-- How many entries this may add. -/
def inserts1 : Op K V → Nat
  | .insert _ _ => 1
  | .extend l => l.length
  | _ => 0

/-- Is this a search for a neighbour? -/
def walks1 : Op K V → Nat
  | .next _ => 1
  | .prev _ => 1
  | _ => 0

/-- The calls in a history. -/
def calls (ops : List (Op K V)) : Nat := (ops.map calls1).sum

/-- The entries inserted in a history. -/
def inserts (ops : List (Op K V)) : Nat := (ops.map inserts1).sum

/-- The calls of `next` and `prev` in a history. -/
def walks (ops : List (Op K V)) : Nat := (ops.map walks1).sum

end GeoCrossings.Spec
