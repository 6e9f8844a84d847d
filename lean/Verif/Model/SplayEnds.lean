import Verif.Model.Splay

/-! # Model of the steps of `min` and `max` of a splay tree -/
namespace GeoCrossings.Splay
open Tree

variable {K V : Type _}

/-- `min_node`, splay/tree.rs:221-233, with the number of nodes that `node` is set to. -/
def minNodeC : Tree K V → Option (K × V) × Nat
  | nil => (none, 0)
  | node nil k v _ => (some (k, v), 1)
  | node (node ll lk lv lr) _ _ _ => let x := minNodeC (node ll lk lv lr); (x.1, x.2 + 1)

/-- `max_node`, splay/tree.rs:235-247, with the number of nodes that `node` is set to. -/
def maxNodeC : Tree K V → Option (K × V) × Nat
  | nil => (none, 0)
  | node _ k v nil => (some (k, v), 1)
  | node _ _ _ (node rl rk rv rr) => let x := maxNodeC (node rl rk rv rr); (x.1, x.2 + 1)

/-- The nodes that a call visits if it is one of `min` or `max`. -/
def opSteps (s : SplayTree K V) : Op K V → Nat
  | .min => (minNodeC s.root).2
  | .max => (maxNodeC s.root).2
  | _ => 0

/-- The nodes that the calls of `min` and `max` in a history visit. -/
def endSteps (cmp : K → K → Ordering) : SplayTree K V → List (Op K V) → Nat
  | _, [] => 0
  | s, op :: ops => opSteps s op + endSteps cmp (step cmp s op).1 ops

end GeoCrossings.Splay
