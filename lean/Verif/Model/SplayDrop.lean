import Verif.Model.Splay

/-!
# Model of dropping a splay tree, and of the rounds of its owned iterator

`SplayTree::clear` (splay/tree.rs:36-39) takes the root and drops it there; `Drop for SplayTree` (splay/tree.rs:305-312) calls `clear`. What the
drop of a `Box<Node>` does is not written in the crate: `Node` (splay/node.rs:1-7) has no `Drop` of its own, so the compiler drops the fields in
the order of their declaration, `key`, `value`, `left`, `right`, calling itself for the boxes in `left` and `right`.
-/
namespace GeoCrossings.Splay
open Tree

variable {K V : Type _}

/-- The drop of an `Option<Box<Node>>`, splay/node.rs:1-7, when `d` such calls are on the stack already: the entries in the order in which they
are dropped, each with the number of nested calls at that moment. -/
def dropGlue (d : Nat) : Tree K V → List ((K × V) × Nat)
  | nil => []
  | node l k v r => ((k, v), d + 1) :: (dropGlue (d + 1) l ++ dropGlue (d + 1) r)

/-- `clear`, splay/tree.rs:36-39, and `Drop::drop`, splay/tree.rs:309-311: what is dropped by them. -/
def SplayTree.dropped (s : SplayTree K V) : List ((K × V) × Nat) := dropGlue 0 s.root

/-- The number of nested calls at the deepest. -/
def depthOf (l : List ((K × V) × Nat)) : Nat := (l.map Prod.snd).foldr max 0

/-- `popFront` of `Model/Splay.lean` (splay/tree.rs:337-355) with the number of rounds of the loop. -/
def popFrontC : Tree K V → K → V → Tree K V → ((K × V) × Tree K V) × Nat
  | nil, k, v, r => (((k, v), r), 1)
  | node ll lk lv lr, k, v, r => ((popFrontC ll lk lv (node lr k v r)).1, (popFrontC ll lk lv (node lr k v r)).2 + 1)

/-- `popBack` of `Model/Splay.lean` (splay/tree.rs:369-387) with the number of rounds of the loop. -/
def popBackC : Tree K V → K → V → Tree K V → ((K × V) × Tree K V) × Nat
  | l, k, v, nil => (((k, v), l), 1)
  | l, k, v, node rl rk rv rr => ((popBackC (node l k v rl) rk rv rr).1, (popBackC (node l k v rl) rk rv rr).2 + 1)
termination_by _ _ _ r => sizeOf r

/-- `IntoIter::next`, splay/tree.rs:332-356, with the number of rounds of its loop. -/
def IntoIter.nextC (it : IntoIter K V) : Option ((IntoIter K V × Option (K × V)) × Nat) :=
  match it.cur with
  | nil => some ((it, none), 0)
  | node l k v r =>
    match it.remaining with
    | 0 => none
    | n + 1 => let x := popFrontC l k v r; some ((⟨x.1.2, n⟩, some x.1.1), x.2)

/-- `IntoIter::next_back`, splay/tree.rs:364-388, with the number of rounds of its loop. -/
def IntoIter.nextBackC (it : IntoIter K V) : Option ((IntoIter K V × Option (K × V)) × Nat) :=
  match it.cur with
  | nil => some ((it, none), 0)
  | node l k v r =>
    match it.remaining with
    | 0 => none
    | n + 1 => let x := popBackC l k v r; some ((⟨x.1.2, n⟩, some x.1.1), x.2)

/-- The rounds of all calls of `next` (`true`) and `next_back` (`false`) in a sequence of calls; `none` if a call panics. -/
def iterRounds : IntoIter K V → List Bool → Option Nat
  | _, [] => some 0
  | it, b :: bs => do
    let x ← if b then it.nextC else it.nextBackC
    let n ← iterRounds x.1.1 bs
    pure (x.2 + n)

end GeoCrossings.Splay
