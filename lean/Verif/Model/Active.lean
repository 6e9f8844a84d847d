import Verif.Model.Splay
import Verif.Spec.OrdMap

/-!
# Model of `src/active.rs`: the two ordered-set backends of the active set

An `Active` (active.rs:7-10) is a slab key plus a pointer to the slab; comparing two of them compares
the slab entries (active.rs:66-85). Here an element is the key, and each call takes the comparator the
slab induces *at the time of the call*: slab entries are modified in place during a sweep, so different
calls may come with different comparators. A comparison that panics (active.rs:81-83) is not represented
in this file; see `Model/Sweep.lean`.
-/
namespace GeoCrossings.Active
open Splay Spec

/-- A call of the `Access` trait, active.rs:88-94. -/
inductive AOp where
  | prev (k : Nat)
  | next (k : Nat)
  | add (k : Nat)
  | remove (k : Nat)

/-- `Access for SplayWrap<Active<T>>`, active.rs:142-172. Result `none` = panic (the `assert!`s at 163, 170). -/
def splayCall (cmp : Nat → Nat → Ordering) (s : SplaySet Nat) : AOp → Option (SplaySet Nat × Option Nat)
  | .prev k => some (SplaySet.prev cmp s k)
  | .next k => some (SplaySet.next cmp s k)
  | .add k => let (s', b) := SplaySet.insert cmp s k; if b then some (s', none) else none
  | .remove k =>
    match SplaySet.remove cmp s k with
    | some (s', true) => some (s', none)
    | _ => none

/-- `Access for BTreeSet<Active<T>>`, active.rs:96-132. `BTreeSet` itself is modelled by its documented
behaviour: a sorted sequence without duplicates. -/
def btreeCall (cmp : Nat → Nat → Ordering) (l : List (Nat × Unit)) : AOp → Option (List (Nat × Unit) × Option Nat)
  | .prev k => some (l, (OrdMap.pred cmp k l).map (·.1))
  | .next k => some (l, (OrdMap.succ cmp k l).map (·.1))
  | .add k => if (OrdMap.find cmp k l).isNone then some (OrdMap.insert cmp k () l, none) else none
  | .remove k => if (OrdMap.find cmp k l).isSome then some (OrdMap.erase cmp k l, none) else none

/-- A history of calls on the splay backend, each with the comparator of its moment; `none` = panic. -/
def splayRun : SplaySet Nat → List ((Nat → Nat → Ordering) × AOp) → Option (SplaySet Nat × List (Option Nat))
  | s, [] => some (s, [])
  | s, (cmp, op) :: ops => do
    let (s', o) ← splayCall cmp s op
    let (s'', os) ← splayRun s' ops
    pure (s'', o :: os)

/-- The same history on the `BTreeSet` backend. -/
def btreeRun : List (Nat × Unit) → List ((Nat → Nat → Ordering) × AOp) →
    Option (List (Nat × Unit) × List (Option Nat))
  | l, [] => some (l, [])
  | l, (cmp, op) :: ops => do
    let (l', o) ← btreeCall cmp l op
    let (l'', os) ← btreeRun l' ops
    pure (l'', o :: os)

end GeoCrossings.Active
