import Verif.Model.Sweep
import Verif.Model.SplayM

/-!
# `src/crossings/sweep.rs`, with the number of comparisons

The functions of `Model/Sweep.lean` that use the active set once more, counting the calls the splay tree makes of the comparator that
orders the active segments (active.rs:135-139). The count is a state threaded through the functions; it is not part of the code. The
tree is that of `Model/SplayM.lean`, run with a comparator that counts. Functions that do not use the active set are used as they are.
That the results are those of `Model/Sweep.lean` is proved (`nextEventC_erases`).
-/
namespace GeoCrossings
open Splay

variable {K C : Type} [Field K] [LinearOrder K]

namespace Sweep

/-- A call on the splay tree, with the count; nothing in it panics. -/
def counted {α : Type} (x : StateM Nat α) : StateT Nat Option α := fun n => some (x.run n)

/-- `prev_key` — active.rs:145-151. -/
def prevKeyC (st : Sweep K C) (k : Nat) : StateT Nat Option (Sweep K C × Option Nat) :=
  if comparable st.segments st.active k then do
    let (a, o) ← counted (SplayTree.prevM (counting (cmpD st.segments)) st.active k)
    pure ({ st with active := a }, o.map (·.1))
  else failure

/-- `next_key` — active.rs:153-159. -/
def nextKeyC (st : Sweep K C) (k : Nat) : StateT Nat Option (Sweep K C × Option Nat) :=
  if comparable st.segments st.active k then do
    let (a, o) ← counted (SplayTree.nextM (counting (cmpD st.segments)) st.active k)
    pure ({ st with active := a }, o.map (·.1))
  else failure

/-- `add_key` — active.rs:161-164. -/
def addKeyC (st : Sweep K C) (k : Nat) : StateT Nat Option (Sweep K C) :=
  if (st.segments.get k).isSome ∧ comparable st.segments st.active k then do
    let (a, o) ← counted (SplayTree.insertM (counting (cmpD st.segments)) st.active k ())
    if o.isNone then pure { st with active := a } else failure
  else failure

/-- `remove_key` — active.rs:166-171. -/
def removeKeyC (st : Sweep K C) (k : Nat) : StateT Nat Option (Sweep K C) :=
  if (st.segments.get k).isSome ∧ comparable st.segments st.active k then do
    match ← counted (SplayTree.removeM (counting (cmpD st.segments)) st.active k) with
    | some (a, some _) => pure { st with active := a }
    | _ => failure
  else failure

/-- The loop of a `LineLeft` event — sweep.rs:430-492. -/
def leftLoopC (lineOf : C → Line K) (nextAfter : K → K) (choice : Nat → Nat)
    (rec : Sweep K C → Event K → StateT Nat Option (Sweep K C × Out K C × Bool)) (ek : Nat) :
    List Nat → Sweep K C → Seg K C → StateT Nat Option (Sweep K C × Out K C × LeftExit)
  | [], st, _ => pure (st, [], .add)
  | adj :: rest, st, seg => do
    let adjSeg ← liftM (st.segments.get adj)
    let inter ← liftM (seg.geom.intersectLineOrdered nextAfter adjSeg.geom)
    match inter with
    | none => leftLoopC lineOf nextAfter choice rec ek rest st seg
    | some i => do
      let (st, adjOv) ← liftM (st.adjustOne lineOf adj i)
      let adjSeg ← liftM (st.segments.get adj)
      let (st, out1) ←
        if i.first ≠ adjSeg.geom.first ∧ i.first = seg.geom.first then do
          let (e, st) ← liftM (st.popEvent choice)
          let (st, out, done) ← rec st e
          if done then pure (st, out) else failure
        else pure (st, [])
      let (st, segOv) ← liftM (st.adjustOne lineOf ek i)
      let seg ← liftM (st.segments.get ek)
      match adjOv, segOv with
      | none, none => do
        let (st, out2, x) ← leftLoopC lineOf nextAfter choice rec ek rest st seg
        pure (st, out1 ++ out2, x)
      | some a, some t => do
        let st ← liftM (st.chainOverlap a t)
        if t = ek then do
          let as ← liftM (st.segments.get a)
          pure (st, out1, if as.leftEventDone then .noAdd else .ret)
        else do
          let (st, out2, x) ← leftLoopC lineOf nextAfter choice rec ek rest st seg
          pure (st, out1 ++ out2, x)
      | _, _ => failure

/-- What follows the search for the neighbours in `handle_event`, at a right end — sweep.rs:511-543. -/
def rightTail (lineOf : C → Line K) (nextAfter : K → K) (st : Sweep K C) (k : Nat) (prev next : Option Nat) :
    Option (Sweep K C × Out K C × Bool) := do
  let (slab, out) ← emitRight (st.segments.size + 1) st.segments (some k)
  let st := { st with segments := slab }
  match prev, next with
  | some pk, some nk =>
    let ps ← st.segments.get pk
    let ns ← st.segments.get nk
    match ← ps.geom.intersectLineOrdered nextAfter ns.geom with
    | none => pure (st, out, true)
    | some i =>
      let (st, first) ← st.adjustOne lineOf pk i
      let (st, second) ← st.adjustOne lineOf nk i
      if first.isNone ∧ second.isNone then pure (st, out, true) else none
  | _, _ => pure (st, out, true)

/-- `handle_event` — sweep.rs:406-571. -/
def handleEventC (lineOf : C → Line K) (nextAfter : K → K) (choice : Nat → Nat) :
    Nat → Sweep K C → Event K → StateT Nat Option (Sweep K C × Out K C × Bool)
  | 0, _, _ => failure
  | fuel + 1, st, e => do
    match ← liftM (st.segmentForEvent e) with
    | none => pure (st, [], false)
    | some seg => do
      let (st, prev) ← st.prevKeyC seg.key
      let (st, next) ← st.nextKeyC seg.key
      match e.ty with
      | .lineLeft => do
        let (st, out1, x) ← leftLoopC lineOf nextAfter choice (handleEventC lineOf nextAfter choice fuel)
          e.segmentKey (prev.toList ++ next.toList) st seg
        match x with
        | .ret => pure (st, out1, true)
        | _ => do
          let st ← if x = .add then st.addKeyC e.segmentKey else pure st
          let (slab, out2) ← liftM (emitLeft (st.segments.size + 1) st.segments (some e.segmentKey))
          pure ({ st with segments := slab }, out1 ++ out2, true)
      | .lineRight => do
        let st ← st.removeKeyC e.segmentKey
        liftM (rightTail lineOf nextAfter st e.segmentKey prev next)
      | .pointLeft => do
        let st ← liftM (pointLoop lineOf nextAfter (prev.toList ++ next.toList) st seg)
        pure (st, [(seg, .pointLeft)], true)
      | .pointRight => pure (st, [], true)

/-- `next_event` — sweep.rs:577-587. -/
def nextEventC (lineOf : C → Line K) (nextAfter : K → K) (choice : Nat → Nat) (st : Sweep K C) :
    StateT Nat Option (Option (Sweep K C × Out K C × Pt K)) :=
  match st.popEvent choice with
  | none => pure none
  | some (e, st) => do
    let (st, out, _) ← handleEventC lineOf nextAfter choice 2 st e
    pure (some (st, out, e.point))

end Sweep
end GeoCrossings
