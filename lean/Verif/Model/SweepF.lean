import Verif.Model.Rounded
import Verif.Model.SplayM
import Verif.Model.Sweep

/-!
# The sweep once more, telling panics from accesses out of bounds, in any arithmetic

`Model/Sweep.lean` works in exact arithmetic and has one result, `none`, for everything that goes wrong. Here:

* the result of a function is `Except Fault`, which tells a panic from an unchecked access (`get_unchecked`, `get_unchecked_mut`) to a vacant
  slot of the slab, which is undefined behaviour, and from a walk along overlap links that does not end;
* the comparison of two segments and the intersection of two segments are those of an `Arith`, any functions;
* the comparisons are made by the splay tree in the order in which it makes them (`Model/SplayM.lean`), and each may be a fault;
* the `debug_assert`s are executed if `debug`.

Otherwise the functions are those of `Model/Sweep.lean`, and cite the same lines of `src/crossings/sweep.rs` and `src/active.rs`.
-/
namespace GeoCrossings
open Splay

/-- What can go wrong. -/
inductive Fault where
  /-- A panic: a failed assertion, an `expect`, an `unwrap`. -/
  | panic
  /-- An unchecked access to a vacant slot: undefined behaviour. -/
  | outOfBounds
  /-- A walk along overlap links of more steps than there are slots, so one that visits a slot twice, and does not end. -/
  | endless
  /-- The recursion of `handle_event` goes deeper than the bound given to the model. -/
  | deep
deriving DecidableEq, Repr

/-- What the sweep computes with the geometry of segments. `start` is called in the loop of a left event (sweep.rs:436), `other` at the
two other places (sweep.rs:528, 550). In the crate they are the same function; they are two here so that one can speak of the first
alone. A result of `none` is a panic. -/
structure Arith (K : Type _) where
  cmp : LineOrPoint K → LineOrPoint K → Option Ordering
  start : LineOrPoint K → LineOrPoint K → Option (Option (LineOrPoint K))
  other : LineOrPoint K → LineOrPoint K → Option (Option (LineOrPoint K))

/-- The crate's own comparison (`PartialOrd for LineOrPoint`) and `intersect_line_ordered`, with crossing points computed by `ip`. -/
def Arith.rounded {K : Type _} [Field K] [LinearOrder K] (debug : Bool) (ip : Line K → Line K → Pt K) (up : K → K) : Arith K :=
  { cmp := LineOrPoint.pcmp
    start := LineOrPoint.intersectLineOrderedR debug ip up
    other := LineOrPoint.intersectLineOrderedR debug ip up }

namespace Fault

/-- `expect`, `unwrap`, and the like. -/
def orPanic {α : Type} : Option α → Except Fault α
  | some a => .ok a
  | none => .error .panic

end Fault

open Fault

namespace Slab
variable {α : Type}

/-- `get_unchecked`. -/
def getU (s : Slab α) (k : Nat) : Except Fault α :=
  match s.get k with
  | some a => .ok a
  | none => .error .outOfBounds

/-- A write through `get_unchecked_mut`. -/
def modifyU (s : Slab α) (k : Nat) (f : α → α) : Except Fault (Slab α) :=
  match s.modify k f with
  | some a => .ok a
  | none => .error .outOfBounds

end Slab

variable {K C : Type} [LinearOrder K]

/-- `Active::cmp` — active.rs:42-47, 66-85, and `PartialOrd for Segment` — sweep.rs:220-226. Both segments are read unchecked. -/
def cmpKeysF (A : Arith K) (slab : Slab (Seg K C)) (a b : Nat) : Except Fault Ordering := do
  let sa ← slab.getU a
  let sb ← slab.getU b
  let o ← orPanic (A.cmp sa.geom sb.geom)
  pure (o.then (compare sa.key sb.key))

/-- `Segment::adjust_for_intersection` — sweep.rs:114-180. -/
def Seg.adjustF (debug : Bool) (s : Seg K C) (i : LineOrPoint K) : Except Fault (Seg K C × Split K) :=
  match s.geom with
  | .point _ => .error .panic
  | .line p q =>
    match i with
    | .point r =>
      if debug ∧ ¬ p ≤ r then .error .panic
      else if p = r ∨ q = r then .ok (s, .unchanged false)
      else .ok ({ s with geom := .line p r, firstSegment := false },
                 .splitOnce none (if q > r then .line r q else .line q r))
    | .line r1 r2 =>
      if debug ∧ ¬ (p ≤ r1 ∧ r2 ≤ q) then .error .panic
      else if p = r1 then
        if r2 = q then .ok (s, .unchanged true)
        else .ok ({ s with geom := .line p r2, firstSegment := false }, .splitOnce (some false) (.line r2 q))
      else if r2 = q then
        .ok ({ s with geom := .line p r1, firstSegment := false }, .splitOnce (some true) (.line r1 q))
      else .ok ({ s with geom := .line p r1, firstSegment := false }, .splitTwice (.line r2 q))

namespace Sweep

/-- `prev_key` — active.rs:145-151. -/
def prevKeyF (A : Arith K) (st : Sweep K C) (k : Nat) : Except Fault (Sweep K C × Option Nat) := do
  let (a, o) ← SplayTree.prevM (cmpKeysF A st.segments) st.active k
  pure ({ st with active := a }, o.map (·.1))

/-- `next_key` — active.rs:153-159. -/
def nextKeyF (A : Arith K) (st : Sweep K C) (k : Nat) : Except Fault (Sweep K C × Option Nat) := do
  let (a, o) ← SplayTree.nextM (cmpKeysF A st.segments) st.active k
  pure ({ st with active := a }, o.map (·.1))

/-- `add_key` — active.rs:161-164. -/
def addKeyF (debug : Bool) (A : Arith K) (st : Sweep K C) (k : Nat) : Except Fault (Sweep K C) := do
  if debug ∧ (st.segments.get k).isNone then .error .panic
  else
    let (a, o) ← SplayTree.insertM (cmpKeysF A st.segments) st.active k ()
    if o.isNone then pure { st with active := a } else .error .panic

/-- `remove_key` — active.rs:166-171. -/
def removeKeyF (debug : Bool) (A : Arith K) (st : Sweep K C) (k : Nat) : Except Fault (Sweep K C) := do
  if debug ∧ (st.segments.get k).isNone then .error .panic
  else
    match ← SplayTree.removeM (cmpKeysF A st.segments) st.active k with
    | some (a, some ()) => pure { st with active := a }
    | _ => .error .panic

/-- The loop of `create_segment` — sweep.rs:292-306. -/
def copyChainF (lineOf : C → Line K) (geom : LineOrPoint K) :
    Nat → Slab (Seg K C) → Option Nat → Nat → Except Fault (Slab (Seg K C))
  | _, slab, none, _ => .ok slab
  | 0, _, some _, _ => .error .endless
  | fuel + 1, slab, some child, target => do
    let cs ← slab.getU child
    let (slab, ns) := Seg.new lineOf slab cs.crossable (some geom)
    let slab ← slab.modifyU target fun s => { s with overlapping := some ns.key }
    let slab ← slab.modifyU ns.key fun s => { s with isOverlapping := true }
    copyChainF lineOf geom fuel slab cs.overlapping ns.key

/-- `create_segment` — sweep.rs:272-309. -/
def createSegmentF (lineOf : C → Line K) (st : Sweep K C) (c : C) (geom : Option (LineOrPoint K))
    (parent : Option Nat) : Except Fault (Sweep K C × Nat) :=
  let (slab, seg) := Seg.new lineOf st.segments c geom
  let st : Sweep K C := { st with segments := slab, events := heapPush (heapPush st.events seg.leftEvent) seg.rightEvent }
  match parent with
  | none => .ok (st, seg.key)
  | some par => do
    let ps ← st.segments.getU par
    let slab ← copyChainF lineOf seg.geom st.segments.size st.segments ps.overlapping seg.key
    pure ({ st with segments := slab }, seg.key)

/-- The loop of `adjust_for_intersection` — sweep.rs:331-335. -/
def setChainF (geom : LineOrPoint K) : Nat → Slab (Seg K C) → Option Nat → Except Fault (Slab (Seg K C))
  | _, slab, none => .ok slab
  | 0, _, some _ => .error .endless
  | fuel + 1, slab, some child => do
    let cs ← slab.getU child
    let slab ← slab.modifyU child fun s => { s with geom := geom }
    setChainF geom fuel slab cs.overlapping

/-- `Sweep::adjust_for_intersection` — sweep.rs:310-337. -/
def adjustForF (debug : Bool) (st : Sweep K C) (k : Nat) (i : LineOrPoint K) : Except Fault (Sweep K C × Split K) := do
  let seg ← st.segments.getU k
  let (seg', out) ← seg.adjustF debug i
  let slab ← st.segments.modifyU k fun _ => seg'
  let st := { st with segments := slab }
  let st := match out with
    | .unchanged _ => st
    | _ => st.push seg'.rightEvent
  let slab ← setChainF seg'.geom st.segments.size st.segments seg'.overlapping
  pure ({ st with segments := slab }, out)

/-- `adjust_one_segment` — sweep.rs:338-366. -/
def adjustOneF (debug : Bool) (lineOf : C → Line K) (st : Sweep K C) (k : Nat) (i : LineOrPoint K) :
    Except Fault (Sweep K C × Option Nat) := do
  let seg ← st.segments.getU k
  let (st, out) ← st.adjustForF debug k i
  match out with
  | .unchanged ov => pure (st, if ov then some k else none)
  | .splitOnce ov right =>
    let (st, nk) ← st.createSegmentF lineOf seg.crossable (some right) (some k)
    pure (st, match ov with
      | some false => some k
      | some true => some nk
      | none => none)
  | .splitTwice right =>
    let (st, _) ← st.createSegmentF lineOf seg.crossable (some right) (some k)
    let (st, midKey) ← st.createSegmentF lineOf seg.crossable (some i) (some k)
    pure (st, some midKey)

/-- The loop of `chain_overlap` — sweep.rs:400-402. -/
def chainEndF (slab : Slab (Seg K C)) : Nat → Nat → Except Fault Nat
  | 0, _ => .error .endless
  | fuel + 1, k => do
    let s ← slab.getU k
    match s.overlapping with
    | none => pure k
    | some k' => chainEndF slab fuel k'

/-- `chain_overlap` — sweep.rs:397-405. -/
def chainOverlapF (st : Sweep K C) (src tgt : Nat) : Except Fault (Sweep K C) := do
  let last ← chainEndF st.segments (st.segments.size + 1) src
  let slab ← st.segments.modifyU last fun s => { s with overlapping := some tgt }
  let slab ← slab.modifyU tgt fun s => { s with isOverlapping := true }
  pure { st with segments := slab }

/-- The callback loop of a left event — sweep.rs:503-509. -/
def emitLeftF : Nat → Slab (Seg K C) → Option Nat → Except Fault (Slab (Seg K C) × Out K C)
  | _, slab, none => .ok (slab, [])
  | 0, _, some _ => .error .endless
  | fuel + 1, slab, some k => do
    let s ← slab.getU k
    let slab ← slab.modifyU k fun s => { s with leftEventDone := true }
    let (slab, out) ← emitLeftF fuel slab s.overlapping
    pure (slab, (s, EventType.lineLeft) :: out)

/-- The callback loop of a right event — sweep.rs:517-523. -/
def emitRightF : Nat → Slab (Seg K C) → Option Nat → Except Fault (Slab (Seg K C) × Out K C)
  | _, slab, none => .ok (slab, [])
  | 0, _, some _ => .error .endless
  | fuel + 1, slab, some k => do
    let s ← slab.getU k
    let slab ← orPanic (slab.remove k)
    let (slab, out) ← emitRightF fuel slab s.overlapping
    pure (slab, (s, EventType.lineRight) :: out)

/-- The recursive call of `handle_event` in the loop of a left event, if it is due — sweep.rs:454-458. -/
def recurseF (debug : Bool) (choice : Nat → Nat) (rec : Sweep K C → Event K → Except Fault (Sweep K C × Out K C × Bool))
    (st : Sweep K C) (due : Bool) : Except Fault (Sweep K C × Out K C) :=
  if due then do
    let (e, st) ← orPanic (st.popEvent choice)
    let (st, out, done) ← rec st e
    if debug ∧ ¬ done then .error .panic else pure (st, out)
  else .ok (st, [])

/-- The loop of a `LineLeft` event — sweep.rs:430-492. `rec` is the recursive call of `handle_event` (line 456). -/
def leftLoopF (debug : Bool) (A : Arith K) (lineOf : C → Line K) (choice : Nat → Nat)
    (rec : Sweep K C → Event K → Except Fault (Sweep K C × Out K C × Bool)) (ek : Nat) :
    List Nat → Sweep K C → Seg K C → Except Fault (Sweep K C × Out K C × LeftExit)
  | [], st, _ => .ok (st, [], .add)
  | adj :: rest, st, seg => do
    let adjSeg ← orPanic (st.segments.get adj)
    match ← orPanic (A.start seg.geom adjSeg.geom) with
    | none => leftLoopF debug A lineOf choice rec ek rest st seg
    | some i =>
      let (st, adjOv) ← st.adjustOneF debug lineOf adj i
      let adjSeg ← st.segments.getU adj
      let (st, out1) ← recurseF debug choice rec st (i.first ≠ adjSeg.geom.first ∧ i.first = seg.geom.first)
      let (st, segOv) ← st.adjustOneF debug lineOf ek i
      let seg ← st.segments.getU ek
      match adjOv, segOv with
      | none, none => do
        let (st, out2, x) ← leftLoopF debug A lineOf choice rec ek rest st seg
        pure (st, out1 ++ out2, x)
      | some a, some t => do
        let st ← st.chainOverlapF a t
        if t = ek then do
          let as ← st.segments.getU a
          pure (st, out1, if as.leftEventDone then .noAdd else .ret)
        else do
          let (st, out2, x) ← leftLoopF debug A lineOf choice rec ek rest st seg
          pure (st, out1 ++ out2, x)
      | _, _ => .error .panic

/-- The loop of a `PointLeft` event — sweep.rs:544-559. -/
def pointLoopF (debug : Bool) (A : Arith K) (lineOf : C → Line K) :
    List Nat → Sweep K C → Seg K C → Except Fault (Sweep K C)
  | [], st, _ => .ok st
  | adj :: rest, st, seg => do
    let adjSeg ← orPanic (st.segments.get adj)
    match ← orPanic (A.other seg.geom adjSeg.geom) with
    | none => pointLoopF debug A lineOf rest st seg
    | some i =>
      let (st, ov) ← st.adjustOneF debug lineOf adj i
      if debug ∧ ov.isSome then .error .panic else pointLoopF debug A lineOf rest st seg

/-- `handle_event` — sweep.rs:406-571. The first argument bounds the depth of the recursion at line 456. -/
def handleEventF (debug : Bool) (A : Arith K) (lineOf : C → Line K) (choice : Nat → Nat) :
    Nat → Sweep K C → Event K → Except Fault (Sweep K C × Out K C × Bool)
  | 0, _, _ => .error .deep
  | depth + 1, st, e => do
    match ← orPanic (st.segmentForEvent e) with
    | none => pure (st, [], false)
    | some seg =>
      let (st, prev) ← st.prevKeyF A seg.key
      let (st, next) ← st.nextKeyF A seg.key
      match e.ty with
      | .lineLeft =>
        let (st, out1, x) ← leftLoopF debug A lineOf choice (handleEventF debug A lineOf choice depth)
          e.segmentKey (prev.toList ++ next.toList) st seg
        match x with
        | .ret => pure (st, out1, true)
        | _ =>
          let st ← if x = .add then st.addKeyF debug A e.segmentKey else pure st
          let (slab, out2) ← emitLeftF (st.segments.size + 1) st.segments (some e.segmentKey)
          pure ({ st with segments := slab }, out1 ++ out2, true)
      | .lineRight =>
        let st ← st.removeKeyF debug A e.segmentKey
        let (slab, out) ← emitRightF (st.segments.size + 1) st.segments (some e.segmentKey)
        let st := { st with segments := slab }
        match prev, next with
        | some pk, some nk =>
          let ps ← st.segments.getU pk
          let ns ← st.segments.getU nk
          match ← orPanic (A.other ps.geom ns.geom) with
          | none => pure (st, out, true)
          | some i =>
            let (st, first) ← st.adjustOneF debug lineOf pk i
            let (st, second) ← st.adjustOneF debug lineOf nk i
            if debug ∧ ¬ (first.isNone ∧ second.isNone) then .error .panic else pure (st, out, true)
        | _, _ => pure (st, out, true)
      | .pointLeft =>
        let st ← pointLoopF debug A lineOf (prev.toList ++ next.toList) st seg
        pure (st, [(seg, .pointLeft)], true)
      | .pointRight => pure (st, [], true)

/-- `Sweep::new` — sweep.rs:253-270. -/
def newF (lineOf : C → Line K) (input : List C) : Except Fault (Sweep K C) :=
  input.foldlM (fun st c => do let (st, _) ← st.createSegmentF lineOf c none none; pure st)
    { segments := Slab.empty, events := [], active := SplayTree.new, clock := 0 }

/-- `n` calls of `next_event` — sweep.rs:577-587; fewer if the heap gets empty. -/
def eventsF (debug : Bool) (A : Arith K) (lineOf : C → Line K) (choice : Nat → Nat) (depth : Nat) :
    Nat → Sweep K C → Except Fault (Sweep K C × Out K C)
  | 0, st => .ok (st, [])
  | n + 1, st =>
    match st.popEvent choice with
    | none => .ok (st, [])
    | some (e, st) => do
      let (st, out, _) ← handleEventF debug A lineOf choice depth st e
      let (st, outs) ← eventsF debug A lineOf choice depth n st
      pure (st, out ++ outs)

/-- A sweep of the input, for `n` events. -/
def sweepF (debug : Bool) (A : Arith K) (lineOf : C → Line K) (choice : Nat → Nat) (depth n : Nat) (input : List C) :
    Except Fault (Sweep K C × Out K C) := do
  let st ← newF lineOf input
  eventsF debug A lineOf choice depth n st

end Sweep
end GeoCrossings
