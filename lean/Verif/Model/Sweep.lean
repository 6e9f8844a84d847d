import Verif.Model.LineOrPoint
import Verif.Model.Splay

/-!
# Model of `src/crossings/sweep.rs`: the Bentley–Ottmann sweep

The state is the slab of segments, the event heap and the active set (the splay-tree backend, which is the
default, sweep.rs:237). A result of `none` is a panic, an out-of-bounds unchecked access, or an endless walk
along overlap links. The `debug_assert`s are executed, as in a debug build, and a failing one is a panic; they have no other effect,
so a run that returns is also a run of the release build. The trace macros are dropped.

Parameters that stand for things outside the crate:
* `lineOf`     — `Crossable::line`, supplied by the user;
* `nextAfter`  — `NextAfter::next_after(_, inf)`;
* `choice`     — which of several greatest events the `BinaryHeap` pops at its `n`-th pop.
-/
namespace GeoCrossings
open Splay

/-! ## `slab::Slab` (external crate, by documented behaviour; vacant keys are reused last-in first-out) -/

structure Slab (α : Type _) where
  cells : Nat → Option α
  size : Nat
  free : List Nat

namespace Slab
variable {α : Type _}

def empty : Slab α := ⟨fun _ => none, 0, []⟩

/-- `Slab::get`, and `get_unchecked` where `none` stands for undefined behaviour. -/
def get (s : Slab α) (k : Nat) : Option α := s.cells k

/-- `vacant_entry().key()`. -/
def vacantKey (s : Slab α) : Nat :=
  match s.free with
  | [] => s.size
  | k :: _ => k

def put (s : Slab α) (k : Nat) (v : Option α) : Slab α :=
  { s with cells := fun i => if i = k then v else s.cells i }

/-- `vacant_entry().insert(v)`. -/
def insert (s : Slab α) (v : α) : Slab α :=
  match s.free with
  | [] => { s.put s.size (some v) with size := s.size + 1 }
  | k :: f => { s.put k (some v) with free := f }

/-- Mutation through `get_mut` / `get_unchecked_mut`. -/
def modify (s : Slab α) (k : Nat) (f : α → α) : Option (Slab α) :=
  (s.get k).map fun v => s.put k (some (f v))

/-- `Slab::remove`: panics on a vacant key. -/
def remove (s : Slab α) (k : Nat) : Option (Slab α) :=
  (s.get k).map fun _ => { s.put k none with free := k :: s.free }

end Slab

/-! ## Segments -/

/-- `Segment` — sweep.rs:14-23. -/
structure Seg (K C : Type _) where
  geom : LineOrPoint K
  key : Nat
  crossable : C
  firstSegment : Bool
  leftEventDone : Bool
  overlapping : Option Nat
  isOverlapping : Bool

/-- `SplitSegments` — sweep.rs:604-616. -/
inductive Split (K : Type _) where
  | unchanged (overlap : Bool)
  | splitOnce (overlap : Option Bool) (right : LineOrPoint K)
  | splitTwice (right : LineOrPoint K)
deriving DecidableEq, Repr

/-- `Crossing` — crossings.rs:69-101. -/
structure Crossing (K C : Type _) where
  crossable : C
  line : LineOrPoint K
  firstSegment : Bool
  hasOverlap : Bool
  atLeft : Bool
  key : Nat
deriving DecidableEq, Repr

variable {K C : Type _} [Field K] [LinearOrder K]

/-- `Segment::new` — sweep.rs:46-65. The `geom` argument `none` means the crossable's own line. -/
def Seg.new (lineOf : C → Line K) (slab : Slab (Seg K C)) (c : C) (geom : Option (LineOrPoint K)) :
    Slab (Seg K C) × Seg K C :=
  let seg : Seg K C :=
    { key := slab.vacantKey
      crossable := c
      geom := geom.getD (.ofLine (lineOf c))
      firstSegment := geom.isNone
      overlapping := none
      isOverlapping := false
      leftEventDone := false }
  (slab.insert seg, seg)

/-- `left_event` — sweep.rs:68-81. -/
def Seg.leftEvent (s : Seg K C) : Event K :=
  match s.geom with
  | .point p => ⟨p, .pointLeft, s.key⟩
  | .line p _ => ⟨p, .lineLeft, s.key⟩

/-- `right_event` — sweep.rs:84-97. -/
def Seg.rightEvent (s : Seg K C) : Event K :=
  match s.geom with
  | .point p => ⟨p, .pointRight, s.key⟩
  | .line _ q => ⟨q, .lineRight, s.key⟩

/-- `Segment::adjust_for_intersection` — sweep.rs:114-180. `none` is the panic at line 122, or a failed assertion
(lines 128, 150). -/
def Seg.adjust (s : Seg K C) (i : LineOrPoint K) : Option (Seg K C × Split K) :=
  match s.geom with
  | .point _ => none
  | .line p q =>
    match i with
    | .point r =>
      if ¬ p ≤ r then none
      else if p = r ∨ q = r then some (s, .unchanged false)
      else some ({ s with geom := .line p r, firstSegment := false },
                 .splitOnce none (if q > r then .line r q else .line q r))
    | .line r1 r2 =>
      if ¬ (p ≤ r1 ∧ r2 ≤ q) then none
      else if p = r1 then
        if r2 = q then some (s, .unchanged true)
        else some ({ s with geom := .line p r2, firstSegment := false }, .splitOnce (some false) (.line r2 q))
      else if r2 = q then
        some ({ s with geom := .line p r1, firstSegment := false }, .splitOnce (some true) (.line r1 q))
      else some ({ s with geom := .line p r1, firstSegment := false }, .splitTwice (.line r2 q))

/-- `Crossing::from_segment` — sweep.rs:195-204. -/
def Crossing.ofSeg (s : Seg K C) (ty : EventType) : Crossing K C :=
  { crossable := s.crossable
    line := s.geom
    firstSegment := s.firstSegment
    hasOverlap := s.overlapping.isSome
    atLeft := ty == .lineLeft
    key := s.key }

/-- `PartialOrd for Segment` — sweep.rs:220-226, lifted to slab keys as in active.rs:66-75. -/
def cmpKeys (slab : Slab (Seg K C)) (a b : Nat) : Option Ordering := do
  let sa ← slab.get a
  let sb ← slab.get b
  let o ← sa.geom.pcmp sb.geom
  pure (o.then (compare sa.key sb.key))

/-! ## The sweep -/

/-- `Sweep` — sweep.rs:237-245; `clock` counts the pops, to index `choice`. -/
structure Sweep (K C : Type _) where
  segments : Slab (Seg K C)
  events : List (Event K)
  active : SplaySet Nat
  clock : Nat

/-- What a call of the callback receives: the segment as stored at that moment, and the event type. -/
abbrev Out (K C : Type _) := List (Seg K C × EventType)

namespace Sweep

/-- The comparison used by the ordered set: panics are turned into an arbitrary answer here, and are ruled out by
`comparable` before every call. -/
def cmpD (slab : Slab (Seg K C)) (a b : Nat) : Ordering := (cmpKeys slab a b).getD .lt

/-- Every comparison of `k` with a member of the active set is defined. (A call panics if one of the comparisons it makes
is undefined, active.rs:78-85. Which ones it makes depends on the shape of the tree, so this is a sufficient condition for
not panicking; the model treats its failure as a panic.) -/
def comparable (slab : Slab (Seg K C)) (act : SplaySet Nat) (k : Nat) : Bool :=
  (act.root.toList).all fun e => (cmpKeys slab k e.1).isSome && (cmpKeys slab e.1 k).isSome

/-- `prev_key` — active.rs:145-151. -/
def prevKey (st : Sweep K C) (k : Nat) : Option (Sweep K C × Option Nat) :=
  if comparable st.segments st.active k then
    let (a, o) := SplaySet.prev (cmpD st.segments) st.active k
    some ({ st with active := a }, o)
  else none

/-- `next_key` — active.rs:153-159. -/
def nextKey (st : Sweep K C) (k : Nat) : Option (Sweep K C × Option Nat) :=
  if comparable st.segments st.active k then
    let (a, o) := SplaySet.next (cmpD st.segments) st.active k
    some ({ st with active := a }, o)
  else none

/-- `add_key` — active.rs:161-164. -/
def addKey (st : Sweep K C) (k : Nat) : Option (Sweep K C) :=
  if (st.segments.get k).isSome ∧ comparable st.segments st.active k then
    let (a, b) := SplaySet.insert (cmpD st.segments) st.active k
    if b then some { st with active := a } else none
  else none

/-- `remove_key` — active.rs:166-171. -/
def removeKey (st : Sweep K C) (k : Nat) : Option (Sweep K C) :=
  if (st.segments.get k).isSome ∧ comparable st.segments st.active k then
    match SplaySet.remove (cmpD st.segments) st.active k with
    | some (a, true) => some { st with active := a }
    | _ => none
  else none

def push (st : Sweep K C) (e : Event K) : Sweep K C := { st with events := heapPush st.events e }

def modifySeg (st : Sweep K C) (k : Nat) (f : Seg K C → Seg K C) : Option (Sweep K C) := do
  let slab ← st.segments.modify k f
  pure { st with segments := slab }

/-- The loop of `create_segment` — sweep.rs:292-306: copy the overlap chain of the parent. -/
def copyChain (lineOf : C → Line K) (geom : LineOrPoint K) :
    Nat → Slab (Seg K C) → Option Nat → Nat → Option (Slab (Seg K C))
  | _, slab, none, _ => some slab
  | 0, _, some _, _ => none
  | fuel + 1, slab, some child, target => do
    let cs ← slab.get child
    let (slab, ns) := Seg.new lineOf slab cs.crossable (some geom)
    let slab ← slab.modify target fun s => { s with overlapping := some ns.key }
    let slab ← slab.modify ns.key fun s => { s with isOverlapping := true }
    copyChain lineOf geom fuel slab cs.overlapping ns.key

/-- `create_segment` — sweep.rs:272-309. -/
def createSegment (lineOf : C → Line K) (st : Sweep K C) (c : C) (geom : Option (LineOrPoint K))
    (parent : Option Nat) : Option (Sweep K C × Nat) :=
  let (slab, seg) := Seg.new lineOf st.segments c geom
  let st : Sweep K C := { st with segments := slab, events := heapPush (heapPush st.events seg.leftEvent) seg.rightEvent }
  match parent with
  | none => some (st, seg.key)
  | some par => do
    let ps ← st.segments.get par
    let slab ← copyChain lineOf seg.geom st.segments.size st.segments ps.overlapping seg.key
    pure ({ st with segments := slab }, seg.key)

/-- The loop of `adjust_for_intersection` — sweep.rs:331-335: give the children the new geometry. -/
def setChain (geom : LineOrPoint K) : Nat → Slab (Seg K C) → Option Nat → Option (Slab (Seg K C))
  | _, slab, none => some slab
  | 0, _, some _ => none
  | fuel + 1, slab, some child => do
    let cs ← slab.get child
    let slab ← slab.modify child fun s => { s with geom := geom }
    setChain geom fuel slab cs.overlapping

/-- `Sweep::adjust_for_intersection` — sweep.rs:310-337. -/
def adjustFor (st : Sweep K C) (k : Nat) (i : LineOrPoint K) : Option (Sweep K C × Split K) := do
  let seg ← st.segments.get k
  let (seg', out) ← seg.adjust i
  let slab ← st.segments.modify k fun _ => seg'
  let st := { st with segments := slab }
  let st := match out with
    | .unchanged _ => st
    | _ => st.push seg'.rightEvent
  let slab ← setChain seg'.geom st.segments.size st.segments seg'.overlapping
  pure ({ st with segments := slab }, out)

/-- `adjust_one_segment` — sweep.rs:338-366. -/
def adjustOne (lineOf : C → Line K) (st : Sweep K C) (k : Nat) (i : LineOrPoint K) :
    Option (Sweep K C × Option Nat) := do
  let seg ← st.segments.get k
  let c := seg.crossable
  let (st, out) ← st.adjustFor k i
  match out with
  | .unchanged ov => pure (st, if ov then some k else none)
  | .splitOnce ov right =>
    let (st, nk) ← st.createSegment lineOf c (some right) (some k)
    pure (st, match ov with
      | some false => some k
      | some true => some nk
      | none => none)
  | .splitTwice right =>
    let (st, _) ← st.createSegment lineOf c (some right) (some k)
    let (st, midKey) ← st.createSegment lineOf c (some i) (some k)
    pure (st, some midKey)

/-- `segment_for_event` — sweep.rs:367-396. The outer `none` is a panic, the inner a spurious event. -/
def segmentForEvent (st : Sweep K C) (e : Event K) : Option (Option (Seg K C)) :=
  match e.ty with
  | .lineRight =>
    match st.segments.get e.segmentKey with
    | some s =>
      if s.isOverlapping then some none
      else match s.geom with
        | .line _ q => if q = e.point then some (some s) else some none
        | .point _ => some none
    | none => some none
  | .lineLeft => do
    let s ← st.segments.get e.segmentKey
    match s.geom with
    | .line p _ => if p = e.point then some (some s) else none
    | .point _ => none
  | _ => do
    let s ← st.segments.get e.segmentKey
    match s.geom with
    | .point p => if p = e.point then some (some s) else none
    | .line _ _ => none

/-- The loop of `chain_overlap` — sweep.rs:400-402: the last segment of a chain. -/
def chainEnd (slab : Slab (Seg K C)) : Nat → Nat → Option Nat
  | 0, _ => none
  | fuel + 1, k => do
    let s ← slab.get k
    match s.overlapping with
    | none => pure k
    | some k' => chainEnd slab fuel k'

/-- `chain_overlap` — sweep.rs:397-405. -/
def chainOverlap (st : Sweep K C) (src tgt : Nat) : Option (Sweep K C) := do
  let last ← chainEnd st.segments (st.segments.size + 1) src
  let st ← st.modifySeg last fun s => { s with overlapping := some tgt }
  st.modifySeg tgt fun s => { s with isOverlapping := true }

/-- The callback loop of a left event — sweep.rs:503-509. -/
def emitLeft : Nat → Slab (Seg K C) → Option Nat → Option (Slab (Seg K C) × Out K C)
  | _, slab, none => some (slab, [])
  | 0, _, some _ => none
  | fuel + 1, slab, some k => do
    let s ← slab.get k
    let slab ← slab.modify k fun s => { s with leftEventDone := true }
    let (slab, out) ← emitLeft fuel slab s.overlapping
    pure (slab, (s, EventType.lineLeft) :: out)

/-- The callback loop of a right event — sweep.rs:517-523. -/
def emitRight : Nat → Slab (Seg K C) → Option Nat → Option (Slab (Seg K C) × Out K C)
  | _, slab, none => some (slab, [])
  | 0, _, some _ => none
  | fuel + 1, slab, some k => do
    let s ← slab.get k
    let slab ← slab.remove k
    let (slab, out) ← emitRight fuel slab s.overlapping
    pure (slab, (s, EventType.lineRight) :: out)

/-- How the loop over the neighbours of a starting segment ends — sweep.rs:430-492. -/
inductive LeftExit where
  | add      -- ran to the end: `should_add` is true
  | noAdd    -- `break` with `should_add = false` (line 485)
  | ret      -- `return true` (line 488)
deriving DecidableEq

/-- `self.events.pop()`. -/
def popEvent (choice : Nat → Nat) (st : Sweep K C) : Option (Event K × Sweep K C) := do
  let (e, evs) ← heapPop (choice st.clock) st.events
  pure (e, { st with events := evs, clock := st.clock + 1 })

/-- The loop of a `LineLeft` event — sweep.rs:430-492. `rec` is the recursive call of `handle_event` (line 456). -/
def leftLoop (lineOf : C → Line K) (nextAfter : K → K) (choice : Nat → Nat)
    (rec : Sweep K C → Event K → Option (Sweep K C × Out K C × Bool)) (ek : Nat) :
    List Nat → Sweep K C → Seg K C → Option (Sweep K C × Out K C × LeftExit)
  | [], st, _ => some (st, [], .add)
  | adj :: rest, st, seg => do
    let adjSeg ← st.segments.get adj
    let inter ← seg.geom.intersectLineOrdered nextAfter adjSeg.geom
    match inter with
    | none => leftLoop lineOf nextAfter choice rec ek rest st seg
    | some i =>
      let (st, adjOv) ← st.adjustOne lineOf adj i
      let adjSeg ← st.segments.get adj
      let (st, out1) ←
        if i.first ≠ adjSeg.geom.first ∧ i.first = seg.geom.first then do
          let (e, st) ← st.popEvent choice
          let (st, out, done) ← rec st e
          if done then pure (st, out) else none
        else pure (st, [])
      let (st, segOv) ← st.adjustOne lineOf ek i
      let seg ← st.segments.get ek
      match adjOv, segOv with
      | none, none => do
        let (st, out2, x) ← leftLoop lineOf nextAfter choice rec ek rest st seg
        pure (st, out1 ++ out2, x)
      | some a, some t => do
        let st ← st.chainOverlap a t
        if t = ek then do
          let as ← st.segments.get a
          pure (st, out1, if as.leftEventDone then .noAdd else .ret)
        else do
          let (st, out2, x) ← leftLoop lineOf nextAfter choice rec ek rest st seg
          pure (st, out1 ++ out2, x)
      | _, _ => none

/-- The loop of a `PointLeft` event — sweep.rs:544-559. -/
def pointLoop (lineOf : C → Line K) (nextAfter : K → K) :
    List Nat → Sweep K C → Seg K C → Option (Sweep K C)
  | [], st, _ => some st
  | adj :: rest, st, seg => do
    let adjSeg ← st.segments.get adj
    let inter ← seg.geom.intersectLineOrdered nextAfter adjSeg.geom
    match inter with
    | none => pointLoop lineOf nextAfter rest st seg
    | some i =>
      let (st, ov) ← st.adjustOne lineOf adj i
      if ov.isNone then pointLoop lineOf nextAfter rest st seg else none

/-- `handle_event` — sweep.rs:406-571. The first argument bounds the depth of the recursion at line 456; `none` when it
is exhausted (it is proved that depth two is never exceeded). -/
def handleEvent (lineOf : C → Line K) (nextAfter : K → K) (choice : Nat → Nat) :
    Nat → Sweep K C → Event K → Option (Sweep K C × Out K C × Bool)
  | 0, _, _ => none
  | fuel + 1, st, e => do
    match ← st.segmentForEvent e with
    | none => pure (st, [], false)
    | some seg =>
      let (st, prev) ← st.prevKey seg.key
      let (st, next) ← st.nextKey seg.key
      match e.ty with
      | .lineLeft =>
        let (st, out1, x) ← leftLoop lineOf nextAfter choice (handleEvent lineOf nextAfter choice fuel)
          e.segmentKey (prev.toList ++ next.toList) st seg
        match x with
        | .ret => pure (st, out1, true)
        | _ =>
          let st ← if x = .add then st.addKey e.segmentKey else pure st
          let (slab, out2) ← emitLeft (st.segments.size + 1) st.segments (some e.segmentKey)
          pure ({ st with segments := slab }, out1 ++ out2, true)
      | .lineRight =>
        let st ← st.removeKey e.segmentKey
        let (slab, out) ← emitRight (st.segments.size + 1) st.segments (some e.segmentKey)
        let st := { st with segments := slab }
        match prev, next with
        | some pk, some nk =>
          let ps ← st.segments.get pk
          let ns ← st.segments.get nk
          match ← ps.geom.intersectLineOrdered nextAfter ns.geom with
          | none => pure (st, out, true)
          | some i =>
            let (st, first) ← st.adjustOne lineOf pk i
            let (st, second) ← st.adjustOne lineOf nk i
            if first.isNone ∧ second.isNone then pure (st, out, true) else none
        | _, _ => pure (st, out, true)
      | .pointLeft =>
        let st ← pointLoop lineOf nextAfter (prev.toList ++ next.toList) st seg
        pure (st, [(seg, .pointLeft)], true)
      | .pointRight => pure (st, [], true)

/-- `Sweep::new` — sweep.rs:253-270. -/
def new (lineOf : C → Line K) (input : List C) : Option (Sweep K C) :=
  input.foldlM (fun st c => do let (st, _) ← st.createSegment lineOf c none none; pure st)
    { segments := Slab.empty, events := [], active := SplayTree.new, clock := 0 }

/-- `peek_point` — sweep.rs:589-591. -/
def peekPoint (st : Sweep K C) : Option (Pt K) := (heapPop 0 st.events).map (·.1.point)

/-- `next_event` — sweep.rs:577-587, with the recursion bound of `handleEvent` set to two. -/
def nextEvent (lineOf : C → Line K) (nextAfter : K → K) (choice : Nat → Nat) (st : Sweep K C) :
    Option (Option (Sweep K C × Out K C × Pt K)) :=
  match st.popEvent choice with
  | none => some none
  | some (e, st) => do
    let (st, out, _) ← handleEvent lineOf nextAfter choice 2 st e
    pure (some (st, out, e.point))

/-- `prev_active` — sweep.rs:594-599. -/
def prevActive (st : Sweep K C) (c : Crossing K C) : Option (Sweep K C × Option (Seg K C)) :=
  if c.atLeft then do
    let (st, o) ← st.prevKey c.key
    match o with
    | none => pure (st, none)
    | some k =>
      let s ← st.segments.get k
      pure (st, some s)
  else none

end Sweep
end GeoCrossings
