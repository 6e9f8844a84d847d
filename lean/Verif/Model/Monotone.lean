import Verif.Model.Bops
import Verif.Model.MonoPoly

/-!
# Model of `src/monotone/segment.rs`, `src/monotone/sweep.rs` and `src/monotone/chains.rs`: monotone decomposition

A result of `none` is a panic. With `dbg = true` the `debug_assert`s of `chains.rs` are executed (debug build), with `dbg = false`
they are not (release build). The `debug_assert`s of `segment.rs` and `sweep.rs` are left out; `C64_sweep_asserts` proves that they
hold. Trace macros are dropped.

The slab of segments only grows, so that its keys are 0, 1, 2, …: it is a list. The active set is a `BTreeSet`, by documented
behaviour a sorted list. `srt` stands for the slice sort of the standard library, as in `Model/Bops.lean`.
-/
namespace GeoCrossings

/-- `debug_assert!`. -/
def dassert (dbg c : Bool) : Option Unit := if dbg && !c then none else some ()

namespace Monotone

/-! ## `segment.rs` -/

/-- `Helper` — segment.rs:15-19. -/
structure Helper (K : Type _) where
  point : Pt K
  isMerge : Bool
deriving DecidableEq, Repr

/-- `Segment` — segment.rs:49-54. -/
structure Seg (K : Type _) where
  key : Nat
  geom : LineOrPoint K
  helper : Option (Helper K)
deriving DecidableEq, Repr

/-- `Link` — segment.rs:176-205. -/
inductive Link (K : Type _) where
  | start (root top bot : Pt K)
  | cont (prev curr next : Pt K) (interior : Winding)
  | merge (prev next : Pt K) (limbs : Option (Pt K × Pt K))
  | split (prev next top bot : Pt K)
  | finish (top bot sink : Pt K)
deriving DecidableEq, Repr

/-- `VertexType` — segment.rs:207-214. -/
inductive VertexType where
  | start
  | split
  | finish
  | merge
  | cont
deriving DecidableEq, Repr

/-- `Intersection` — segment.rs:216-225. -/
structure Ixn (K : Type _) where
  ty : VertexType
  event1 : Event K
  event2 : Event K
  other1 : Pt K
  other2 : Pt K
  orientation : Orientation
  interior : Winding
deriving DecidableEq, Repr

/-- `Chain` — segment.rs:230-235. -/
structure Chain (K : Type _) where
  interior : Winding
  other : Nat
  coords : List (Pt K)
  done : Bool
deriving DecidableEq, Repr

section
variable {K : Type _}

/-- `Segment::new_point` — segment.rs:79-85. -/
def Seg.newPoint (key : Nat) (c : Pt K) : Seg K := ⟨key, .point c, none⟩

/-- `Segment::new` — segment.rs:87-107. -/
def Seg.new [LinearOrder K] (key : Nat) (l : Line K) (winding : Winding) : Seg K :=
  let (start, stop, winding) := if l.start > l.stop then (l.stop, l.start, winding.inverse) else (l.start, l.stop, winding)
  ⟨key, .line start stop, if winding = .clockwise then some ⟨start, false⟩ else none⟩

/-- `events` — segment.rs:109-124. `none` is the assertion at line 110. -/
def Seg.events (s : Seg K) : Option (List (Event K)) :=
  if s.geom.isLine then some [⟨s.geom.toLine.start, .lineLeft, s.key⟩, ⟨s.geom.toLine.stop, .lineRight, s.key⟩] else none

/-- `interior_winding` — segment.rs:126-132. -/
def Seg.interiorWinding (s : Seg K) : Winding := if s.helper.isSome then .clockwise else .counterClockwise

/-- `Chain::new` — segment.rs:244-252. -/
def Chain.new (interior : Winding) (other : Nat) (coords : List (Pt K)) : Option (Chain K) :=
  if coords.length > 1 then some ⟨interior, other, coords, false⟩ else none

/-- `Chain::next` — segment.rs:253-255. -/
def Chain.next (c : Chain K) : Option (Pt K) := c.coords.getLast?

/-- `Chain::curr` — segment.rs:256-258. -/
def Chain.curr (c : Chain K) : Option (Pt K) := if c.coords.length < 2 then none else c.coords[c.coords.length - 2]?

/-- `Chain::pop` — segment.rs:260-262; with the point that is returned. -/
def Chain.pop (c : Chain K) : Option (Pt K × Chain K) := c.coords.getLast?.map fun p => (p, { c with coords := c.coords.dropLast })

/-- `Chain::advance` — segment.rs:264-266. -/
def Chain.advance (c : Chain K) (p : Pt K) : Chain K := { c with coords := c.coords ++ [p] }

/-- `Chain::finish` — segment.rs:267-270. -/
def Chain.finish (dbg : Bool) (c : Chain K) : Option (Chain K) := do
  dassert dbg !c.done
  pure { c with done := true }

end

/-! ## `sweep.rs` -/

/-- `Sweep` — sweep.rs:36-43. `pt_key` is 0. -/
structure Sweep (K : Type _) where
  segments : List (Seg K)
  events : List (Event K)
  active : List Nat

/-- `SweepEvent` — sweep.rs:47-52. -/
structure SweepEvent (K : Type _) where
  pt : Pt K
  ty : VertexType
  links : List (Link K)

section
variable {K : Type _} [Field K] [LinearOrder K]

/-- `PartialOrd for Segment` — segment.rs:69-76, through the slab (active.rs:66-75). -/
def cmpSegs (segs : List (Seg K)) (a b : Nat) : Option Ordering := do
  let sa ← segs[a]?
  let sb ← segs[b]?
  let o ← sa.geom.pcmp sb.geom
  pure (o.then (compare sa.key sb.key))

/-- Every comparison of `k` with a member of the active set is defined. As in `Model/Sweep.lean`, the failure of this is treated as
a panic of the call, although a call need not make all the comparisons. -/
def comparable (segs : List (Seg K)) (act : List Nat) (k : Nat) : Bool :=
  act.all fun a => (cmpSegs segs k a).isSome && (cmpSegs segs a k).isSome

/-- `next_key` — active.rs:110-117. -/
def nextKey (segs : List (Seg K)) (act : List Nat) (k : Nat) : Option (Option Nat) :=
  if comparable segs act k then some (act.find? fun a => cmpSegs segs k a = some .lt) else none

/-- `add_key` — active.rs:120-123. -/
def addKey (segs : List (Seg K)) (act : List Nat) (k : Nat) : Option (List Nat) :=
  if comparable segs act k then
    if act.any fun a => cmpSegs segs k a = some .eq then none
    else some ((act.takeWhile fun a => cmpSegs segs k a = some .gt) ++ k :: act.dropWhile fun a => cmpSegs segs k a = some .gt)
  else none

/-- `remove_key` — active.rs:126-131. -/
def removeKey (segs : List (Seg K)) (act : List Nat) (k : Nat) : Option (List Nat) :=
  if comparable segs act k then
    if act.any fun a => cmpSegs segs k a = some .eq then some (act.filter fun a => cmpSegs segs k a ≠ some .eq) else none
  else none

/-- One round of the loop of `add_closed_ring` — sweep.rs:268-279. -/
def addLine (w : Winding) (sw : Sweep K) (l : Line K) : Option (Sweep K) :=
  if l.start = l.stop then some sw
  else
    let s := Seg.new sw.segments.length l w
    s.events.map fun ev => { sw with segments := sw.segments ++ [s], events := sw.events ++ ev }

/-- `add_closed_ring` — sweep.rs:255-280. -/
def addClosedRing (sw : Sweep K) (ring : List (Pt K)) (isHole : Bool) : Option (Sweep K) :=
  if ring.head? = ring.getLast? ∧ ring.length > 3 then
    (windingOrder ring).bind fun w => (ringLines ring).foldlM (addLine (if isHole then w.inverse else w)) sw
  else none

/-- `Sweep::from_polygon` — sweep.rs:55-79. -/
def Sweep.fromPolygon (srt : List (Event K) → List (Event K)) (p : Polygon K) : Option (Sweep K) := do
  let sw : Sweep K := ⟨[Seg.newPoint 0 ⟨0, 0⟩], [], []⟩
  let sw ← addClosedRing sw p.ext false
  let sw ← p.ints.foldlM (fun sw r => addClosedRing sw r true) sw
  let evs ← sortBy (fun a b => some (Event.cmp a b)) srt sw.events
  pure { sw with events := evs }

/-- `get_next_segments` — sweep.rs:292-308: the last point, and the index of the first event of its run. -/
def getNextSegments (events : List (Event K)) : Option (Pt K × Nat) :=
  events.getLast?.map fun e => (e.point, events.length - (events.reverse.takeWhile fun f => f.point = e.point).length)

/-- The other end of the segment of an event — sweep.rs:326-335. -/
def otherEnd (s : Seg K) : EventType → Option (Pt K)
  | .lineLeft => some s.geom.toLine.stop
  | .lineRight => some s.geom.toLine.start
  | _ => none

/-- `winding_order_from_orientation` — monotone.rs:16-22. -/
def windingOfOrientation : Orientation → Option Winding
  | .counterClockwise => some .counterClockwise
  | .clockwise => some .clockwise
  | .collinear => none

/-- The `match` of `find_intersection_type` — sweep.rs:345-365. -/
def vertexType (t1 t2 : EventType) (winding : Option Winding) (intWinding : Winding) : Option VertexType :=
  match t1, t2 with
  | .lineRight, .lineRight => winding.map fun w => if w = intWinding then .finish else .merge
  | .lineRight, .lineLeft => some .cont
  | .lineLeft, .lineRight => some .cont
  | .lineLeft, .lineLeft => winding.map fun w => if w ≠ intWinding then .start else .split
  | _, _ => none

/-- The part of `find_intersection_type` after the events have been popped — sweep.rs:322-375. -/
def classify (segs : List (Seg K)) (pt : Pt K) (e1 e2 : Event K) : Option (Ixn K) := do
  let s1 ← segs[e1.segmentKey]?
  let s2 ← segs[e2.segmentKey]?
  let other1 ← otherEnd s1 e1.ty
  let other2 ← otherEnd s2 e2.ty
  let orientation := orient2d other1 pt other2
  let intWinding := s1.interiorWinding
  let ty ← vertexType e1.ty e2.ty (windingOfOrientation orientation) intWinding
  pure ⟨ty, e1, e2, other1, other2, orientation, intWinding⟩

/-- `find_intersection_type` — sweep.rs:309-376; with the events that remain. -/
def findIntersectionType (sw : Sweep K) (pt : Pt K) (startIdx : Nat) : Option (Ixn K × List (Event K)) :=
  if startIdx + 2 = sw.events.length then
    match sw.events.reverse with
    | e1 :: e2 :: rest => (classify sw.segments pt e1 e2).map fun i => (i, rest.reverse)
    | _ => none
  else none

/-- The closure `handle_remove` — sweep.rs:95-118. -/
def handleRemove (pt : Pt K) (sw : Sweep K) (links : List (Link K)) (e : Event K) : Option (Sweep K × List (Link K)) :=
  if e.ty ≠ .lineRight then some (sw, links)
  else do
    let s ← sw.segments[e.segmentKey]?
    let (segs, links) := match s.helper with
      | some h =>
        if h.isMerge then
          (sw.segments.set e.segmentKey { s with helper := some { h with isMerge := false } }, links ++ [.merge h.point pt none])
        else (sw.segments, links)
      | none => (sw.segments, links)
    let act ← removeKey segs sw.active e.segmentKey
    pure ({ sw with segments := segs, active := act }, links)

/-- The closure `fix_up` — sweep.rs:136-181. -/
def fixUp (pt : Pt K) (ixn : Ixn K) (sw : Sweep K) (links : List (Link K)) (force isMerge : Bool) : Option (Sweep K × List (Link K)) := do
  let o ← nextKey sw.segments sw.active 0
  let next ← o
  let s ← sw.segments[next]?
  let h ← s.helper
  let (top, bot) := if ixn.interior ≠ .clockwise then (ixn.other1, ixn.other2) else (ixn.other2, ixn.other1)
  let links := if h.isMerge || force then
      links ++ [if h.isMerge then .merge h.point pt (some (top, bot)) else .split h.point pt top bot]
    else links
  let flag := if (h.isMerge || force) && !isMerge then false else h.isMerge
  let flag := if isMerge then true else flag
  pure ({ sw with segments := sw.segments.set next { s with helper := some ⟨pt, flag⟩ } }, links)

/-- The `match` on the vertex type — sweep.rs:183-222. -/
def handleVertex (pt : Pt K) (ixn : Ixn K) (winding : Winding) (sw : Sweep K) (links : List (Link K)) :
    Option (Sweep K × List (Link K)) :=
  match ixn.ty with
  | .cont => do
    let (sw, links) ← if winding = .counterClockwise then fixUp pt ixn sw links false false else some (sw, links)
    if ixn.other1 > ixn.other2 then pure (sw, links ++ [.cont ixn.other2 pt ixn.other1 ixn.interior])
    else if ixn.other1 < ixn.other2 then pure (sw, links ++ [.cont ixn.other1 pt ixn.other2 ixn.interior])
    else none
  | .split => fixUp pt ixn sw links true false
  | .merge => fixUp pt ixn sw links false true
  | .finish =>
    let (top, bot) := if ixn.interior = .clockwise then (ixn.other1, ixn.other2) else (ixn.other2, ixn.other1)
    some (sw, links ++ [.finish top bot pt])
  | .start =>
    let (top, bot) := if ixn.interior = .clockwise then (ixn.other1, ixn.other2) else (ixn.other2, ixn.other1)
    some (sw, links ++ [.start pt top bot])

/-- The closure `handle_insert` — sweep.rs:224-235. -/
def handleInsert (sw : Sweep K) (e : Event K) : Option (Sweep K) :=
  if e.ty ≠ .lineLeft then some sw else (addKey sw.segments sw.active e.segmentKey).map fun act => { sw with active := act }

/-- `store_point` — sweep.rs:281-288. -/
def storePoint (sw : Sweep K) (pt : Pt K) : Sweep K := { sw with segments := sw.segments.set 0 (Seg.newPoint 0 pt) }

/-- `process_event` — sweep.rs:80-243. The inner `none` is the end of the events. -/
def processEvent (sw : Sweep K) : Option (Sweep K × Option (SweepEvent K)) :=
  match getNextSegments sw.events with
  | none => some (sw, none)
  | some (pt, idx) => do
    let (ixn, evs) ← findIntersectionType sw pt idx
    let sw := storePoint { sw with events := evs } pt
    let (sw, links) ← handleRemove pt sw [] ixn.event1
    let (sw, links) ← handleRemove pt sw links ixn.event2
    let s1 ← sw.segments[ixn.event1.segmentKey]?
    let s2 ← sw.segments[ixn.event2.segmentKey]?
    let _ ← if ixn.ty = .cont ∧ s1.interiorWinding ≠ s2.interiorWinding then none else some ()
    let (sw, links) ← handleVertex pt ixn s1.interiorWinding sw links
    let sw ← handleInsert sw ixn.event1
    let sw ← handleInsert sw ixn.event2
    pure (sw, some ⟨pt, ixn.ty, links⟩)

/-! ## `chains.rs` -/

/-- The chain is not done and looks at `p`. -/
def Chain.looksAt (c : Chain K) (p : Pt K) : Bool := !c.done && c.next = some p

/-- `Link::Continue` — chains.rs:78-96. -/
def applyCont (chains : List (Chain K)) (prev curr next : Pt K) : Option (List (Chain K) × Nat) := do
  let idx ← chains.findIdx? fun c => c.looksAt curr && c.curr = some prev
  let c ← chains[idx]?
  pure (chains.set idx (c.advance next), idx)

/-- The closure of `map` for `Link::Merge` — chains.rs:105-119. -/
def mergeChain (ty : VertexType) (next : Pt K) (limbs : Option (Pt K × Pt K)) (c : Chain K) : Option (Chain K) :=
  let c := c.advance next
  if ty = .split then
    limbs.map fun l => if c.interior = .clockwise then c.advance l.2 else c.advance l.1
  else some c

/-- `Link::Merge` — chains.rs:97-123. -/
def applyMerge (dbg : Bool) (ty : VertexType) (chains : List (Chain K)) (prev next : Pt K) (limbs : Option (Pt K × Pt K)) :
    Option (List (Chain K)) := do
  let cs ← chains.mapM fun c => if c.looksAt prev then mergeChain ty next limbs c else some c
  dassert dbg (chains.countP (·.looksAt prev) = 2)
  pure cs

/-- The chain chosen for `Link::Split` — chains.rs:131-169. -/
def splitIdx (dbg : Bool) (chains : List (Chain K)) (prev next : Pt K) : Option Nat :=
  match (List.range chains.length).filter fun i => (chains[i]?).any fun c => !c.done && c.curr = some prev with
  | [i] => some i
  | [i, j] => do
    let ci ← chains[i]?
    let cj ← chains[j]?
    let (ccw, cw) ← if ci.interior = .counterClockwise then some (i, j)
      else (dassert dbg (cj.interior = .counterClockwise)).map fun _ => (j, i)
    let c ← chains[ccw]?
    let p ← c.next
    pure (if orient2d next prev p = .counterClockwise then ccw else cw)
  | _ => none

/-- `Link::Split` — chains.rs:124-212. -/
def applySplit (dbg : Bool) (chains : List (Chain K)) (prev next top bot : Pt K) : Option (List (Chain K)) := do
  let idx ← splitIdx dbg chains prev next
  let c ← chains[idx]?
  let (oldNext, c) ← c.pop
  let c := c.advance next
  let (c, other) := if c.interior = .clockwise then (c.advance bot, top) else (c.advance top, bot)
  let chains := chains.set idx c
  let tdx := chains.length
  let bdx := tdx + 1
  let chain1 ← Chain.new c.interior bdx [prev, oldNext]
  let chain2 ← Chain.new c.interior.inverse tdx [prev, next, other]
  pure (chains ++ [chain1, chain2])

/-- The body of the loop over the links — chains.rs:57-221; `pt` and `ty` are those of the event. -/
def applyLink (dbg : Bool) (pt : Pt K) (ty : VertexType) (s : List (Chain K) × Option Nat) (l : Link K) :
    Option (List (Chain K) × Option Nat) :=
  let (chains, currIdx) := s
  match l with
  | .start root top bot => do
    dassert dbg (root = pt)
    let tdx := chains.length
    let bdx := tdx + 1
    let t ← Chain.new .clockwise bdx [root, top]
    let b ← Chain.new .counterClockwise tdx [root, bot]
    pure (chains ++ [t, b], currIdx)
  | .cont prev curr next _ => do
    dassert dbg (curr = pt)
    let (chains, idx) ← applyCont chains prev curr next
    pure (chains, some idx)
  | .merge prev next limbs => do
    dassert dbg (next = pt)
    let chains ← applyMerge dbg ty chains prev next limbs
    pure (chains, currIdx)
  | .split prev next top bot => do
    dassert dbg (next = pt)
    let chains ← applySplit dbg chains prev next top bot
    pure (chains, currIdx)
  | .finish _ _ sink => do
    dassert dbg (sink = pt)
    pure (chains, currIdx)

/-- `chains[i].finish(); chains[j].finish(); finalize_pair(&chains[i], &chains[j])` — chains.rs:36-48, 250-252, 269-271. -/
def finishPair (dbg : Bool) (chains : List (Chain K)) (i j : Nat) : Option (List (Chain K)) := do
  let ci ← chains[i]?
  let ci ← ci.finish dbg
  let chains := chains.set i ci
  let cj ← chains[j]?
  let cj ← cj.finish dbg
  let chains := chains.set j cj
  let ci ← chains[i]?
  dassert dbg (ci.interior ≠ cj.interior)
  pure chains

/-- The branch of the reduction after a `Link::Continue` — chains.rs:236-256. -/
def reduceCont (dbg : Bool) (chains : List (Chain K)) (currIdx : Nat) (looks : List Nat) : Option (List (Chain K)) := do
  dassert dbg (looks.length = 2)
  let l0 ← looks[0]?
  let c0 ← chains[l0]?
  let (pair, other) ← if c0.other = currIdx then looks[1]?.map fun l1 => (l0, l1)
    else do
      let l1 ← looks[1]?
      let c1 ← chains[l1]?
      if c1.other = currIdx then some (l1, l0) else none
  let c ← chains[currIdx]?
  let (newNext, c) ← c.pop
  let chains := chains.set currIdx c
  let cp ← chains[pair]?
  dassert dbg (c.next = cp.next)
  let chains ← finishPair dbg chains currIdx pair
  let co ← chains[other]?
  pure (chains.set other (co.advance newNext))

/-- One round of the loop over `looks` — chains.rs:259-273. -/
def reduceOne (dbg : Bool) (chains : List (Chain K)) (idx : Nat) : Option (List (Chain K)) := do
  let c1 ← chains[idx]?
  let jdx := c1.other
  let c2 ← chains[jdx]?
  dassert dbg (c1.done = c2.done)
  if c1.done then pure chains
  else if c1.next = c2.next then finishPair dbg chains idx jdx
  else pure chains

/-- The reduction at the end of an event — chains.rs:222-276. (In the branch of line 236 the code indexes `looks[1]` only if the test
on `looks[0]` fails, or in the tuple of line 239.) -/
def reduce (dbg : Bool) (pt : Pt K) (chains : List (Chain K)) (currIdx : Option Nat) : Option (List (Chain K)) := do
  let looks := (List.range chains.length).filter fun i => (chains[i]?).any fun c => c.looksAt pt
  dassert dbg (looks.length % 2 = 0)
  match currIdx with
  | some c => if looks.isEmpty then pure chains else reduceCont dbg chains c looks
  | none => looks.foldlM (reduceOne dbg) chains

/-- The body of the loop over the events — chains.rs:51-277. -/
def applyEvent (dbg : Bool) (chains : List (Chain K)) (ev : SweepEvent K) : Option (List (Chain K)) := do
  let (chains, currIdx) ← ev.links.foldlM (applyLink dbg ev.pt ev.ty) (chains, none)
  reduce dbg ev.pt chains currIdx

/-- The loop over the events — chains.rs:51-277. Every event takes two of the `events` of the sweep, so that their number bounds the
rounds. -/
def run (dbg : Bool) : Nat → Sweep K → List (Chain K) → Option (List (Chain K))
  | 0, _, _ => none
  | n + 1, sw, chains =>
    match processEvent sw with
    | none => none
    | some (_, none) => some chains
    | some (sw, some ev) => (applyEvent dbg chains ev).bind (run dbg n sw)

/-- One round of the final `map` — chains.rs:295-299. -/
def takePair (s : List (List (Pt K)) × List (MonoPoly K)) (p : Nat × Nat) : Option (List (List (Pt K)) × List (MonoPoly K)) := do
  let (lines, out) := s
  let top ← lines[p.1]?
  let lines := lines.set p.1 []
  let bot ← lines[p.2]?
  let lines := lines.set p.2 []
  let m ← MonoPoly.new top bot
  pure (lines, out ++ [m])

/-- The end of `monotone_chains` — chains.rs:279-300. -/
def collect (dbg : Bool) (chains : List (Chain K)) : Option (List (MonoPoly K)) := do
  dassert dbg (chains.all (·.done))
  let pairs := chains.zipIdx.filterMap fun x => if x.1.interior = .clockwise then some (x.2, x.1.other) else none
  dassert dbg (pairs.length * 2 = chains.length)
  let (_, out) ← pairs.foldlM takePair (chains.map (·.coords), [])
  pure out

/-- `monotone_chains` — chains.rs:33-301. -/
def monotoneChains (dbg : Bool) (srt : List (Event K) → List (Event K)) (p : Polygon K) : Option (List (MonoPoly K)) := do
  let sw ← Sweep.fromPolygon srt p
  let chains ← run dbg (sw.events.length + 1) sw []
  collect dbg chains

end
end Monotone
end GeoCrossings
