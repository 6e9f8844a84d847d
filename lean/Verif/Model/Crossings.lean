import Verif.Model.Sweep

/-!
# Model of `src/crossings.rs`: `CrossingsIter` and `Intersections`

Loops whose number of rounds is not bounded by the data at hand take a `fuel`; running out of it gives `none`, like a panic.
-/
namespace GeoCrossings

variable {K C : Type _} [Field K] [LinearOrder K]

/-- `CrossingsIter` — crossings.rs:136-142. -/
structure CrossingsIter (K C : Type _) where
  sweep : Sweep K C
  segments : List (Crossing K C)

namespace CrossingsIter

/-- `FromIterator` — crossings.rs:169-178. -/
def ofInput (lineOf : C → Line K) (input : List C) : Option (CrossingsIter K C) := do
  let sw ← Sweep.new lineOf input
  pure ⟨sw, []⟩

/-- The `while` loop of `next` — crossings.rs:194-202. -/
def batchLoop (lineOf : C → Line K) (nextAfter : K → K) (choice : Nat → Nat) :
    Nat → Sweep K C → Option (Pt K) → List (Crossing K C) → Option (Sweep K C × Option (Pt K) × List (Crossing K C))
  | 0, _, _, _ => none
  | fuel + 1, st, last, acc =>
    if last = st.peekPoint ∧ st.peekPoint.isSome then do
      match ← st.nextEvent lineOf nextAfter choice with
      | none => batchLoop lineOf nextAfter choice fuel st none acc
      | some (st, out, pt) =>
        batchLoop lineOf nextAfter choice fuel st (some pt) (acc ++ out.map fun o => .ofSeg o.1 o.2)
    else some (st, last, acc)

/-- `CrossingsIter::next` — crossings.rs:188-209. -/
def next (lineOf : C → Line K) (nextAfter : K → K) (choice : Nat → Nat) (fuel : Nat) (it : CrossingsIter K C) :
    Option (CrossingsIter K C × Option (Pt K)) := do
  let (st, last, segs) ← batchLoop lineOf nextAfter choice fuel it.sweep it.sweep.peekPoint []
  pure (⟨st, segs⟩, if segs.isEmpty then none else last)

/-- Polling `next` until it returns `None`: the yielded points with their batches. -/
def run (lineOf : C → Line K) (nextAfter : K → K) (choice : Nat → Nat) (fuel : Nat) :
    Nat → CrossingsIter K C → Option (List (Pt K × List (Crossing K C)))
  | 0, _ => none
  | n + 1, it => do
    let (it, o) ← it.next lineOf nextAfter choice fuel
    match o with
    | none => pure []
    | some p =>
      let rest ← run lineOf nextAfter choice fuel n it
      pure ((p, it.segments) :: rest)

end CrossingsIter

/-! ## `Intersections` -/

/-- `Intersections` — crossings.rs:246-252, over an arbitrary inner iterator of batches with state `σ`. `batch` is what
`inner.intersections_mut()` shows. -/
structure Inters (σ K C : Type _) where
  inner : σ
  batch : List (Crossing K C)
  idx : Nat
  jdx : Nat
  isOverlap : Bool

namespace Inters
variable {σ : Type _}

/-- `FromIterator` — crossings.rs:259-267. -/
def ofInner (inner : σ) : Inters σ K C := ⟨inner, [], 0, 0, false⟩

/-- The `loop` of `step` — crossings.rs:312-320: advance the inner iterator to the next batch of at least two. `pull` is
`CrossingsIter::next`; its outer `none` is a panic, the inner `none` the end. -/
def pullLoop (pull : σ → Option (σ × Option (List (Crossing K C)))) : Nat → σ → Option (σ × Option (List (Crossing K C)))
  | 0, _ => none
  | fuel + 1, s => do
    let (s, o) ← pull s
    match o with
    | none => pure (s, none)
    | some b => if b.length > 1 then pure (s, some b) else pullLoop pull fuel s

/-- `step` — crossings.rs:303-327. `none` is a panic; the flag is the returned `bool`. -/
def step (pull : σ → Option (σ × Option (List (Crossing K C)))) (fuel : Nat) (it : Inters σ K C) :
    Option (Inters σ K C × Bool) :=
  if 1 + it.jdx < it.batch.length then do
    let c ← it.batch[it.jdx]?
    pure ({ it with isOverlap := it.isOverlap && c.hasOverlap, jdx := it.jdx + 1 }, true)
  else
    let it := { it with idx := it.idx + 1 }
    if 1 + it.idx ≥ it.batch.length then do
      let (s, o) ← pullLoop pull fuel it.inner
      match o with
      | none => pure ({ it with inner := s, batch := [] }, false)
      | some b =>
        let c ← b[0]?
        pure ({ inner := s, batch := b, idx := 0, isOverlap := c.hasOverlap, jdx := 1 }, true)
    else do
      let c ← it.batch[it.idx]?
      pure ({ it with isOverlap := c.hasOverlap, jdx := it.idx + 1 }, true)

/-- The test of `intersection` — crossings.rs:281-288. -/
def shouldCompute (isOverlap : Bool) (si sj : Crossing K C) : Bool :=
  if isOverlap then si.atLeft && (si.firstSegment || sj.firstSegment)
  else (!si.atLeft || si.firstSegment) && (!sj.atLeft || sj.firstSegment)

/-- `intersection` — crossings.rs:275-301. The outer `none` is a panic (index out of range, the `debug_assert` of line 284, or the
`expect`). -/
def intersection (lineOf : C → Line K) (it : Inters σ K C) : Option (Option (C × C × LineIntersection K)) := do
  let si ← it.batch[it.idx]?
  let sj ← it.batch[it.jdx]?
  if it.isOverlap ∧ si.atLeft ≠ sj.atLeft then none
  else if shouldCompute it.isOverlap si sj then
    let i ← lineIntersection (lineOf si.crossable) (lineOf sj.crossable)
    pure (some (si.crossable, sj.crossable, i))
  else pure none

/-- `Intersections::next` — crossings.rs:337-347. -/
def next (lineOf : C → Line K) (pull : σ → Option (σ × Option (List (Crossing K C)))) (fuel : Nat) :
    Nat → Inters σ K C → Option (Inters σ K C × Option (C × C × LineIntersection K))
  | 0, _ => none
  | n + 1, it => do
    let (it, ok) ← it.step pull fuel
    if ok then
      match ← it.intersection lineOf with
      | some r => pure (it, some r)
      | none => next lineOf pull fuel n it
    else pure (it, none)

/-- Polling `next` until it returns `None`. -/
def run (lineOf : C → Line K) (pull : σ → Option (σ × Option (List (Crossing K C)))) (fuel : Nat) :
    Nat → Inters σ K C → Option (List (C × C × LineIntersection K))
  | 0, _ => none
  | n + 1, it => do
    let (it, o) ← it.next lineOf pull fuel fuel
    match o with
    | none => pure []
    | some r =>
      let rest ← run lineOf pull fuel n it
      pure (r :: rest)

end Inters

/-- `CrossingsIter` as the inner iterator of `Intersections`. -/
def CrossingsIter.pull (lineOf : C → Line K) (nextAfter : K → K) (choice : Nat → Nat) (fuel : Nat)
    (it : CrossingsIter K C) : Option (CrossingsIter K C × Option (List (Crossing K C))) := do
  let (it, o) ← it.next lineOf nextAfter choice fuel
  pure (it, o.map fun _ => it.segments)

/-- All tuples yielded by `Intersections` on an input — crossings.rs. -/
def intersectionsOf (lineOf : C → Line K) (nextAfter : K → K) (choice : Nat → Nat) (fuel : Nat) (input : List C) :
    Option (List (C × C × LineIntersection K)) := do
  let it ← CrossingsIter.ofInput lineOf input
  (Inters.ofInner it).run lineOf (CrossingsIter.pull lineOf nextAfter choice fuel) fuel fuel

/-- All points and batches yielded by `CrossingsIter` on an input. -/
def crossingsOf (lineOf : C → Line K) (nextAfter : K → K) (choice : Nat → Nat) (fuel : Nat) (input : List C) :
    Option (List (Pt K × List (Crossing K C))) := do
  let it ← CrossingsIter.ofInput lineOf input
  it.run lineOf nextAfter choice fuel fuel

end GeoCrossings
