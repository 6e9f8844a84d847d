import Verif.Model.Crossings
import Verif.Model.Rings

/-!
# Model of `src/bops/op.rs`, `src/bops/laminar.rs` and `boolean_op` of `src/bops.rs`

A crossable of these sweeps is a reference into the vector of edges; it is modelled by the index. The `Cell`s of an edge are
kept in a table indexed the same way. A result of `none` is a panic, or the `fuel` of a loop running out.
A parameter `dbg` says whether the `debug_assert`s are executed.

`srt` stands for the slice sorts of the standard library: which of the orders compatible with the comparison results is
left to it (`sort_unstable_by`).
-/
namespace GeoCrossings

/-- `OpType` — op.rs:180-185. -/
inductive OpType where
  | intersection
  | union
  | difference
  | xor
deriving DecidableEq, Repr

/-- `Region` — op.rs:188-191. -/
structure Region where
  isFirst : Bool
  isSecond : Bool
deriving DecidableEq, Repr

namespace Region

/-- `Region::infinity` — op.rs:204-209. -/
def infinity (ty : OpType) : Region := ⟨false, ty = .difference⟩

/-- `Region::cross` — op.rs:210-216. -/
def cross (r : Region) (first : Bool) : Region :=
  if first then { r with isFirst := !r.isFirst } else { r with isSecond := !r.isSecond }

/-- `Region::is_ty` — op.rs:217-223. -/
def isTy (r : Region) : OpType → Bool
  | .intersection => r.isFirst && r.isSecond
  | .difference => r.isFirst && r.isSecond
  | .union => r.isFirst || r.isSecond
  | .xor => r.isFirst ^^ r.isSecond

end Region

/-- `Edge` — op.rs:227-232, without the cells. -/
structure OpEdge (K : Type _) where
  geom : LineOrPoint K
  isFirst : Bool
deriving DecidableEq, Repr

/-- `geo::Polygon`; the constructor of `geo` closes the rings. -/
structure Polygon (K : Type _) where
  ext : List (Pt K)
  ints : List (List (Pt K))
deriving DecidableEq, Repr

section input
variable {K : Type _} [LinearOrder K]

/-- `LineString::lines`. -/
def ringLines : List (Pt K) → List (Line K)
  | a :: b :: l => ⟨a, b⟩ :: ringLines (b :: l)
  | _ => []

/-- `add_closed_ring` — op.rs:32-54. -/
def addClosedRing (edges : List (OpEdge K)) (ring : List (Pt K)) (isFirst : Bool) : Option (List (OpEdge K)) :=
  if ring.head? = ring.getLast? then
    if ring.length ≤ 3 then some edges
    else some ((ringLines ring).foldl (fun es l =>
      let lp := LineOrPoint.ofLine l
      if lp.isLine then es ++ [⟨lp, isFirst⟩] else es) edges)
  else none

/-- `add_polygon` — op.rs:26-31. -/
def addPolygon (edges : List (OpEdge K)) (p : Polygon K) (isFirst : Bool) : Option (List (OpEdge K)) := do
  let es ← addClosedRing edges p.ext isFirst
  p.ints.foldlM (fun es r => addClosedRing es r isFirst) es

/-- `add_multi_polygon` — op.rs:22-24. -/
def addMultiPolygon (edges : List (OpEdge K)) (mp : List (Polygon K)) (isFirst : Bool) : Option (List (OpEdge K)) :=
  mp.foldlM (fun es p => addPolygon es p isFirst) edges

end input

/-! ## Sorting a batch -/
section sort
variable {α : Type _} [DecidableEq α]

def isSortedBy (cmp : α → α → Option Ordering) : List α → Bool
  | [] => true
  | a :: l => (l.all fun b => cmp a b ≠ some .gt) && isSortedBy cmp l

def insertBy (cmp : α → α → Option Ordering) (a : α) : List α → List α
  | [] => [a]
  | b :: l => if cmp a b = some .gt then b :: insertBy cmp a l else a :: b :: l

def insertionSortBy (cmp : α → α → Option Ordering) : List α → List α
  | [] => []
  | a :: l => insertBy cmp a (insertionSortBy cmp l)

/-- `slice::sort_by` and `slice::sort_unstable_by`, by documented behaviour: some sorted rearrangement. `srt` proposes one and is
honoured if it is one. A comparison that panics panics the sort; which pairs are compared is unspecified, so all must be
comparable. -/
def sortBy (cmp : α → α → Option Ordering) (srt : List α → List α) (l : List α) : Option (List α) :=
  if l.all fun a => l.all fun b => (cmp a b).isSome then
    if (srt l).isPerm l && isSortedBy cmp (srt l) then some (srt l) else some (insertionSortBy cmp l)
  else none

end sort

/-! ## `Op::sweep` -/
namespace BoolOp
variable {K : Type _} [Field K] [LinearOrder K]

/-- `compare_crossings` — op.rs:65-76. -/
def compareCrossings {C : Type _} (a b : Crossing K C) : Option Ordering :=
  match a.atLeft, b.atLeft with
  | false, true => some .lt
  | true, false => some .gt
  | true, true => a.line.pcmp b.line
  | false, false => (a.line.pcmp b.line).map Ordering.swap

/-- The two cells of every edge. -/
abbrev Cells := Nat → Region × Region

/-- `get_region` — op.rs:235-256. -/
def getRegion (geom : Nat → LineOrPoint K) (cells : Cells) (i : Nat) (piece : LineOrPoint K) : Region :=
  if piece.first < (geom i).second then (cells i).1 else (cells i).2

/-- `set_region` — op.rs:257-264. -/
def setRegion (geom : Nat → LineOrPoint K) (cells : Cells) (i : Nat) (piece : LineOrPoint K) (r : Region) : Cells :=
  fun j => if j = i then
      if piece.first < (geom i).second then (r, (cells i).2) else ((cells i).1, r)
    else cells j

/-- Whether the next crossing of the batch is equal to `c` — op.rs:98-99, 152-153. `none` is the panic of the comparison. -/
def hasOverlap {C : Type _} (c : Crossing K C) : List (Crossing K C) → Option Bool
  | [] => some false
  | d :: _ => (compareCrossings c d).map (· == .eq)

/-- The loop over the ending segments — op.rs:80-122. Returns the rings and what is left of the batch. -/
def endLoop (dbg : Bool) (ty : OpType) (geom : Nat → LineOrPoint K) (isFirst : Nat → Bool) (cells : Cells) :
    List (Crossing K Nat) → Option Region → Rings K → Option (Rings K × List (Crossing K Nat))
  | [], _, rings => some (rings, [])
  | c :: rest, next, rings =>
    if c.atLeft then some (rings, c :: rest)
    else
      let nr := (next.getD (getRegion geom cells c.crossable c.line)).cross (isFirst c.crossable)
      match hasOverlap c rest with
      | none => none
      | some true => endLoop dbg ty geom isFirst cells rest (some nr) rings
      | some false =>
        let prev := getRegion geom cells c.crossable c.line
        if prev.isTy ty ^^ nr.isTy ty then
          match rings.addEdgeD dbg c.line (if !nr.isTy ty then .counterClockwise else .clockwise) with
          | none => none
          | some rings => endLoop dbg ty geom isFirst cells rest none rings
        else endLoop dbg ty geom isFirst cells rest none rings

/-- The loop over the starting segments — op.rs:147-172. `group` holds the segments since `jdx`. -/
def startLoop (geom : Nat → LineOrPoint K) (isFirst : Nat → Bool) :
    List (Crossing K Nat) → Region → List (Crossing K Nat) → Cells → Option Cells
  | [], _, _, cells => some cells
  | c :: rest, region, group, cells =>
    let region := region.cross (isFirst c.crossable)
    match hasOverlap c rest with
    | none => none
    | some true => startLoop geom isFirst rest region (group ++ [c]) cells
    | some false =>
      startLoop geom isFirst rest region []
        ((group ++ [c]).foldl (fun cells d => setRegion geom cells d.crossable d.line region) cells)

/-- One round of the loop of `Op::sweep` — op.rs:60-173, after the call of `next`. -/
def batchStep (dbg : Bool) (ty : OpType) (geom : Nat → LineOrPoint K) (isFirst : Nat → Bool)
    (srt : List (Crossing K Nat) → List (Crossing K Nat)) (it : CrossingsIter K Nat) (cells : Cells) (rings : Rings K) :
    Option (CrossingsIter K Nat × Cells × Rings K) :=
  match sortBy compareCrossings srt it.segments with
  | none => none
  | some batch =>
    match endLoop dbg ty geom isFirst cells batch none rings with
    | none => none
    | some (rings, []) => some (it, cells, rings)
    | some (rings, c :: rest) =>
      match it.sweep.prevActive c with
      | none => none
      | some (sw, prev) =>
        let region := match prev with
          | some s => getRegion geom cells s.crossable s.geom
          | none => Region.infinity ty
        match startLoop geom isFirst (c :: rest) region [] cells with
        | none => none
        | some cells => some ({ it with sweep := sw }, cells, rings)

/-- The loop of `Op::sweep` — op.rs:60-173. -/
def sweepLoop (dbg : Bool) (ty : OpType) (geom : Nat → LineOrPoint K) (isFirst : Nat → Bool) (nextAfter : K → K) (choice : Nat → Nat)
    (srt : List (Crossing K Nat) → List (Crossing K Nat)) (fuel : Nat) :
    Nat → CrossingsIter K Nat → Cells → Rings K → Option (Rings K)
  | 0, _, _, _ => none
  | n + 1, it, cells, rings =>
    match it.next (fun i => (geom i).toLine) nextAfter choice fuel with
    | none => none
    | some (_, none) => some rings
    | some (it, some _) =>
      match batchStep dbg ty geom isFirst srt it cells rings with
      | none => none
      | some (it, cells, rings) => sweepLoop dbg ty geom isFirst nextAfter choice srt fuel n it cells rings

/-- The rings under construction when the loop of `Op::sweep` ends — op.rs:56-173. There are `n` edges, given by tables. -/
def sweepRings (dbg : Bool) (ty : OpType) (n : Nat) (geom : Nat → LineOrPoint K) (isFirst : Nat → Bool) (nextAfter : K → K) (choice : Nat → Nat)
    (srt : List (Crossing K Nat) → List (Crossing K Nat)) (fuel : Nat) : Option (Rings K) :=
  match CrossingsIter.ofInput (fun i => (geom i).toLine) (List.range n) with
  | none => none
  | some it => sweepLoop dbg ty geom isFirst nextAfter choice srt fuel fuel it
      (fun _ => (Region.infinity ty, Region.infinity ty)) Rings.default

/-- The tables of a list of edges; what is beyond its end does not matter. -/
def geomOf (edges : List (OpEdge K)) (i : Nat) : LineOrPoint K := (edges[i]?.map (·.geom)).getD (.point ⟨0, 0⟩)

def isFirstOf (edges : List (OpEdge K)) (i : Nat) : Bool := (edges[i]?.map (·.isFirst)).getD false

/-- `Op::sweep` — op.rs:56-176. -/
def sweep (ty : OpType) (edges : List (OpEdge K)) (nextAfter : K → K) (choice : Nat → Nat)
    (srt : List (Crossing K Nat) → List (Crossing K Nat)) (fuel : Nat) : Option (List (Ring K)) :=
  (sweepRings false ty edges.length (geomOf edges) (isFirstOf edges) nextAfter choice srt fuel).bind Rings.finish

/-- `Op::sweep` with debug assertions — op.rs:56-176. The one of line 128 is part of `prevActive`. -/
def sweepDebug (ty : OpType) (edges : List (OpEdge K)) (nextAfter : K → K) (choice : Nat → Nat)
    (srt : List (Crossing K Nat) → List (Crossing K Nat)) (fuel : Nat) : Option (List (Ring K)) :=
  (sweepRings true ty edges.length (geomOf edges) (isFirstOf edges) nextAfter choice srt fuel).bind Rings.finish

end BoolOp

/-! ## `assemble` -/
namespace Laminar
variable {K : Type _} [Field K] [LinearOrder K]

/-- `compare_crossings` — laminar.rs:28-38. -/
def compareCrossings {C : Type _} (a b : Crossing K C) : Option Ordering :=
  match a.atLeft, b.atLeft with
  | true, false => some .lt
  | false, true => some .gt
  | false, false => some .eq
  | true, true => a.line.pcmp b.line

/-- The closure of `position` on a starting edge — laminar.rs:54-82. State: `below`, `parents`, and the cells `region`. `none` is
the index out of bounds of `rings[ring_idx]`. -/
def visit (isHole : Nat → Bool) (ringOf : Nat → Nat) (s : Option Nat × (Nat → Nat) × (Nat → Option Nat)) (e : Nat) :
    Option Nat × (Nat → Nat) × (Nat → Option Nat) :=
  let (below, parents, region) := s
  let r := ringOf e
  let (below, parents) := match below with
    | some x => (none, if isHole r then fun j => if j = r then x else parents j else parents)
    | none => (some (if isHole r then parents r else r), parents)
  (below, parents, fun j => if j = e then below else region j)

/-- The `debug_assert`s of the closure of `position` — laminar.rs:58 and 66 — for all edges that are visited. -/
def visitsOk (isHole : Nat → Bool) (ringOf : Nat → Nat) :
    List (Crossing K Nat) → Option Nat × (Nat → Nat) × (Nat → Option Nat) → Bool
  | [], _ => true
  | c :: l, s =>
    !c.hasOverlap &&
      (match s.1 with
        | some x => isHole (ringOf c.crossable) || decide (ringOf c.crossable = x)
        | none => true) &&
      visitsOk isHole ringOf l (visit isHole ringOf s c.crossable)

/-- One round of the loop of `assemble` — laminar.rs:26-83, after the call of `next`. `dbg` says whether the assertions are
executed. -/
def batchStep (dbg : Bool) (isHole : Nat → Bool) (ringOf : Nat → Nat) (srt : List (Crossing K Nat) → List (Crossing K Nat))
    (it : CrossingsIter K Nat) (parents : Nat → Nat) (region : Nat → Option Nat) :
    Option (CrossingsIter K Nat × (Nat → Nat) × (Nat → Option Nat)) :=
  match sortBy compareCrossings srt it.segments with
  | none => none
  | some [] => none
  | some (first :: rest) =>
    if !first.atLeft then some (it, parents, region)
    else
      match it.sweep.prevActive first with
      | none => none
      | some (sw, prev) =>
        let below := match prev with
          | some s => region s.crossable
          | none => none
        if dbg && !visitsOk isHole ringOf ((first :: rest).takeWhile (·.atLeft)) (below, parents, region) then none
        else
        let (_, parents, region) :=
          (((first :: rest).takeWhile (·.atLeft)).map (·.crossable)).foldl (visit isHole ringOf) (below, parents, region)
        some ({ it with sweep := sw }, parents, region)

/-- The loop of `assemble` — laminar.rs:26-83. -/
def sweepLoop (dbg : Bool) (isHole : Nat → Bool) (ringOf : Nat → Nat) (lineOf : Nat → Line K) (nextAfter : K → K) (choice : Nat → Nat)
    (srt : List (Crossing K Nat) → List (Crossing K Nat)) (fuel : Nat) :
    Nat → CrossingsIter K Nat → (Nat → Nat) → (Nat → Option Nat) → Option (Nat → Nat)
  | 0, _, _, _ => none
  | n + 1, it, parents, region =>
    match it.next lineOf nextAfter choice fuel with
    | none => none
    | some (_, none) => some parents
    | some (it, some _) =>
      match batchStep dbg isHole ringOf srt it parents region with
      | none => none
      | some (it, parents, region) => sweepLoop dbg isHole ringOf lineOf nextAfter choice srt fuel n it parents region

/-- The edges with the index of their ring — laminar.rs:12-24. -/
def ringEdges (rings : List (Ring K)) : List (Nat × LineOrPoint K) :=
  rings.zipIdx.flatMap fun x => (ringLines x.1.coords).map fun l => (x.2, .ofLine l)

/-- The parents found by the sweep of `assemble` — laminar.rs:11-83. With `dbg` it is asserted that the rings are closed (line 16). -/
def findParents (dbg : Bool) (rings : List (Ring K)) (nextAfter : K → K) (choice : Nat → Nat)
    (srt : List (Crossing K Nat) → List (Crossing K Nat)) (fuel : Nat) : Option (Nat → Nat) :=
  if dbg && !rings.all fun r => decide (r.coords.head? = r.coords.getLast?) then none
  else
  let edges := ringEdges rings
  let lineOf := fun i => ((edges[i]?.map (·.2.toLine)).getD ⟨⟨0, 0⟩, ⟨0, 0⟩⟩)
  let ringOf := fun i => (edges[i]?.map (·.1)).getD 0
  let isHole := fun i => (rings[i]?.map (·.isHole)).getD false
  match CrossingsIter.ofInput lineOf (List.range edges.length) with
  | none => none
  | some it => sweepLoop dbg isHole ringOf lineOf nextAfter choice srt fuel fuel it (fun _ => 0) (fun _ => none)

/-- One round of the `for_each` that builds the polygons — laminar.rs:86-98. -/
def place (rings : List (Ring K)) (parents : Nat → Nat) (polys : List (Option (Polygon K))) (x : Ring K × Nat) :
    Option (List (Option (Polygon K))) :=
  let (r, idx) := x
  if r.isHole then
    let p := parents idx
    match polys[p]?, rings[p]? with
    | some o, some rp =>
      let poly := o.getD ⟨rp.coords, []⟩
      some (polys.set p (some { poly with ints := poly.ints ++ [r.coords] }))
    | _, _ => none
  else
    match polys[idx]? with
    | some none => some (polys.set idx (some ⟨r.coords, []⟩))
    | some (some _) => some polys
    | none => none

/-- The end of `assemble` — laminar.rs:85-101. -/
def placeRings (rings : List (Ring K)) (parents : Nat → Nat) : Option (List (Polygon K)) :=
  match rings.zipIdx.foldlM (place rings parents) (List.replicate rings.length none) with
  | none => none
  | some polys => some (polys.filterMap id)

/-- `assemble` — laminar.rs:10-101. -/
def assemble (rings : List (Ring K)) (nextAfter : K → K) (choice : Nat → Nat)
    (srt : List (Crossing K Nat) → List (Crossing K Nat)) (fuel : Nat) : Option (List (Polygon K)) :=
  (findParents false rings nextAfter choice srt fuel).bind (placeRings rings)

/-- `assemble` with debug assertions — laminar.rs:10-101. -/
def assembleDebug (rings : List (Ring K)) (nextAfter : K → K) (choice : Nat → Nat)
    (srt : List (Crossing K Nat) → List (Crossing K Nat)) (fuel : Nat) : Option (List (Polygon K)) :=
  (findParents true rings nextAfter choice srt fuel).bind (placeRings rings)

end Laminar

variable {K : Type _} [Field K] [LinearOrder K]

/-- `boolean_op` for `MultiPolygon` — bops.rs:40-46. The one for `Polygon` (bops.rs:29-35) is the same on single polygons. -/
def booleanOp (a b : List (Polygon K)) (ty : OpType) (nextAfter : K → K) (choice : Nat → Nat)
    (srt srt' : List (Crossing K Nat) → List (Crossing K Nat)) (fuel : Nat) : Option (List (Polygon K)) :=
  (addMultiPolygon [] a true).bind fun es =>
  (addMultiPolygon es b false).bind fun es =>
  (BoolOp.sweep ty es nextAfter choice srt fuel).bind fun rings =>
  Laminar.assemble rings nextAfter choice srt' fuel

/-- `boolean_op` in a build with debug assertions — bops.rs:40-46. -/
def booleanOpDebug (a b : List (Polygon K)) (ty : OpType) (nextAfter : K → K) (choice : Nat → Nat)
    (srt srt' : List (Crossing K Nat) → List (Crossing K Nat)) (fuel : Nat) : Option (List (Polygon K)) :=
  (addMultiPolygon [] a true).bind fun es =>
  (addMultiPolygon es b false).bind fun es =>
  (BoolOp.sweepDebug ty es nextAfter choice srt fuel).bind fun rings =>
  Laminar.assembleDebug rings nextAfter choice srt' fuel

end GeoCrossings
