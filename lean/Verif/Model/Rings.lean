import Verif.Model.LineOrPoint

/-!
# Model of `src/bops/rings.rs`: building rings from edges

`end_points`, a `BTreeMap`, is a partial function here; `history` likewise. `Vec` and `VecDeque` are lists. A result of `none`
is a panic (an `unwrap` of `None`, an index out of range, or the `expect` of line 193). The `debug_assert` of
line 82 is executed; those on the ends and the windings of the chains are in `addEdgeOk`, and `addEdgeD true` executes them. Trace
macros are dropped.
-/
namespace GeoCrossings

/-- `Link` — rings.rs:254-258. -/
structure Link where
  idx : Nat
  toFront : Bool
deriving DecidableEq, Repr

/-- `Chain` — rings.rs:216-222. -/
structure Chain (K : Type _) where
  winding : Winding
  items : List (Pt K)
  nextFront : Option Link
  nextBack : Option Link
deriving DecidableEq, Repr

/-- `Rings` — rings.rs:9-12. -/
structure Rings (K : Type _) where
  chains : List (Chain K)
  endPoints : Pt K → Option Link

section order
variable {K : Type _} [LinearOrder K]

/-- `Rings::default` — rings.rs:14-21. -/
def Rings.default : Rings K := ⟨[], fun _ => none⟩

/-- `Chain::new` — rings.rs:225-235. -/
def Chain.new (start stop : Pt K) (w : Winding) : Chain K := ⟨w, [start, stop], none, none⟩

/-- `Chain::push_front` — rings.rs:236-239. -/
def Chain.pushFront (c : Chain K) (p : Pt K) : Chain K := { c with items := p :: c.items }

/-- `Chain::push_back` — rings.rs:240-243. -/
def Chain.pushBack (c : Chain K) (p : Pt K) : Chain K := { c with items := c.items ++ [p] }

/-- `Chain::link_front` — rings.rs:244-247. -/
def Chain.linkFront (c : Chain K) (l : Link) : Chain K := { c with nextFront := some l }

/-- `Chain::link_back` — rings.rs:248-251. -/
def Chain.linkBack (c : Chain K) (l : Link) : Chain K := { c with nextBack := some l }

namespace Rings

/-- Mutation of `self.chains[i]`; `none` if out of range. -/
def modifyChain (cs : List (Chain K)) (i : Nat) (f : Chain K → Chain K) : Option (List (Chain K)) :=
  (cs[i]?).map fun c => cs.set i (f c)

/-- `BTreeMap::insert`. -/
def insertEnd (m : Pt K → Option Link) (p : Pt K) (l : Link) : Pt K → Option Link :=
  fun q => if q = p then some l else m q

/-- `BTreeMap::remove(..).unwrap()`. -/
def removeEnd (m : Pt K → Option Link) (p : Pt K) : Option (Pt K → Option Link) :=
  (m p).map fun _ q => if q = p then none else m q

/-- `push_link` — rings.rs:151-159. The winding is only used in debug assertions. -/
def pushLink (cs : List (Chain K)) (l : Link) (p : Pt K) : Option (List (Chain K)) :=
  modifyChain cs l.idx fun c => if l.toFront then c.pushFront p else c.pushBack p

/-- `link_chains` — rings.rs:161-176. The winding is only used in debug assertions. -/
def linkChains (cs : List (Chain K)) (i j : Link) : Option (List (Chain K)) := do
  let cs ← modifyChain cs i.idx fun c => if i.toFront then c.linkFront j else c.linkBack j
  modifyChain cs j.idx fun c => if j.toFront then c.linkFront i else c.linkBack i

/-- `add_edge` — rings.rs:93-149. -/
def addEdge (r : Rings K) (geom : LineOrPoint K) (w : Winding) : Option (Rings K) :=
  let left := geom.first
  let right := geom.second
  match r.endPoints left, r.endPoints right with
  | none, none =>
    let idx := r.chains.length
    some { chains := r.chains ++ [Chain.new left right w]
           endPoints := insertEnd (insertEnd r.endPoints left ⟨idx, true⟩) right ⟨idx, false⟩ }
  | none, some i => do
    let cs ← pushLink r.chains i left
    let m ← removeEnd r.endPoints right
    pure ⟨cs, insertEnd m left i⟩
  | some i, none => do
    let cs ← pushLink r.chains i right
    let m ← removeEnd r.endPoints left
    pure ⟨cs, insertEnd m right i⟩
  | some i, some j => do
    let cs ← linkChains r.chains i j
    let m ← removeEnd r.endPoints left
    let m ← removeEnd m right
    pure ⟨cs, m⟩

/-- The `debug_assert`s that are executed when something is attached to an end of a chain: the end is free, and the winding of the
chain, walked towards this end, is `w` — rings.rs:151-176 and 236-251. -/
def endOk (cs : List (Chain K)) (l : Link) (w : Winding) : Bool :=
  match cs[l.idx]? with
  | none => false
  | some c => if l.toFront then c.nextFront.isNone && decide (c.winding = w.inverse) else c.nextBack.isNone && decide (c.winding = w)

/-- The `debug_assert`s executed by `add_edge` — rings.rs:93-176 and 236-251. In `link_chains` the second end is checked after the
first has been linked. -/
def addEdgeOk (r : Rings K) (geom : LineOrPoint K) (w : Winding) : Bool :=
  match r.endPoints geom.first, r.endPoints geom.second with
  | none, none => true
  | none, some i => endOk r.chains i w.inverse
  | some i, none => endOk r.chains i w
  | some i, some j =>
    endOk r.chains i w &&
      match modifyChain r.chains i.idx fun c => if i.toFront then c.linkFront j else c.linkBack j with
      | none => false
      | some cs => endOk cs j w.inverse

/-- `add_edge` in a build with debug assertions (`dbg`) or without — rings.rs:93-149. -/
def addEdgeD (dbg : Bool) (r : Rings K) (geom : LineOrPoint K) (w : Winding) : Option (Rings K) :=
  if dbg && !addEdgeOk r geom w then none else r.addEdge geom w

end Rings
end order

/-- `Ring` — rings.rs:179-183. -/
structure Ring (K : Type _) where
  coords : List (Pt K)
  isHole : Bool
deriving DecidableEq, Repr

section arith
variable {K : Type _} [Field K] [LinearOrder K]

/-- `LineString::close` of `geo-types`: repeat the first coordinate at the end unless the line string is closed. -/
def closeRing (l : List (Pt K)) : List (Pt K) :=
  match l.head? with
  | none => l
  | some a => if l.getLast? = some a then l else l ++ [a]

/-- `geo::utils::least_index` — external: the first index of a least element. -/
def leastIndex (l : List (Pt K)) : Nat :=
  match l with
  | [] => 0
  | a :: t => ((t.zipIdx 1).foldl (fun (m : Pt K × Nat) e => if e.1 < m.1 then e else m) (a, 0)).2

/-- The search of `winding_order` for the next different coordinate, cyclically from index `i` (`geo` 0.20
winding_order.rs); `none` if there is none. -/
def findOther (a : Pt K) (l : List (Pt K)) : Option (Pt K) := l.find? (· ≠ a)

/-- `Winding::winding_order` for `LineString` — `geo` 0.20, external, exact arithmetic: the turn at a lexicographically least
vertex, `None` if there are less than four coordinates, the line string is not closed, all are equal, or there is no turn. -/
def windingOrder (l : List (Pt K)) : Option Winding :=
  if l.length < 4 ∨ l.head? ≠ l.getLast? then none
  else
    let i := leastIndex l
    l[i]?.bind fun a =>
    (findOther a (l.drop (i + 1) ++ l.take i)).bind fun next =>
    (findOther a ((l.take i).reverse ++ (l.drop (i + 1)).reverse)).bind fun prev =>
    match orient2d prev a next with
    | .counterClockwise => some .counterClockwise
    | .clockwise => some .clockwise
    | .collinear => none

/-- `Ring::from_coords` — rings.rs:187-198. -/
def Ring.fromCoords (coords : List (Pt K)) (region : Winding) : Option (Ring K) :=
  let ls := closeRing coords
  (windingOrder ls).map fun w => ⟨ls, w ≠ region⟩

end arith

namespace Rings
section
universe u
variable {K R : Type u} [LinearOrder K]

/-- The body of the `for pt in iter` loop of `finish` — rings.rs:56-72: `ls`, `history` and `output`. `mk` is
`Ring::from_coords(_, &winding)`. -/
def walkPt (mk : List (Pt K) → Option R) (s : List (Pt K) × (Pt K → Option Nat) × List R) (pt : Pt K) :
    Option (List (Pt K) × (Pt K → Option Nat) × List R) := do
  let (ls, history, output) := s
  match history pt with
  | some idx =>
    let newLs := ls.drop idx
    -- `inspect`: each drained point must be in `history` (`unwrap`)
    let history ← newLs.foldlM (fun (h : Pt K → Option Nat) p => (h p).map fun _ q => if q = p then none else h q) history
    let ls := ls.take idx
    let ring ← mk newLs
    pure (ls ++ [pt], (fun q => if q = pt then some ls.length else history q), output ++ [ring])
  | none => pure (ls ++ [pt], (fun q => if q = pt then some ls.length else history q), output)

/-- The `loop` of `finish` — rings.rs:45-85: follow the links from chain to chain until back at `start`. -/
def walkLoop (mk : List (Pt K) → Option R) (start : Nat) :
    Nat → List (Chain K) → Link → List (Pt K) × (Pt K → Option Nat) × List R →
    Option (List (Chain K) × List (Pt K) × (Pt K → Option Nat) × List R)
  | 0, _, _, _ => none
  | fuel + 1, cs, link, s => do
    let c ← cs[link.idx]?
    let s ← (if link.toFront then c.items else c.items.reverse).foldlM (walkPt mk) s
    let cs := cs.set link.idx { c with items := [] }
    match if link.toFront then c.nextBack else c.nextFront with
    | none => none
    | some link => if link.idx = start then (if link.toFront then pure (cs, s) else none) else walkLoop mk start fuel cs link s

/-- The outer `while` of `finish` — rings.rs:29-89. The first argument is `curr_chain_idx`. -/
def finishLoop (mk : Winding → List (Pt K) → Option R) : Nat → List (Chain K) → List R → Option (List R)
  | 0, _, output => some output
  | curr + 1, cs, output => do
    let c ← cs[curr]?
    if c.items.length = 0 then finishLoop mk curr cs output
    else do
      let (cs', ls, _, output) ← walkLoop (mk c.winding) curr (cs.length + 1) cs ⟨curr, true⟩ ([], fun _ => none, output)
      let ring ← mk c.winding ls
      finishLoop mk curr cs' (output ++ [ring])

/-- `finish` — rings.rs:23-91, with `Ring::from_coords` as a parameter. -/
def finishWith (mk : Winding → List (Pt K) → Option R) (r : Rings K) : Option (List R) :=
  finishLoop mk r.chains.length r.chains []

end

variable {K : Type _} [Field K] [LinearOrder K]

/-- `finish` — rings.rs:23-91. -/
def finish (r : Rings K) : Option (List (Ring K)) := finishWith (fun w l => Ring.fromCoords l w) r

/-- A history of `add_edge` calls on an empty `Rings`. -/
def ofEdges (es : List (LineOrPoint K × Winding)) : Option (Rings K) :=
  es.foldlM (fun r e => r.addEdge e.1 e.2) Rings.default

end Rings
end GeoCrossings
