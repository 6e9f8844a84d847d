import Verif.Model.MonoPoly
import Mathlib.Algebra.Order.Floor.Defs
import Mathlib.Algebra.Order.Floor.Semiring

/-! # Model of `src/monotone/rasterize.rs`

Exact arithmetic. The accumulators that start at `±infinity` are modelled by taking the first trapezoid's values as their start
(`none` while no trapezoid was seen: the code then finds `top_max = -inf <= bot_min = inf` and returns early). -/
namespace GeoCrossings

variable {K : Type _} [Field K] [LinearOrder K] [FloorSemiring K]

/-- The four accumulators of rasterize.rs:54-58. -/
structure Extremes (K : Type _) where
  topMax : K
  topMin : K
  botMax : K
  botMin : K
deriving DecidableEq, Repr

/-- One iteration of the loop in rasterize.rs:60-65 (and of 16-19, which keeps two of the four). -/
def Extremes.add (e : Option (Extremes K)) (t : Trapz K) : Option (Extremes K) :=
  match e with
  | none => some
    ⟨max t.left.top t.right.top, min t.left.top t.right.top, max t.left.bot t.right.bot, min t.left.bot t.right.bot⟩
  | some e => some
    ⟨max (max e.topMax t.left.top) t.right.top, min (min e.topMin t.left.top) t.right.top,
     max (max e.botMax t.left.bot) t.right.bot, min (min e.botMin t.left.bot) t.right.bot⟩

/-- The loops of rasterize.rs:16-19 and 60-65. -/
def extremes (ts : List (Trapz K)) : Option (Extremes K) := ts.foldl Extremes.add none

/-- The closure `cross_idx` — rasterize.rs:33-38 and 80-85, multiplying by `slice_height_inv = height / (cross_max - cross_min)`.
Only called with `height > 0`; for `height = 0` the code computes `height - 1` in `usize`. -/
def crossIdxInv (cmin cmax : K) (height : Nat) (y : K) : Nat :=
  let inv := (height : K) / (cmax - cmin)
  let j := (y - cmin) * inv
  let j := min (max j 0) (height : K)
  min ⌊j⌋₊ (height - 1)

namespace Scanner

/-- `cross_ubounds` — rasterize.rs:5-45. -/
def crossUbounds (s : Scanner K) (right cmin cmax : K) (height : Nat) : Option (Scanner K × (Nat × Nat)) := do
  let (s', ts) ← s.advanceTo s.rounds right
  match extremes ts with
  | none => pure (s', (height, 0))
  | some e =>
    if e.topMax ≤ e.botMin ∨ e.topMax ≤ cmin ∨ cmax ≤ e.botMin then pure (s', (height, 0))
    else pure (s', (crossIdxInv cmin cmax height (max e.botMin cmin), crossIdxInv cmin cmax height (min e.topMax cmax)))

/-- `cross_bounds` — rasterize.rs:46-92. -/
def crossBounds (s : Scanner K) (right cmin cmax : K) (height : Nat) : Option (Scanner K × Option (Nat × Nat × K × K)) := do
  let (s', ts) ← s.advanceTo s.rounds right
  match extremes ts with
  | none => pure (s', none)
  | some e =>
    if e.topMax ≤ e.botMin ∨ e.topMax ≤ cmin ∨ cmax ≤ e.botMin then pure (s', none)
    else pure (s', some (crossIdxInv cmin cmax height (max e.botMin cmin), crossIdxInv cmin cmax height (min e.topMax cmax),
      e.botMax, e.topMin))

end Scanner

/-- The chains `(top_coords, bot_coords)` of the flipped trapezoid — rasterize.rs:118-155. -/
def flipCoords (t : Trapz K) : List (Pt K) × List (Pt K) :=
  let left := t.left
  let right := t.right
  let (top, bot) : List (Pt K) × List (Pt K) :=
    if left.bot ≤ right.bot then
      ([⟨left.bot, left.x⟩, ⟨right.bot, right.x⟩] ++ (if right.top > right.bot then [⟨right.top, right.x⟩] else []),
       [⟨left.bot, left.x⟩] ++ (if left.top > left.bot then [⟨left.top, left.x⟩] else []))
    else
      ([⟨right.bot, right.x⟩] ++ (if right.top > right.bot then [⟨right.top, right.x⟩] else []),
       [⟨right.bot, right.x⟩, ⟨left.bot, left.x⟩] ++ (if left.top > left.bot then [⟨left.top, left.x⟩] else []))
  if left.top ≤ right.top then (top, bot ++ [⟨right.top, right.x⟩])
  else (top ++ [⟨left.top, left.x⟩], bot)

/-- The closure `cross_idx` of `cross_area` — rasterize.rs:106-111, dividing by `slice_height`. -/
def crossIdx (cmin cmax : K) (height : Nat) (y : K) : Nat :=
  let sliceHeight := (cmax - cmin) / (height : K)
  let j := (y - cmin) / sliceHeight
  let j := min (max j 0) (height : K)
  min ⌊j⌋₊ (height - 1)

/-- The closure `cross_pt` — rasterize.rs:113-115. -/
def crossPt (cmin cmax : K) (height : Nat) (j : Nat) : K := (j : K) * ((cmax - cmin) / (height : K)) + cmin

/-- The inner loop over the rows — rasterize.rs:168-173: `n` rows from `j` on. `array[j]` panics when out of range, but only if a
trapezoid is added. -/
def fillRows (cmin cmax : K) (height : Nat) : Nat → Nat → Scanner K → List K → Option (List K)
  | 0, _, _, arr => some arr
  | n + 1, j, s, arr => do
    let (s', ts) ← s.advanceTo s.rounds (crossPt cmin cmax height (j + 1))
    let arr' ← ts.foldlM (fun (a : List K) t => do
      let v ← a[j]?
      let r ← t.areaChecked
      pure (a.set j (v + r))) arr
    fillRows cmin cmax height n (j + 1) s' arr'

/-- One iteration of the outer loop of `cross_area` — rasterize.rs:117-174. -/
def areaOne (cmin cmax : K) (t : Trapz K) (arr : List K) : Option (List K) := do
  let height := arr.length
  let (top, bot) := flipCoords t
  let tpoly ← MonoPoly.new top bot
  let scanner ← tpoly.scanLines cmin
  let botMin := min t.left.bot t.right.bot
  let topMax := max t.left.top t.right.top
  if cmax ≤ botMin ∨ topMax ≤ cmin then pure arr
  else
    let jMin := crossIdx cmin cmax height botMin
    let jMax := crossIdx cmin cmax height topMax
    fillRows cmin cmax height (jMax + 1 - jMin) jMin scanner arr

/-- `cross_area` — rasterize.rs:94-175. Returns the scanner and the array. -/
def Scanner.crossArea (s : Scanner K) (right cmin cmax : K) (arr : List K) : Option (Scanner K × List K) := do
  let (s', ts) ← s.advanceTo s.rounds right
  let arr' ← ts.foldlM (fun a t => areaOne cmin cmax t a) arr
  pure (s', arr')

end GeoCrossings
