import Verif.Model.RasterDriver
import Verif.Model.Crossings

/-! # Model of the helpers of the benchmarks: `benches/utils/{crossings,rasterize}.rs`

They are the other users of the public functions of the crate: `count_brute` is what the crate is compared with, `our_area` and
`our_rasterize` rasterize a polygon with the scanner. -/
namespace GeoCrossings

section
variable {K : Type _} [Field K] [LinearOrder K]

/-- `count_brute` — benches/utils/crossings.rs:23-35. The outer loop is `foldl` over the indices. -/
def countBrute (lines : List (Line K)) : Nat :=
  let n := lines.length
  (List.range n).foldl (fun count i =>
    match lines[i]? with
    | none => count
    | some l1 => ((lines.take n).drop (i + 1)).foldl (fun count l2 => if (lineIntersection l1 l2).isSome then count + 1 else count) count) 0

/-- `count_bo` — benches/utils/crossings.rs:19-21. The inputs are references to the lines, modelled by their positions. -/
def countBo (nextAfter : K → K) (choice : Nat → Nat) (fuel : Nat) (lines : List (Line K)) : Option Nat := do
  let ts ← intersectionsOf (fun i => lines.getD i ⟨⟨0, 0⟩, ⟨0, 0⟩⟩) nextAfter choice fuel (List.range lines.length)
  pure ts.length

end

section
variable {K : Type _}

/-- `map_coords(|&(x, y)| (y, x))` — benches/utils/rasterize.rs:15 and 48. -/
def Polygon.swapXY (p : Polygon K) : Polygon K :=
  ⟨p.ext.map fun c => ⟨c.y, c.x⟩, p.ints.map (List.map fun c => ⟨c.y, c.x⟩)⟩

/-- A `Rect` of geo. -/
structure Rect (K : Type _) where
  minX : K
  maxX : K
  minY : K
  maxY : K
deriving DecidableEq, Repr

/-- `bounding_rect` of geo for a polygon: the least rectangle with the vertices of the exterior. -/
def Polygon.boundingRect [LinearOrder K] (p : Polygon K) : Option (Rect K) :=
  match p.ext with
  | [] => none
  | c :: cs => some (cs.foldl (fun r q => ⟨min r.minX q.x, max r.maxX q.x, min r.minY q.y, max r.maxY q.y⟩) ⟨c.x, c.x, c.y, c.y⟩)

end

variable {K : Type _} [Field K] [LinearOrder K] [FloorSemiring K]

/-- The body of the loop over `i` of `our_area` — benches/utils/rasterize.rs:63-66. The rows of the array are a list of lists. -/
def areaRow (left w cmin cmax : K) (st : Scanner K × List (List K)) (i : Nat) : Option (Scanner K × List (List K)) := do
  let right := left + w * (i : K)
  let row ← st.2[i]?
  let (s, row') ← st.1.crossArea right cmin cmax row
  pure (s, st.2.set i row')

/-- The loop over the columns for one piece — benches/utils/rasterize.rs:59-68. -/
def areaPiece (left w cmin cmax : K) (n : Nat) (arr : List (List K)) (m : MonoPoly K) : Option (List (List K)) := do
  let s ← m.scanLines left
  let (_, arr') ← (List.range n).foldlM (areaRow left w cmin cmax) (s, arr)
  pure arr'

/-- `our_area` — benches/utils/rasterize.rs:46-70. -/
def ourArea (dbg : Bool) (srt : List (Event K) → List (Event K)) (p : Polygon K) (width height : Nat) : Option (List (List K)) := do
  let arr := List.replicate height (List.replicate width 0)
  let p := p.swapXY
  let bbox ← p.boundingRect
  let w := (bbox.maxX - bbox.minX) / (height : K)
  let polys ← Monotone.monotoneChains dbg srt p
  polys.foldlM (areaPiece bbox.minX w bbox.minY bbox.maxY height) arr

/-- The inner loop of `our_rasterize` — benches/utils/rasterize.rs:36-39, on the slice of `height` entries from `start` on; writes outside of it panic. -/
def markRow (height start jmin jmax : Nat) (arr : List Bool) : Option (List Bool) :=
  if start + height ≤ arr.length then
    (List.range' jmin (jmax + 1 - jmin)).foldlM (fun (a : List Bool) j => if j < height then some (a.set (start + j) true) else none) arr
  else none

/-- The body of the loop over `i` of `our_rasterize` — benches/utils/rasterize.rs:32-40. The state is the scanner, `arr_start` and `arr`. -/
def rasterColumn (left w cmin cmax : K) (height : Nat) (st : Scanner K × Nat × List Bool) (i : Nat) : Option (Scanner K × Nat × List Bool) := do
  let right := left + w * (i : K)
  let (s, jmin, jmax) ← st.1.crossUbounds right cmin cmax height
  if jmin > jmax then pure (s, st.2)
  else
    let arr ← markRow height st.2.1 jmin jmax st.2.2
    pure (s, st.2.1 + height, arr)

/-- The loop over the columns for one piece — benches/utils/rasterize.rs:28-41. -/
def rasterPiece (left w cmin cmax : K) (width height : Nat) (arr : List Bool) (m : MonoPoly K) : Option (List Bool) := do
  let s ← m.scanLines left
  let (_, _, arr') ← (List.range width).foldlM (rasterColumn left w cmin cmax height) (s, 0, arr)
  pure arr'

/-- `our_rasterize` — benches/utils/rasterize.rs:12-44. The array is flat: the entry of row `r` and column `j` is at `r * width + j`. -/
def ourRasterize (dbg : Bool) (srt : List (Event K) → List (Event K)) (p : Polygon K) (width height : Nat) : Option (List Bool) := do
  let arr := List.replicate (height * width) false
  let p := p.swapXY
  let bbox ← p.boundingRect
  let w := (bbox.maxX - bbox.minX) / (height : K)
  let polys ← Monotone.monotoneChains dbg srt p
  polys.foldlM (rasterPiece bbox.minX w bbox.minY bbox.maxY height width) arr

end GeoCrossings
