import Verif.Model.Rasterize
import Verif.Model.Monotone

/-! # Model of the users of the scanner in `src/monotone.rs`

The crate calls `scan_lines`, `cross_area` and `cross_bounds` only in its tests. `verify_scanner_area` and `verify_scanner_bounds` cut
the box `[left, right] × [bot, top]` into columns, and each column into rows; the sides of the box are their parameters here. -/
namespace GeoCrossings

variable {K : Type _} [Field K] [LinearOrder K] [FloorSemiring K]

/-- The right end of column `i` — monotone.rs:125 and 181. -/
def columnRight (left right : K) (n i : Nat) : K := min right (left + ((i + 1 : Nat) : K) * ((right - left) / (n : K)))

/-- The loop over the columns of `verify_scanner_area` — monotone.rs:179-183. -/
def areaColumns (left right bot top : K) (cols n : Nat) (s : Scanner K × List K) : Option (Scanner K × List K) :=
  (List.range cols).foldlM (fun (s : Scanner K × List K) i => s.1.crossArea (columnRight left right n i) bot top s.2) s

/-- The closure of `map` in `verify_scanner_area` — monotone.rs:174-188: the area of a piece, summed over all cells. -/
def MonoPoly.rasterArea (left right bot top : K) (n : Nat) (m : MonoPoly K) : Option K := do
  let s ← m.scanLines left
  let (_, arr) ← areaColumns left right bot top n n (s, List.replicate n 0)
  pure arr.sum

/-- `total_area` of `verify_scanner_area` — monotone.rs:172-188. -/
def rasterArea (dbg : Bool) (srt : List (Event K) → List (Event K)) (left right bot top : K) (n : Nat) (p : Polygon K) : Option K := do
  let ms ← Monotone.monotoneChains dbg srt p
  let as ← ms.mapM (MonoPoly.rasterArea left right bot top n)
  pure as.sum

/-- The body of the loop over the columns in `verify_scanner_bounds` — monotone.rs:123-137. The lower and the upper bound so far; `none`
is also the assertion at line 132. -/
def boundsColumn (left right bot top : K) (n : Nat) (st : Scanner K × K × K) (i : Nat) : Option (Scanner K × K × K) := do
  let (s, lb, ub) := st
  let cellArea := (right - left) / (n : K) * ((top - bot) / (n : K))
  let currLeft := s.curr.x
  let r := columnRight left right n i
  match ← s.crossBounds r bot top n with
  | (s', none) => pure (s', lb, ub)
  | (s', some (jMin, jMax, iMin, iMax)) =>
    let currRight := min s'.curr.x r
    let currUb := ((1 + jMax - jMin : Nat) : K) * cellArea
    if iMax > iMin then
      let currLb := (iMax - iMin) * (currRight - currLeft)
      if currLb ≤ currUb then pure (s', lb + currLb, ub + currUb) else none
    else pure (s', lb, ub + currUb)

/-- `area_lb` and `area_ub` for a piece — monotone.rs:116-137. -/
def MonoPoly.rasterBounds (left right bot top : K) (n : Nat) (m : MonoPoly K) : Option (K × K) := do
  let s ← m.scanLines left
  let (_, lb, ub) ← (List.range n).foldlM (boundsColumn left right bot top n) (s, 0, 0)
  pure (lb, ub)

/-- `total_area_lb` and `total_area_ub` of `verify_scanner_bounds` — monotone.rs:111-147. -/
def rasterBounds (dbg : Bool) (srt : List (Event K) → List (Event K)) (left right bot top : K) (n : Nat) (p : Polygon K) :
    Option (K × K) := do
  let ms ← Monotone.monotoneChains dbg srt p
  let bs ← ms.mapM (MonoPoly.rasterBounds left right bot top n)
  pure ((bs.map Prod.fst).sum, (bs.map Prod.snd).sum)

end GeoCrossings
