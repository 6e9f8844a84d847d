import Verif.Props.RasterTotal
import Verif.Lemmas.ValidCheck

/-!
# The last assertion of `verify_scanner_bounds` (C66)

C66 says which of the assertions of the test always hold. The last one (monotone.rs:153) does not, although it is only made for 1024 columns
(line 148): this is a refutation by one polygon, so an evaluation of the model is enough.
-/
namespace GeoCrossings
open Spec GeoCrossings.Monotone

/-- A long quadrilateral with a slanted left side. -/
def slanted : Polygon ℚ := ⟨[⟨0, 0⟩, ⟨1024, 0⟩, ⟨1024, 51101 / 50⟩, ⟨1 / 2, 51101 / 50⟩, ⟨0, 0⟩], []⟩

set_option maxRecDepth 100000 in
/-- **C66 (the last assertion).** With the 1024 columns and rows of `verify_scanner_bounds` (monotone.rs:150-153) and margins of 0, 0, 99/100 and
99/100 around the bounding box (lines 100-103 take them at random from the numbers at least 0 and below 1), a convex polygon with four corners makes
the test fail: its one piece has bounds that differ by more than `2 * cell_area * num_slices * num_mploys`. -/
theorem C66_last_assertion : ValidPolygon slanted.ext slanted.ints ∧ (monotoneChains true id slanted).map List.length = some 1 ∧
    rasterBounds true id 0 1024 (-99 / 100) (102301 / 100) 1024 slanted = some (52276323 / 50, 1048576) ∧
    2 * (1024 / 1024 * ((102301 / 100 - -99 / 100) / 1024)) * 1024 * 1 < (1048576 - 52276323 / 50 : ℚ) :=
  ⟨validPolygon_of_check (by decide +kernel), by decide +kernel, by decide +kernel, by norm_num⟩

end GeoCrossings
