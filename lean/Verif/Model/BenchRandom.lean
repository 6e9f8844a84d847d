import Verif.Model.Rings
import Verif.Model.Bops
import Mathlib.Algebra.Order.Floor.Defs
import Mathlib.Analysis.SpecialFunctions.Trigonometric.Basic

/-! # Model of the random polygons of the benchmarks: `benches/utils/random.rs`

The samples of the random generator are an argument: the `i`-th value that is drawn. -/
namespace GeoCrossings

section
variable {K : Type _} [Field K] [LinearOrder K]

/-- `Polygon::new` of `geo-types` without holes: the exterior is closed. -/
def Polygon.ofRing (l : List (Pt K)) : Polygon K := ⟨closeRing l, []⟩

variable [FloorSemiring K]

/-- `(x * 10.) as i64 as f64 / 10.` for `x` that are not negative — benches/utils/random.rs:80 and 88. -/
def truncTenth (x : K) : K := (⌊x * 10⌋₊ : K) / 10

/-- `steppy_polygon` — benches/utils/random.rs:68-95. The loops are folds over the pair of `ring` and `y`; `normal` is not used. -/
def steppyPolygon (sample : Nat → K) (steps : Nat) : Polygon K :=
  let ystep : K := 1
  let shift : K := 50
  let st : List (Pt K) × K := ([⟨0, 0⟩], 0)
  let st := (List.range steps).foldl (fun st i =>
    let x := sample i * shift / 2
    let x := truncTenth x
    let y := st.2 + ystep
    (st.1 ++ [⟨x, y⟩], y)) st
  let st := (st.1 ++ [⟨shift, st.2⟩], st.2)
  let st := (List.range steps).foldl (fun st i =>
    let x := sample (steps + i) * shift
    let x := truncTenth x
    let y := st.2 - ystep
    (st.1 ++ [⟨shift + x, y⟩], y)) st
  Polygon.ofRing st.1

end

/-- `circular_polygon` — benches/utils/random.rs:45-66. Two normal samples are drawn in each step, and the second one is not used. -/
noncomputable def circularPolygon (sample : Nat → ℝ) (steps : Nat) : Polygon ℝ :=
  let angStep := 2 * Real.pi / (steps : ℝ)
  let st : List (Pt ℝ) × ℝ := ([], 0)
  let st := (List.range steps).foldl (fun st i =>
    let r := |sample (2 * i)| + 1 / 10
    let angle := st.2
    (st.1 ++ [⟨r * Real.cos angle, r * Real.sin angle⟩], angle + angStep)) st
  Polygon.ofRing st.1

end GeoCrossings
