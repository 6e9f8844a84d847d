import Verif.Props.BenchLines
import Verif.Props.BenchRandom
import Verif.Props.BenchArea
import Verif.Props.BenchRaster
import Verif.Props.RasterTotal

/-!
# The rotated polygons of the benchmarks (C108)

The benchmarks draw an angle from 0 to 2π and give it to `rotate_around_point` of geo, which takes degrees (benches/mono-raster.rs:30-36,
benches/prof-rasterize.rs:30-36, benches/boolean-ops.rs:29-35). A comment there says that 90 degrees is the worst case.
-/
set_option linter.unusedSectionVars false
namespace GeoCrossings
open Spec

section
variable {K : Type} [Field K] [LinearOrder K] [IsStrictOrderedRing K]

theorem crossSum_affine (T : Affine K) : ∀ (p : Pt K) (l : List (Pt K)),
    crossSum ((p :: l).map T.app) = (T.a * T.d - T.b * T.c) * crossSum (p :: l) +
      T.f * ((T.a * p.x + T.b * p.y) - (T.a * ((p :: l).getLast (by simp)).x + T.b * ((p :: l).getLast (by simp)).y)) -
      T.e * ((T.c * p.x + T.d * p.y) - (T.c * ((p :: l).getLast (by simp)).x + T.d * ((p :: l).getLast (by simp)).y))
  | p, [] => by simp [crossSum]
  | p, q :: l => by
    have ih := crossSum_affine T q l
    have hl : (p :: q :: l).getLast (by simp) = (q :: l).getLast (by simp) := List.getLast_cons _
    rw [List.map_cons, List.map_cons, crossSum, ← List.map_cons, ih, crossSum, hl]
    simp only [Affine.app]
    ring

/-- The area of the image of a closed ring. -/
theorem ringArea_affine (T : Affine K) {ring : List (Pt K)} (h : Spec.Closed ring) :
    ringArea (ring.map T.app) = (T.a * T.d - T.b * T.c) * ringArea ring := by
  cases ring with
  | nil => simp [ringArea, crossSum]
  | cons p l =>
    have hl : (p :: l).getLast (by simp) = p := by
      rw [Spec.Closed, List.head?_cons, List.getLast?_eq_some_getLast (by simp), Option.some.injEq] at h
      exact h.symm
    unfold ringArea
    rw [crossSum_affine, hl]
    ring

/-- **C108 (area).** The area of the image of a polygon under an affine map is the area of the polygon times the determinant. -/
theorem C108_area (T : Affine K) {p : Polygon K} (h : ∀ r ∈ p.ext :: p.ints, Spec.Closed r) :
    polygonArea ⟨p.ext.map T.app, p.ints.map (List.map T.app)⟩ = |T.a * T.d - T.b * T.c| * polygonArea p := by
  unfold polygonArea
  simp only
  rw [ringArea_affine T (h _ (by simp)), abs_mul, mul_sub, List.map_map, ← List.sum_map_mul_left]
  congr 2
  refine List.map_congr_left fun r hr => ?_
  rw [Function.comp_apply, ringArea_affine T (h r (by simp [hr])), abs_mul]

end

/-- The rotation as an affine map. -/
noncomputable def rotation (deg : ℝ) (o : Pt ℝ) : Affine ℝ where
  a := Real.cos (deg * (Real.pi / 180))
  b := -Real.sin (deg * (Real.pi / 180))
  c := Real.sin (deg * (Real.pi / 180))
  d := Real.cos (deg * (Real.pi / 180))
  e := o.x - Real.cos (deg * (Real.pi / 180)) * o.x + Real.sin (deg * (Real.pi / 180)) * o.y
  f := o.y - Real.sin (deg * (Real.pi / 180)) * o.x - Real.cos (deg * (Real.pi / 180)) * o.y
  ne := by
    have := Real.cos_sq_add_sin_sq (deg * (Real.pi / 180))
    nlinarith

theorem rotation_app (deg : ℝ) (o p : Pt ℝ) : (rotation deg o).app p = rotateAround deg o p := by
  simp only [Affine.app, rotation, rotateAround, Pt.mk.injEq]
  constructor <;> ring

theorem rotation_det (deg : ℝ) (o : Pt ℝ) :
    (rotation deg o).a * (rotation deg o).d - (rotation deg o).b * (rotation deg o).c = 1 := by
  have := Real.cos_sq_add_sin_sq (deg * (Real.pi / 180))
  simp only [rotation]
  nlinarith

/-- **C108 (rotation).** A rotated polygon is valid if the polygon is, and has the same area. -/
theorem C108_rotated {p : Polygon ℝ} (h : ValidPolygon p.ext p.ints) (deg : ℝ) (o : Pt ℝ) :
    ValidPolygon (p.rotateAround deg o).ext (p.rotateAround deg o).ints ∧ polygonArea (p.rotateAround deg o) = polygonArea p := by
  have e : p.rotateAround deg o = ⟨p.ext.map (rotation deg o).app, p.ints.map (List.map (rotation deg o).app)⟩ := by
    rw [Polygon.rotateAround, show GeoCrossings.rotateAround deg o = (rotation deg o).app from funext fun q => (rotation_app deg o q).symm]
  rw [e]
  refine ⟨h.image _, ?_⟩
  rw [C108_area _ fun r hr => (h.closed r hr).1, rotation_det, abs_one, one_mul]

/-- **C108 (angle).** A point moved by `angle = sample * PI * 2.0`, taken as degrees, hardly turns: the scalar product of the vectors between
two points before and after is at least 99/100 of the square of its length. In particular nothing is turned by 90 degrees. -/
theorem C108_turn {a : ℝ} (h : IsSample a) (o p q : Pt ℝ) :
    let p' := rotateAround (a * Real.pi * 2) o p
    let q' := rotateAround (a * Real.pi * 2) o q
    99 / 100 * ((q.x - p.x) ^ 2 + (q.y - p.y) ^ 2) ≤ (q.x - p.x) * (q'.x - p'.x) + (q.y - p.y) * (q'.y - p'.y) ∧
      (q'.x - p'.x) ^ 2 + (q'.y - p'.y) ^ 2 = (q.x - p.x) ^ 2 + (q.y - p.y) ^ 2 := by
  obtain ⟨ha0, ha1⟩ := h
  set th : ℝ := a * Real.pi * 2 * (Real.pi / 180) with hth
  have p3 : Real.pi < 3.15 := Real.pi_lt_d2
  have p0 : 0 < Real.pi := Real.pi_pos
  have t0 : 0 ≤ th := by rw [hth]; positivity
  have t1 : th ≤ 0.11025 := by
    have : Real.pi * Real.pi ≤ 3.15 * 3.15 := by nlinarith
    have e : th = a * (Real.pi * Real.pi / 90) := by rw [hth]; ring
    rw [e]
    nlinarith [mul_pos p0 p0]
  have hc : 1 - th ^ 2 / 2 ≤ Real.cos th := Real.one_sub_sq_div_two_le_cos
  have hc' : 99 / 100 ≤ Real.cos th := by nlinarith
  have hcs := Real.cos_sq_add_sin_sq th
  intro p' q'
  have e1 : q'.x - p'.x = Real.cos th * (q.x - p.x) - Real.sin th * (q.y - p.y) := by
    simp only [p', q', rotateAround, ← hth]; ring
  have e2 : q'.y - p'.y = Real.sin th * (q.x - p.x) + Real.cos th * (q.y - p.y) := by
    simp only [p', q', rotateAround, ← hth]; ring
  rw [e1, e2]
  constructor
  · have : (q.x - p.x) * (Real.cos th * (q.x - p.x) - Real.sin th * (q.y - p.y)) + (q.y - p.y) * (Real.sin th * (q.x - p.x) + Real.cos th * (q.y - p.y)) =
        Real.cos th * ((q.x - p.x) ^ 2 + (q.y - p.y) ^ 2) := by ring
    rw [this]
    exact mul_le_mul_of_nonneg_right hc' (by positivity)
  · have : (Real.cos th * (q.x - p.x) - Real.sin th * (q.y - p.y)) ^ 2 + (Real.sin th * (q.x - p.x) + Real.cos th * (q.y - p.y)) ^ 2 =
        (Real.cos th ^ 2 + Real.sin th ^ 2) * ((q.x - p.x) ^ 2 + (q.y - p.y) ^ 2) := by ring
    rw [this, hcs, one_mul]

/-- **C108 (inputs of the benchmarks).** Whatever is drawn, the polygons that `our_area` and `our_rasterize` are run on are valid, and the area
that is computed for them after the rotation is the one before. -/
theorem C108_inputs {sample : Nat → ℝ} (h : ∀ i, IsSample (sample i)) {steps : Nat} (hs : 0 < steps) (a : ℝ) (o : Pt ℝ) :
    let p := steppyPolygon sample steps
    let p' := p.rotateAround (a * Real.pi * 2) o
    ValidPolygon p'.ext p'.ints ∧ polygonArea p' = polygonArea p ∧ 0 < polygonArea p' := by
  intro p p'
  have hv : ValidPolygon p.ext p.ints := C94_steppy h hs
  obtain ⟨h1, h2⟩ := C108_rotated hv (a * Real.pi * 2) o
  exact ⟨h1, h2, Monotone.C56_area_pos h1⟩

/-- **C108 (runs of the benchmarks).** On these polygons `our_area` and `our_rasterize` return, with debug assertions and without, whatever the sort
does with equal events. -/
theorem C108_runs (dbg : Bool) (srt : List (Event ℝ) → List (Event ℝ)) {sample : Nat → ℝ} (h : ∀ i, IsSample (sample i)) {steps : Nat} (hs : 0 < steps)
    (a : ℝ) (o : Pt ℝ) {width : Nat} (hw : 0 < width) (height : Nat) :
    let p := (steppyPolygon sample steps).rotateAround (a * Real.pi * 2) o
    (∃ arr, ourArea dbg srt p width height = some arr) ∧ ∃ arr, ourRasterize dbg srt p width height = some arr := by
  intro p
  have hv := (C108_inputs h hs a o).1
  obtain ⟨-, arr, -, h1, -⟩ := C92_area dbg srt hv (height := height) hw
  obtain ⟨-, -, arr', -, -, h2, -⟩ := C93_raster dbg srt hv (height := height) hw
  exact ⟨⟨arr, h1⟩, arr', h2⟩

/-- The hypotheses are met, and rotations do turn: by a right angle with 90 degrees. -/
example : IsSample (1 / 4 : ℝ) ∧ rotateAround 90 (⟨0, 0⟩ : Pt ℝ) ⟨1, 0⟩ = ⟨0, 1⟩ := by
  refine ⟨⟨by norm_num, by norm_num⟩, ?_⟩
  have : (90 : ℝ) * (Real.pi / 180) = Real.pi / 2 := by ring
  simp [rotateAround, this]

end GeoCrossings
