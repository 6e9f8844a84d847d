import Verif.Lemmas.RasterBounds
import Verif.Props.Monotone
import Verif.Props.MonoVertices

/-!
# Rasterising a polygon (C65, C66)

What the crate's tests `verify_scanner_area` and `verify_scanner_bounds` check on a few polygons, for every valid polygon, every box that
contains it, and every number of columns and rows.
-/
set_option linter.unusedSectionVars false
namespace GeoCrossings
open Spec GeoCrossings.Monotone

variable {K : Type} [Field K] [LinearOrder K] [IsStrictOrderedRing K] [FloorSemiring K]

theorem mapM_some_map {α β γ : Type _} {f : α → Option β} {g : β → γ} {l : List α} {h : α → γ} {P : α → β → Prop}
    (hf : ∀ a ∈ l, ∃ b, f a = some b ∧ P a b ∧ g b = h a) :
    ∃ bs, l.mapM f = some bs ∧ List.Forall₂ P l bs ∧ bs.map g = l.map h := by
  induction l with
  | nil => exact ⟨[], rfl, .nil, rfl⟩
  | cons a l ih =>
    obtain ⟨b, h1, h2, h3⟩ := hf a (by simp)
    obtain ⟨bs, g1, g2, g3⟩ := ih fun a h => hf a (by simp [h])
    exact ⟨b :: bs, by simp [h1, g1], .cons h2 g2, by simp [h3, g3]⟩

/-- The area of a polygon: that of the exterior less those of the holes. -/
def polygonArea (p : Polygon K) : K := |ringArea p.ext| - (p.ints.map fun r => |ringArea r|).sum

/-- The areas between the chains of the pieces add up to the area of the polygon. -/
theorem pieces_area (dbg : Bool) (srt : List (Event K) → List (Event K)) {p : Polygon K} (h : ValidPolygon p.ext p.ints) :
    ∃ out, monotoneChains dbg srt p = some out ∧ (∀ m ∈ out, MonotonePair m.top m.bot ∧ NowhereBelow m.top m.bot) ∧
      (out.map fun m => areaUnder m.top - areaUnder m.bot).sum = polygonArea p := by
  obtain ⟨out, rings, h1, h2, h3, h4, -⟩ := C51_monotone_chains dbg srt h
  refine ⟨out, h1, h3, ?_⟩
  rw [polygonArea, ← h4]
  obtain ⟨bs, g1, -, g3⟩ := mapM_some_map (f := MonoPoly.intoPolygon) (g := fun ring => - ringArea ring) (l := out)
    (h := fun m => areaUnder m.top - areaUnder m.bot) (P := fun _ _ => True) fun m hm => by
      obtain ⟨ring, e1, -, -, -, -, e2, -⟩ := C43_into_polygon m (h3 m hm).1
      exact ⟨ring, e1, trivial, by rw [e2]; ring⟩
  rw [h2, Option.some.injEq] at g1
  rw [g1, g3]

/-- **C65.** Decomposing a valid polygon, scanning every piece column by column over a box that contains the polygon, and adding up all
the cells that `cross_area` fills, gives exactly the area of the polygon; no assertion fails on the way, in the debug build or the
release build. (`verify_scanner_area`; there only for four polygons, with rounding, and with the bounding box.) -/
theorem C65_raster_area (dbg : Bool) (srt : List (Event K) → List (Event K)) {p : Polygon K} (h : ValidPolygon p.ext p.ints)
    {left right bot top : K} (hc : bot < top) (hbox : ∀ r ∈ p.ext :: p.ints, ∀ q ∈ r, left ≤ q.x ∧ q.x ≤ right ∧ bot ≤ q.y ∧ q.y ≤ top)
    {n : Nat} (hn : 0 < n) :
    rasterArea dbg srt left right bot top n p = some (|ringArea p.ext| - (p.ints.map fun r => |ringArea r|).sum) := by
  obtain ⟨out, h1, h2, h3⟩ := pieces_area dbg srt h
  have hv := C52_vertices h1
  obtain ⟨bs, g1, -, g3⟩ := mapM_some_map (f := MonoPoly.rasterArea left right bot top n) (g := id) (l := out)
    (h := fun m => areaUnder m.top - areaUnder m.bot) (P := fun _ _ => True) fun m hm => by
      refine ⟨_, monoPoly_rasterArea (h2 m hm).1 (h2 m hm).2 hc hn fun q hq => ?_, trivial, rfl⟩
      obtain ⟨r, hr, hqr⟩ := hv m hm q hq
      exact hbox r hr q hqr
  rw [List.map_id] at g3
  unfold rasterArea
  simp only [h1, Option.bind_eq_bind, Option.bind_some, g1]
  rw [g3, h3]
  rfl

/-- **C66.** With the bounds of `cross_bounds` instead: for every piece of a valid polygon, the sum over the columns of the swept width
times the height between the highest bottom and the lowest top is at most the area of the piece, which is at most the area of all the
cells in the ranges of rows; so for the polygon. No assertion fails, in particular not the one that in every column the lower bound is at
most the upper bound. (`verify_scanner_bounds`, up to line 147.) -/
theorem C66_raster_bounds (dbg : Bool) (srt : List (Event K) → List (Event K)) {p : Polygon K} (h : ValidPolygon p.ext p.ints)
    {left right bot top : K} (hc : bot < top) (hbox : ∀ r ∈ p.ext :: p.ints, ∀ q ∈ r, left ≤ q.x ∧ q.x ≤ right ∧ bot ≤ q.y ∧ q.y ≤ top)
    {n : Nat} (hn : 0 < n) :
    ∃ out, monotoneChains dbg srt p = some out ∧
      (∀ m ∈ out, ∃ ring lb ub, m.intoPolygon = some ring ∧ m.rasterBounds left right bot top n = some (lb, ub) ∧
        0 ≤ lb ∧ lb ≤ |ringArea ring| ∧ |ringArea ring| ≤ ub) ∧
      ∃ lb ub, rasterBounds dbg srt left right bot top n p = some (lb, ub) ∧ 0 ≤ lb ∧
        lb ≤ |ringArea p.ext| - (p.ints.map fun r => |ringArea r|).sum ∧
        |ringArea p.ext| - (p.ints.map fun r => |ringArea r|).sum ≤ ub := by
  obtain ⟨out, h1, h2, h3⟩ := pieces_area dbg srt h
  have hv := C52_vertices h1
  have piece : ∀ m ∈ out, _ := fun m hm => monoPoly_rasterBounds (h2 m hm).1 (h2 m hm).2 hc hn fun q hq => by
    obtain ⟨r, hr, hqr⟩ := hv m hm q hq
    exact hbox r hr q hqr
  refine ⟨out, h1, fun m hm => ?_, ?_⟩
  · obtain ⟨ring, e1, -, -, -, -, e2, -⟩ := C43_into_polygon m (h2 m hm).1
    obtain ⟨lb, ub, k1, k0, k2, k3⟩ := piece m hm
    have hab : |ringArea ring| = areaUnder m.top - areaUnder m.bot := by
      have := (area_between (h2 m hm).1 (h2 m hm).2).1
      rw [e2, abs_of_nonpos (by linarith)]
      ring
    exact ⟨ring, lb, ub, e1, k1, k0, by rw [hab]; exact k2, by rw [hab]; exact k3⟩
  · obtain ⟨bs, g1, g2, -⟩ := mapM_some_map (f := MonoPoly.rasterBounds left right bot top n) (g := fun _ => ()) (l := out)
      (h := fun _ => ()) (P := fun m b => 0 ≤ b.1 ∧ b.1 ≤ areaUnder m.top - areaUnder m.bot ∧ areaUnder m.top - areaUnder m.bot ≤ b.2)
      fun m hm => by
        obtain ⟨lb, ub, k1, k0, k2, k3⟩ := piece m hm
        exact ⟨(lb, ub), k1, ⟨k0, k2, k3⟩, rfl⟩
    refine ⟨(bs.map Prod.fst).sum, (bs.map Prod.snd).sum, ?_, ?_⟩
    · unfold rasterBounds
      simp only [h1, Option.bind_eq_bind, Option.bind_some, g1]
      rfl
    · rw [show |ringArea p.ext| - (p.ints.map fun r => |ringArea r|).sum = polygonArea p from rfl, ← h3]
      clear h1 h2 h3 hv piece g1
      induction g2 with
      | nil => simp
      | cons hab _ ih =>
        obtain ⟨i0, i1, i2⟩ := ih
        simp only [List.map_cons, List.sum_cons]
        refine ⟨add_nonneg hab.1 i0, add_le_add hab.2.1 i1, add_le_add hab.2.2 i2⟩

/-! ## Examples -/

/-- The hypotheses of C65 and C66 are met by the polygon with a hole of `Props/Monotone.lean`, and a box around it. -/
example : ValidPolygon Demo.outer [Demo.hole] ∧
    (∀ r ∈ Demo.outer :: [Demo.hole], ∀ q ∈ r, (-1 : ℚ) ≤ q.x ∧ q.x ≤ 11 ∧ -3 ≤ q.y ∧ q.y ≤ 9) ∧
    rasterArea true id (-1 : ℚ) 11 (-3) 9 5 ⟨Demo.outer, [Demo.hole]⟩ = some 53 :=
  ⟨Demo.valid, by decide +kernel, by decide +kernel⟩

example : (rasterBounds true id (-1 : ℚ) 11 (-3) 9 5 ⟨Demo.outer, [Demo.hole]⟩).map (fun b => decide (0 < b.1 ∧ b.1 < 53 ∧ 53 < b.2)) = some true := by
  decide +kernel

/-- The last check of `verify_scanner_bounds` (line 153), that the bounds differ by at most `2 * cell_area * num_slices * num_mpolys`, is not
a property of all polygons: here the one piece has three teeth, and meets all the cells in every column. -/
example : ∃ (p : Polygon ℚ) (lb ub : ℚ), ValidPolygon p.ext p.ints ∧ (monotoneChains true id p).map List.length = some 1 ∧
    rasterBounds true id 0 6 0 6 3 p = some (lb, ub) ∧ 2 * (2 * 2) * 3 * 1 < ub - lb :=
  ⟨⟨[⟨0, 0⟩, ⟨6, 0⟩, ⟨5, 6⟩, ⟨4, 1⟩, ⟨3, 6⟩, ⟨2, 1⟩, ⟨1, 6⟩, ⟨0, 0⟩], []⟩, 2, 36, validPolygon_of_check (by decide +kernel), by decide +kernel,
    by decide +kernel, by decide +kernel⟩

end GeoCrossings
