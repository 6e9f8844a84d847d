import Verif.Props.BopGeneral
import Verif.Props.RasterCells

/-! # C69: from two multipolygons to the raster of their union, intersection or difference -/
set_option linter.unusedSectionVars false
namespace GeoCrossings
open Spec BoolOp GeoCrossings.Monotone MeasureTheory

open Classical in
/-- **C69.** If no three edges of the operands have a point in common and no two edges of one operand cross: `boolean_op` returns polygons,
`monotone_chains` decomposes them, `scan_lines` returns a scanner for every piece, and `cross_area` up to `b`, from scanners moved up to `a ≤ b`,
adds to the `j`-th entry of the array, in total over the pieces, the Lebesgue measure of the set of the points in the column from `a` to `b` and in
the `j`-th row for which the truth table of the operation holds. -/
theorem C69_boolean_raster {ty : OpType} (hty : ty ≠ .xor) {A B : List (Polygon ℝ)} (ha : ∀ p ∈ A, ∀ ring ∈ ringsOf p, Closed ring)
    (hb : ∀ p ∈ B, ∀ ring ∈ ringsOf p, Closed ring)
    (h3 : ∀ e₁ ∈ edgePairs (A ++ B), ∀ e₂ ∈ edgePairs (A ++ B), ∀ e₃ ∈ edgePairs (A ++ B), e₁ ≠ e₂ → e₁ ≠ e₃ → e₂ ≠ e₃ →
      ∀ v, ¬ (OnSeg e₁.1 e₁.2 v ∧ OnSeg e₂.1 e₂.2 v ∧ OnSeg e₃.1 e₃.2 v))
    (hx : ∀ mp ∈ [A, B], ∀ e₁ ∈ edgePairs mp, ∀ e₂ ∈ edgePairs mp, e₁ ≠ e₂ → ∀ v, OnSeg e₁.1 e₁.2 v → OnSeg e₂.1 e₂.2 v →
      v ∈ [e₁.1, e₁.2, e₂.1, e₂.2])
    (nextAfter : ℝ → ℝ) (choice : Nat → Nat) {srt srt' : List (Crossing ℝ Nat) → List (Crossing ℝ Nat)} (hst : Stable compareCrossings srt ∨ NoOverlap ((A ++ B).flatMap Spec.ringsOf))
    (dbg : Bool) (srt'' : List (Event ℝ) → List (Event ℝ)) :
    ∃ N polys outs, (∀ fuel, N ≤ fuel → booleanOp A B ty nextAfter choice srt srt' fuel = some polys) ∧
      polys.mapM (monotoneChains dbg srt'') = some outs ∧
      (∀ a, ∀ m ∈ outs.flatten, ∃ s, m.scanLines a = some s ∧ ScannedTo a m s) ∧
      ∀ (a b : ℝ) (scs : List (Scanner ℝ)), a ≤ b → List.Forall₂ (ScannedTo a) outs.flatten scs →
        ∀ (cmin cmax : ℝ) (n : Nat), cmin < cmax → 0 < n →
        ∃ res, scs.mapM (fun s => s.crossArea b cmin cmax (List.replicate n 0)) = some res ∧
          List.Forall₂ (ScannedTo b) outs.flatten (res.map Prod.fst) ∧
          ∀ j < n, (res.map fun r => r.2.getD j 0).sum =
            (volume {q : ℝ × ℝ | inResult ty (decide (EvenOdd (A.flatMap ringsOf) ⟨q.1, q.2⟩)) (decide (EvenOdd (B.flatMap ringsOf) ⟨q.1, q.2⟩)) = true ∧
              (a ≤ q.1 ∧ q.1 < b) ∧ InRow cmin cmax n j q.2}).toReal := by
  obtain ⟨N, polys, h1, -, -, h2⟩ := C68_general_position (srt' := srt') hty ha hb h3 hx nextAfter choice hst
  obtain ⟨outs, pieces, k1, k2, k3, -, k5⟩ := h2 dbg srt''
  refine ⟨N, polys, outs, h1, k1, fun a m hm => scanLines_scannedTo (k3 m hm).1 a, fun a b scs hab hs cmin cmax n hc hn => ?_⟩
  obtain ⟨res, r1, r2, r3⟩ := cells_of (P := fun r => inResult ty (decide (EvenOdd (A.flatMap ringsOf) r)) (decide (EvenOdd (B.flatMap ringsOf) r)) = true)
    k2 k3 (fun r => by rw [k5 r]; congr!) hab hs hc hn
  refine ⟨res, r1, r2, fun j hj => ?_⟩
  rw [r3 j hj]

/-! ## Examples -/

/-- A point with rational coordinates, as a real one. -/
def realPt (p : Pt ℚ) : Pt ℝ := ⟨p.x, p.y⟩
/-- See `realPt`. -/
def realPolys (a : List (Polygon ℚ)) : List (Polygon ℝ) := a.map fun p => ⟨p.ext.map realPt, p.ints.map fun r => r.map realPt⟩

theorem ringsOf_real (a : List (Polygon ℚ)) : (realPolys a).flatMap ringsOf = (a.flatMap ringsOf).map fun r => r.map realPt := by
  unfold realPolys Spec.ringsOf
  rw [List.flatMap_map, List.map_flatMap]
  rfl

theorem edgePairs_real (a : List (Polygon ℚ)) : edgePairs (realPolys a) = (edgePairs a).map (Prod.map realPt realPt) := by
  unfold edgePairs
  rw [ringsOf_real, List.flatMap_map, List.map_flatMap]
  refine List.flatMap_congr fun r _ => ?_
  rw [← List.map_tail, List.zip_map]

theorem boxApart_real (e₁ e₂ e₃ : Pt ℚ × Pt ℚ) :
    boxApart (Prod.map realPt realPt e₁) (Prod.map realPt realPt e₂) (Prod.map realPt realPt e₃) = boxApart e₁ e₂ e₃ := by
  unfold boxApart realPt
  simp only [Prod.map]
  norm_cast

theorem boxEnd_real (e₁ e₂ : Pt ℚ × Pt ℚ) : boxEnd (Prod.map realPt realPt e₁) (Prod.map realPt realPt e₂) = boxEnd e₁ e₂ := by
  unfold boxEnd
  simp only [Prod.map, List.exists_mem_cons_iff, List.not_mem_nil, false_and, exists_false, or_false, realPt, ← Rat.cast_max, ← Rat.cast_min, Rat.cast_inj,
    Rat.cast_lt]

/-- Two overlapping squares meet the assumptions of C69. -/
example : (∀ p ∈ realPolys bigS, ∀ ring ∈ ringsOf p, Closed ring) ∧ (∀ p ∈ realPolys overS, ∀ ring ∈ ringsOf p, Closed ring) ∧
    (∀ e₁ ∈ edgePairs (realPolys bigS ++ realPolys overS), ∀ e₂ ∈ edgePairs (realPolys bigS ++ realPolys overS),
      ∀ e₃ ∈ edgePairs (realPolys bigS ++ realPolys overS), e₁ ≠ e₂ → e₁ ≠ e₃ → e₂ ≠ e₃ →
      ∀ v, ¬ (OnSeg e₁.1 e₁.2 v ∧ OnSeg e₂.1 e₂.2 v ∧ OnSeg e₃.1 e₃.2 v)) ∧
    (∀ mp ∈ [realPolys bigS, realPolys overS], ∀ e₁ ∈ edgePairs mp, ∀ e₂ ∈ edgePairs mp, e₁ ≠ e₂ → ∀ v, OnSeg e₁.1 e₁.2 v → OnSeg e₂.1 e₂.2 v →
      v ∈ [e₁.1, e₁.2, e₂.1, e₂.2]) := by
  refine ⟨by simp [realPolys, bigS, Spec.ringsOf, Spec.Closed], by simp [realPolys, overS, Spec.ringsOf, Spec.Closed], ?_, ?_⟩
  · have e : realPolys bigS ++ realPolys overS = realPolys (bigS ++ overS) := by unfold realPolys; rw [List.map_append]
    rw [e, edgePairs_real]
    intro e₁ m1 e₂ m2 e₃ m3 n1 n2 n3
    obtain ⟨e₁, k1, rfl⟩ := List.mem_map.1 m1
    obtain ⟨e₂, k2, rfl⟩ := List.mem_map.1 m2
    obtain ⟨e₃, k3, rfl⟩ := List.mem_map.1 m3
    refine boxApart_spec ?_
    rw [boxApart_real]
    exact (by decide +kernel : ∀ e₁ ∈ edgePairs (bigS ++ overS), ∀ e₂ ∈ edgePairs (bigS ++ overS), ∀ e₃ ∈ edgePairs (bigS ++ overS),
      e₁ ≠ e₂ → e₁ ≠ e₃ → e₂ ≠ e₃ → boxApart e₁ e₂ e₃ = true) e₁ k1 e₂ k2 e₃ k3 (fun k => n1 (by rw [k])) (fun k => n2 (by rw [k])) (fun k => n3 (by rw [k]))
  · have key : ∀ a ∈ [bigS, overS], ∀ e₁ ∈ edgePairs a, ∀ e₂ ∈ edgePairs a, e₁ ≠ e₂ → boxEnd e₁ e₂ = true := by decide +kernel
    intro mp hm
    obtain ⟨a, ha, rfl⟩ : ∃ a ∈ [bigS, overS], realPolys a = mp := (List.mem_map (f := realPolys) (l := [bigS, overS])).1 hm
    rw [edgePairs_real]
    intro e₁ m1 e₂ m2 n1
    obtain ⟨e₁, k1, rfl⟩ := List.mem_map.1 m1
    obtain ⟨e₂, k2, rfl⟩ := List.mem_map.1 m2
    refine boxEnd_spec ?_
    rw [boxEnd_real]
    exact key a ha e₁ k1 e₂ k2 fun k => n1 (by rw [k])

/-- The column `0 ≤ x < 4` of the difference of these squares, in two rows from 0 to 6, over the rationals: an area of 12 in the lower row and of 9
in the upper one, each the total over two pieces. -/
example : ((booleanOp bigS overS .difference id (fun _ => 0) id id 60).bind fun polys =>
    (polys.mapM (monotoneChains true id)).bind fun outs => outs.flatten.mapM fun m => do
      let s ← m.scanLines 0
      let (_, col) ← s.crossArea 4 0 6 (List.replicate 2 0)
      pure col) = some [[12, 9 / 2], [0, 9 / 2]] := by decide +kernel

end GeoCrossings
