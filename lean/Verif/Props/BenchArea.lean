import Verif.Lemmas.ValidMap
import Verif.Props.RasterCells
import Verif.Props.AreaMeasure
import Mathlib.Data.Rat.Floor

/-!
# The areas computed by the benchmark (C92)

`our_area` fills an array with the areas of the cells of a raster.
-/
set_option linter.unusedSectionVars false
namespace GeoCrossings
open Spec GeoCrossings.Monotone MeasureTheory

/-- The part of row `j` of the trapezoids. -/
noncomputable def rowSum (cmin cmax : ℝ) (n j : Nat) (ts : List (Trapz ℝ)) : ℝ :=
  (ts.map fun t => (volume (bandSet t (rowLine cmin cmax n j) (rowLine cmin cmax n (j + 1)))).toReal).sum

theorem crossArea_swept {m : MonoPoly ℝ} (hm : MonotonePair m.top m.bot) (ha : NowhereBelow m.top m.bot) {a b : ℝ} (hab : a ≤ b)
    {s : Scanner ℝ} (hs : ScannedTo a m s) {cmin cmax : ℝ} (hc : cmin < cmax) {row : List ℝ} (hn : 0 < row.length) :
    ∃ s' ts row', s.crossArea b cmin cmax row = some (s', row') ∧ ScannedTo b m s' ∧ Swept a b m ts ∧ row'.length = row.length ∧
      ∀ j < row.length, row'.getD j 0 = row.getD j 0 + rowSum cmin cmax row.length j ts := by
  obtain ⟨s1, ts1, arr1, f1, f2, f3, -⟩ := crossArea_scanned hm ha hab hs hc (n := 1) one_pos
  obtain ⟨ts0, p, e, h1, h2, h3, h4⟩ := id hs
  have hne : row ≠ [] := by rintro rfl; simp at hn
  obtain ⟨s', ts, row', g1, g2, g3, g4, -⟩ := C49_lebesgue hm ha h1 b hc hne
  obtain ⟨-, s'', ts', k1, k2, k3, -, k5⟩ := C45_contiguous hm h2 h3 h1 b
  rw [g1, Option.some.injEq, Prod.mk.injEq] at k1
  obtain ⟨rfl, rfl⟩ := k1
  have e1 : s1 = s' := by
    have := f1
    unfold Scanner.crossArea at this
    rw [g1] at this
    simp only [Option.bind_eq_bind, Option.bind_some, Option.bind_eq_some_iff] at this
    obtain ⟨arr', -, h⟩ := this
    exact (Prod.mk.inj (Option.some.inj h)).1.symm
  subst e1
  obtain ⟨ts2, p2, e2, j1, j2, j3, j4⟩ := id f2
  rw [h2] at j2
  rw [h3] at j3
  obtain rfl := Option.some.inj j2
  obtain rfl := Option.some.inj j3
  refine ⟨s1, ts, row', g2, f2, ⟨hm, ha, ⟨p, e, h2, h3, ?_⟩, fun t ht => (C46_follows_and_area hm k2).1 t (by simp [ht])⟩, g3, fun j hj => ?_⟩
  · rw [← h4, ← j4]; exact k3
  · have := g4 j (row.getD j 0) (by simp [hj])
    rw [List.getD_eq_getElem?_getD, this]
    rfl

/-- The array has `H` rows of `W` entries. -/
def GridShape (H W : Nat) (arr : List (List ℝ)) : Prop := arr.length = H ∧ ∀ i < H, (arr.getD i []).length = W

/-- The loop over the first `k` columns. -/
theorem areaRows_spec {m : MonoPoly ℝ} (hm : MonotonePair m.top m.bot) (ha : NowhereBelow m.top m.bot) {left w cmin cmax : ℝ} (hw : 0 ≤ w)
    (hc : cmin < cmax) {H W : Nat} (hW : 0 < W) {arr : List (List ℝ)} (hsh : GridShape H W arr) {s : Scanner ℝ} (hs : ScannedTo left m s) :
    ∀ k ≤ H, ∃ s' arr', (List.range k).foldlM (areaRow left w cmin cmax) (s, arr) = some (s', arr') ∧ ScannedTo (left + w * ((k - 1 : Nat) : ℝ)) m s' ∧
      GridShape H W arr' ∧ (∀ i, k ≤ i → arr'[i]? = arr[i]?) ∧
      ∀ i < k, ∃ ts, Swept (left + w * ((i - 1 : Nat) : ℝ)) (left + w * (i : ℝ)) m ts ∧
        ∀ j < W, (arr'.getD i []).getD j 0 = (arr.getD i []).getD j 0 + rowSum cmin cmax W j ts := by
  intro k
  induction k with
  | zero => exact fun _ => ⟨s, arr, rfl, by simpa using hs, hsh, fun _ _ => rfl, fun i hi => absurd hi (Nat.not_lt_zero _)⟩
  | succ k ih =>
    intro hk
    obtain ⟨s', arr', h1, h2, h3, h4, h5⟩ := ih (by omega)
    have hkl : k < arr'.length := by rw [h3.1]; omega
    have hlen : arr'[k].length = W := by
      have := h3.2 k (by omega)
      simpa [hkl] using this
    have hle : left + w * ((k - 1 : Nat) : ℝ) ≤ left + w * (k : ℝ) := by
      have : ((k - 1 : Nat) : ℝ) ≤ (k : ℝ) := by exact_mod_cast Nat.sub_le k 1
      have := mul_le_mul_of_nonneg_left this hw
      linarith
    obtain ⟨s'', ts, row', g1, g2, g3, g4, g5⟩ := crossArea_swept hm ha hle h2 hc (row := arr'[k]) (by omega)
    rw [hlen] at g4 g5
    refine ⟨s'', arr'.set k row', ?_, by simpa using g2, ⟨by rw [List.length_set]; exact h3.1, fun i hi => ?_⟩, fun i hi => ?_, fun i hi => ?_⟩
    · rw [List.range_succ, List.foldlM_append, h1]
      simp only [Option.bind_eq_bind, Option.bind_some, List.foldlM_cons, List.foldlM_nil]
      unfold areaRow
      simp only [Option.bind_eq_bind, List.getElem?_eq_getElem hkl, Option.bind_some, g1]
      rfl
    · by_cases e : i = k
      · subst e; simp [hkl, g4]
      · have := h3.2 i hi
        simpa [List.getD_eq_getElem?_getD, List.getElem?_set, Ne.symm e] using this
    · rw [List.getElem?_set_ne (by omega)]; exact h4 i (by omega)
    · by_cases e : i = k
      · subst e
        refine ⟨ts, g3, fun j hj => ?_⟩
        have e2 : arr.getD i [] = arr'[i] := by
          rw [List.getD_eq_getElem?_getD, ← h4 i le_rfl]; simp [hkl]
        rw [e2, ← g5 j hj]
        simp [hkl]
      · obtain ⟨ts, k1, k2⟩ := h5 i (by omega)
        refine ⟨ts, k1, fun j hj => ?_⟩
        rw [← k2 j hj]
        simp [List.getD_eq_getElem?_getD, Ne.symm e]

/-- The loop over the pieces. -/
theorem areaPieces_spec {left w cmin cmax : ℝ} (hw : 0 ≤ w) (hc : cmin < cmax) {H W : Nat} (hW : 0 < W) : ∀ {out : List (MonoPoly ℝ)} {arr : List (List ℝ)},
    (∀ m ∈ out, MonotonePair m.top m.bot ∧ NowhereBelow m.top m.bot) → GridShape H W arr →
    ∃ arr', out.foldlM (areaPiece left w cmin cmax H) arr = some arr' ∧ GridShape H W arr' ∧
      ∀ i < H, ∃ tss, List.Forall₂ (Swept (left + w * ((i - 1 : Nat) : ℝ)) (left + w * (i : ℝ))) out tss ∧
        ∀ j < W, (arr'.getD i []).getD j 0 = (arr.getD i []).getD j 0 + rowSum cmin cmax W j tss.flatten
  | [], arr, _, hsh => ⟨arr, rfl, hsh, fun i _ => ⟨[], .nil, fun j _ => by simp [rowSum]⟩⟩
  | m :: out, arr, h, hsh => by
    obtain ⟨hm, ha⟩ := h m (by simp)
    obtain ⟨s, s1, s2⟩ := scanLines_scannedTo hm left
    obtain ⟨s', arr1, h1, -, h3, -, h5⟩ := areaRows_spec hm ha hw hc hW hsh s2 H le_rfl
    obtain ⟨arr2, k1, k2, k3⟩ := areaPieces_spec hw hc hW (fun m hm => h m (by simp [hm])) h3 (out := out)
    refine ⟨arr2, ?_, k2, fun i hi => ?_⟩
    · rw [List.foldlM_cons]
      have : areaPiece left w cmin cmax H arr m = some arr1 := by
        unfold areaPiece
        simp only [Option.bind_eq_bind, s1, Option.bind_some, h1]
        rfl
      rw [this]
      exact k1
    · obtain ⟨ts, g1, g2⟩ := h5 i hi
      obtain ⟨tss, g3, g4⟩ := k3 i hi
      refine ⟨ts :: tss, .cons g1 g3, fun j hj => ?_⟩
      rw [g4 j hj, g2 j hj, List.flatten_cons]
      unfold rowSum
      rw [List.map_append, List.sum_append, add_assoc]

/-! ## Back to the coordinates of the polygon -/

section
variable {K : Type} [Field K] [LinearOrder K] [IsStrictOrderedRing K]

/-- The rectangle with its coordinates swapped. -/
def Rect.swapXY (r : Rect K) : Rect K := ⟨r.minY, r.maxY, r.minX, r.maxX⟩

theorem boundingRect_swap (p : Polygon K) : p.swapXY.boundingRect = p.boundingRect.map Rect.swapXY := by
  unfold Polygon.boundingRect Polygon.swapXY
  cases p.ext with
  | nil => rfl
  | cons c cs =>
    simp only [List.map_cons, Option.map_some, Option.some.injEq]
    suffices ∀ r : Rect K, (cs.map fun c => (⟨c.y, c.x⟩ : Pt K)).foldl (fun r q => (⟨min r.minX q.x, max r.maxX q.x, min r.minY q.y, max r.maxY q.y⟩ : Rect K)) r.swapXY =
        (cs.foldl (fun r q => (⟨min r.minX q.x, max r.maxX q.x, min r.minY q.y, max r.maxY q.y⟩ : Rect K)) r).swapXY from this ⟨c.x, c.x, c.y, c.y⟩
    induction cs with
    | nil => intro r; rfl
    | cons d cs ih => intro r; exact ih ⟨min r.minX d.x, max r.maxX d.x, min r.minY d.y, max r.maxY d.y⟩

end

theorem ae_seg (a b : Pt ℝ) : ∀ᵐ q : ℝ × ℝ, a ≠ b → ¬ OnSeg a b ⟨q.1, q.2⟩ := by
  by_cases h : a.x = b.x
  · filter_upwards [ae_x a.x] with q hq _ ho
    obtain ⟨t, -, -, h1, -⟩ := ho
    simp only at h1
    rw [h, sub_self, mul_zero, add_zero] at h1
    exact hq (h1.trans h.symm)
  · have hm : Measurable fun x : ℝ => a.y + (x - a.x) / (b.x - a.x) * (b.y - a.y) := by fun_prop
    filter_upwards [ae_graph hm] with q hq _ ho
    obtain ⟨t, -, -, h1, h2⟩ := ho
    simp only at h1 h2
    apply hq
    have hd : b.x - a.x ≠ 0 := sub_ne_zero.2 (Ne.symm h)
    rw [h1, h2]
    field_simp
    ring

/-- Almost no point is on the sides. -/
theorem ae_sides {rings : List (List (Pt ℝ))} (hne : ∀ e ∈ rings.flatMap ringEdges, e.1 ≠ e.2) : ∀ᵐ q : ℝ × ℝ, ¬ OnRings rings ⟨q.1, q.2⟩ := by
  have h : ∀ᵐ q : ℝ × ℝ, ∀ e ∈ rings.flatMap ringEdges, e.1 ≠ e.2 → ¬ OnSeg e.1 e.2 ⟨q.1, q.2⟩ :=
    (ae_ball_iff (μ := (volume : Measure (ℝ × ℝ))) (S := {e | e ∈ rings.flatMap ringEdges}) (List.finite_toSet _).countable
      (p := fun (q : ℝ × ℝ) (e : Pt ℝ × Pt ℝ) _ => e.1 ≠ e.2 → ¬ OnSeg e.1 e.2 (⟨q.1, q.2⟩ : Pt ℝ))).2 fun e _ => ae_seg e.1 e.2
  filter_upwards [h] with q hq ho
  obtain ⟨e, he, k⟩ := onRings_edges.1 ho
  exact hq e he (hne e he) k

theorem Spec.ValidPolygon.edge_ne {ext : List (Pt ℝ)} {holes : List (List (Pt ℝ))} (h : ValidPolygon ext holes) :
    ∀ e ∈ (ext :: holes).flatMap ringEdges, e.1 ≠ e.2 := by
  intro e he
  obtain ⟨r, hr, he⟩ := List.mem_flatMap.1 he
  obtain ⟨h1, h2⟩ := h.closed r hr
  exact es_ne h1 h2 ((List.nodup_flatMap.1 h.distinct).1 r hr) he

/-- The measure of a set of points inside the polygon with swapped coordinates. -/
theorem volume_swap {p : Polygon ℝ} (h : ValidPolygon p.ext p.ints) (Q : ℝ → ℝ → Prop) :
    volume {q : ℝ × ℝ | EvenOdd (p.swapXY.ext :: p.swapXY.ints) ⟨q.1, q.2⟩ ∧ Q q.1 q.2} =
      volume {q : ℝ × ℝ | EvenOdd (p.ext :: p.ints) ⟨q.1, q.2⟩ ∧ Q q.2 q.1} := by
  have hpre := (Measure.measurePreserving_swap (μ := (volume : Measure ℝ)) (ν := (volume : Measure ℝ))).measure_preimage_emb
    MeasurableEquiv.prodComm.measurableEmbedding {q : ℝ × ℝ | EvenOdd (p.swapXY.ext :: p.swapXY.ints) ⟨q.1, q.2⟩ ∧ Q q.1 q.2}
  rw [Measure.volume_eq_prod, ← hpre, ← Measure.volume_eq_prod]
  refine measure_congr ?_
  filter_upwards [ae_sides h.edge_ne] with q hq
  apply propext
  show EvenOdd (p.swapXY.ext :: p.swapXY.ints) ⟨q.2, q.1⟩ ∧ Q q.2 q.1 ↔ EvenOdd (p.ext :: p.ints) ⟨q.1, q.2⟩ ∧ Q q.2 q.1
  have := C90_inside (swapMap : Affine ℝ) (R := p.ext :: p.ints) (fun l hl => (h.closed l hl).1) hq
  rw [swapMap_app] at this
  rw [← this, swapXY_eq]
  rfl

/-- **C92.** On a valid polygon, `our_area` returns an array of `height` rows of `width` entries. Let the bounding rectangle be cut into
`height` rows and `width` columns. Entry `(i, j)` of the array is the Lebesgue measure of the part of the polygon in the cell of row `i - 1` and
column `j`, not in that of row `i`; the entries for `i = 0` are zero. -/
theorem C92_area (dbg : Bool) (srt : List (Event ℝ) → List (Event ℝ)) {p : Polygon ℝ} (h : ValidPolygon p.ext p.ints) {width height : Nat} (hw : 0 < width) :
    ∃ b arr, p.boundingRect = some b ∧ ourArea dbg srt p width height = some arr ∧ arr.length = height ∧ (∀ row ∈ arr, row.length = width) ∧
      (0 < height → ∀ j < width, (arr.getD 0 []).getD j 0 = 0) ∧
      ∀ i, i + 1 < height → ∀ j < width, (arr.getD (i + 1) []).getD j 0 =
        (volume {q : ℝ × ℝ | EvenOdd (p.ext :: p.ints) ⟨q.1, q.2⟩ ∧ InRow b.minY b.maxY height i q.2 ∧ InRow b.minX b.maxX width j q.1}).toReal := by
  obtain ⟨b, hb, hbx, hby, -⟩ := boundingRect_valid h
  have hv : ValidPolygon p.swapXY.ext p.swapXY.ints := by
    rw [swapXY_eq]; exact h.image swapMap
  obtain ⟨out, rings, h1, h2, h3, -, -, h6⟩ := C51_monotone_chains dbg srt hv
  set w := (b.maxY - b.minY) / (height : ℝ) with hwd
  have hw0 : 0 ≤ w := div_nonneg (by linarith) (Nat.cast_nonneg _)
  have hsh : GridShape height width (List.replicate height (List.replicate width (0 : ℝ))) := by
    refine ⟨by simp, fun i hi => ?_⟩
    simp [List.getD_eq_getElem?_getD, hi]
  obtain ⟨arr, k1, k2, k3⟩ := areaPieces_spec (left := b.minY) hw0 hbx hw h3 hsh
  have key : ∀ i < height, ∀ j < width, (arr.getD i []).getD j 0 =
      (volume {q : ℝ × ℝ | EvenOdd (p.ext :: p.ints) ⟨q.1, q.2⟩ ∧ (b.minY + w * ((i - 1 : Nat) : ℝ) ≤ q.2 ∧ q.2 < b.minY + w * (i : ℝ)) ∧
        InRow b.minX b.maxX width j q.1}).toReal := by
    intro i hi j hj
    obtain ⟨tss, g1, g2⟩ := k3 i hi
    rw [g2 j hj]
    have z : ((List.replicate height (List.replicate width (0 : ℝ))).getD i []).getD j 0 = 0 := by
      simp [List.getD_eq_getElem?_getD, hi, hj]
    rw [z, zero_add]
    unfold rowSum
    rw [cell_measure (P := EvenOdd (p.swapXY.ext :: p.swapXY.ints)) _ _ g1 h2 (fun r => by rw [h6 r]; congr)]
    congr 1
    exact volume_swap h fun x y => (b.minY + w * ((i - 1 : Nat) : ℝ) ≤ x ∧ x < b.minY + w * (i : ℝ)) ∧ InRow b.minX b.maxX width j y
  refine ⟨b, arr, hb, ?_, k2.1, fun row hr => ?_, fun h0 j hj => ?_, fun i hi j hj => ?_⟩
  · unfold ourArea
    simp only [Option.bind_eq_bind, boundingRect_swap, hb, Option.map_some, Option.bind_some, h1]
    exact k1
  · obtain ⟨i, hi, rfl⟩ := List.getElem_of_mem hr
    have := k2.2 i (by rw [← k2.1]; exact hi)
    simpa [hi] using this
  · rw [key 0 h0 j hj]
    have : {q : ℝ × ℝ | EvenOdd (p.ext :: p.ints) ⟨q.1, q.2⟩ ∧ (b.minY + w * ((0 - 1 : Nat) : ℝ) ≤ q.2 ∧ q.2 < b.minY + w * ((0 : Nat) : ℝ)) ∧
        InRow b.minX b.maxX width j q.1} = ∅ := by
      ext q
      simp only [Set.mem_ofPred_eq, Set.mem_empty_iff_false, iff_false]
      rintro ⟨-, ⟨k, k'⟩, -⟩
      simp at k k'
      linarith
    rw [this]
    simp
  · rw [key (i + 1) hi j hj]
    unfold InRow rowLine
    simp only [Nat.add_sub_cancel, mul_comm w]
    rfl

/-! ## What is lost -/

theorem sum_eq_range (l : List ℝ) : l.sum = ∑ i ∈ Finset.range l.length, l.getD i 0 := by
  induction l with
  | nil => simp
  | cons a l ih => rw [List.length_cons, Finset.sum_range_succ', List.sum_cons, ih]; simp [add_comm]

theorem grid_sum {H W : Nat} {arr : List (List ℝ)} (h : arr.length = H) (h' : ∀ row ∈ arr, row.length = W) :
    (arr.map List.sum).sum = ∑ i ∈ Finset.range H, ∑ j ∈ Finset.range W, (arr.getD i []).getD j 0 := by
  rw [sum_eq_range, List.length_map, h]
  refine Finset.sum_congr rfl fun i hi => ?_
  have hi : i < arr.length := by rw [h]; exact Finset.mem_range.1 hi
  have hl := h' arr[i] (List.getElem_mem hi)
  simp only [List.getD_eq_getElem?_getD, List.getElem?_map, List.getElem?_eq_getElem hi, Option.map_some, Option.getD_some]
  rw [sum_eq_range, hl]
  simp only [List.getD_eq_getElem?_getD]

/-- The measures of the rows of a set add up. -/
theorem rows_add {S : Set (ℝ × ℝ)} (hS : volume S ≠ ⊤) {f : ℝ × ℝ → ℝ} (hf : Measurable f) {c d : ℝ} (hcd : c ≤ d) (n : Nat) (hb : ∀ q ∈ S, c ≤ f q) (k : Nat) :
    ∑ i ∈ Finset.range k, (volume (S ∩ {q | InRow c d n i (f q)})).toReal = (volume (S ∩ {q | f q < rowLine c d n k})).toReal := by
  induction k with
  | zero =>
    have : S ∩ {q | f q < rowLine c d n 0} = ∅ := by
      ext q
      simp only [Set.mem_inter_iff, Set.mem_ofPred_eq, Set.mem_empty_iff_false, iff_false, rowLine, Nat.cast_zero, zero_mul, add_zero, not_and, not_lt]
      exact hb q
    rw [this]
    simp
  | succ k ih =>
    have hm : MeasurableSet {q | f q < rowLine c d n k} := measurableSet_lt hf measurable_const
    have hle : rowLine c d n k ≤ rowLine c d n (k + 1) := by
      unfold rowLine
      have : 0 ≤ (d - c) / (n : ℝ) := div_nonneg (by linarith) (Nat.cast_nonneg _)
      push_cast
      linarith
    have e1 : S ∩ {q | f q < rowLine c d n (k + 1)} ∩ {q | f q < rowLine c d n k} = S ∩ {q | f q < rowLine c d n k} := by
      ext q
      simp only [Set.mem_inter_iff, Set.mem_ofPred_eq]
      constructor
      · exact fun h => ⟨h.1.1, h.2⟩
      · exact fun h => ⟨⟨h.1, h.2.trans_le hle⟩, h.2⟩
    have e2 : (S ∩ {q | f q < rowLine c d n (k + 1)}) \ {q | f q < rowLine c d n k} = S ∩ {q | InRow c d n k (f q)} := by
      ext q
      simp only [Set.mem_inter_iff, Set.mem_sdiff, Set.mem_ofPred_eq, InRow, not_lt]
      tauto
    have := measure_inter_add_sdiff (μ := volume) (S ∩ {q | f q < rowLine c d n (k + 1)}) hm
    rw [e1, e2] at this
    rw [Finset.sum_range_succ, ih, ← this, ENNReal.toReal_add]
    · exact ne_top_of_le_ne_top hS (measure_mono Set.inter_subset_left)
    · exact ne_top_of_le_ne_top hS (measure_mono Set.inter_subset_left)

theorem evenOdd_range {K : Type} [Field K] [LinearOrder K] [IsStrictOrderedRing K] {rings : List (List (Pt K))} {x0 x1 y0 : K}
    (hb : ∀ l ∈ rings, ∀ q ∈ l, x0 ≤ q.x ∧ q.x ≤ x1 ∧ y0 ≤ q.y) {r : Pt K}
    (h : EvenOdd rings r) : x0 ≤ r.x ∧ r.x < x1 ∧ y0 ≤ r.y := by
  have : ∃ e ∈ rings.flatMap ringEdges, PassesBelow r e.1 e.2 := by
    by_contra hc
    push Not at hc
    unfold EvenOdd at h
    have : edgesBelow rings r = 0 := by
      unfold edgesBelow
      rw [List.sum_eq_zero]
      intro x hx
      obtain ⟨l, hl, rfl⟩ := List.mem_map.1 hx
      rw [List.countP_eq_zero]
      intro e he
      simpa using hc e (List.mem_flatMap.2 ⟨l, hl, he⟩)
    rw [this] at h
    exact absurd h (by decide)
  obtain ⟨e, he, h1, h2, y, h3, h4⟩ := this
  obtain ⟨l, hl, he⟩ := List.mem_flatMap.1 he
  have m := List.of_mem_zip (a := e.1) (b := e.2) he
  have b1 := hb l hl _ m.1
  have b2 := hb l hl _ (List.mem_of_mem_tail m.2)
  refine ⟨(le_min b1.1 b2.1).trans h1, h2.trans_le (max_le b1.2.1 b2.2.1), ?_⟩
  obtain ⟨t, t0, t1, -, h5⟩ := h4
  simp only at h5
  have : y0 ≤ y := by
    rw [h5]
    have k1 := mul_le_mul_of_nonneg_left b2.2.2 t0
    have k2 := mul_le_mul_of_nonneg_left b1.2.2 (sub_nonneg.2 t1)
    linarith
  linarith

theorem vertices_range {K : Type} [Field K] [LinearOrder K] [IsStrictOrderedRing K] {p : Polygon K} (h : ValidPolygon p.ext p.ints) {b : Rect K}
    (hbox : ∀ q ∈ p.ext, b.minX ≤ q.x ∧ q.x ≤ b.maxX ∧ b.minY ≤ q.y ∧ q.y ≤ b.maxY) :
    ∀ l ∈ p.ext :: p.ints, ∀ q ∈ l, b.minX ≤ q.x ∧ q.x ≤ b.maxX ∧ b.minY ≤ q.y := by
  have h0 : ∀ l ∈ [p.ext], ∀ q ∈ l, b.minX ≤ q.x ∧ q.x ≤ b.maxX ∧ b.minY ≤ q.y := by
    intro l hl q hq
    rw [List.mem_singleton.1 hl] at hq
    exact ⟨(hbox q hq).1, (hbox q hq).2.1, (hbox q hq).2.2.1⟩
  intro l hl q hq
  rcases List.mem_cons.1 hl with rfl | hl
  · exact h0 _ (by simp) q hq
  · have := evenOdd_range h0 (h.inside l hl q hq)
    exact ⟨this.1, this.2.1.le, this.2.2⟩

/-- **C92, the total.** The entries of the array that `our_area` returns add up to the area of the polygon less the area of its part in the last row
of the bounding rectangle. -/
theorem C92_total (dbg : Bool) (srt : List (Event ℝ) → List (Event ℝ)) {p : Polygon ℝ} (h : ValidPolygon p.ext p.ints) {width height : Nat} (hw : 0 < width)
    (hh : 0 < height) :
    ∃ b arr, p.boundingRect = some b ∧ ourArea dbg srt p width height = some arr ∧
      (arr.map List.sum).sum + (volume {q : ℝ × ℝ | EvenOdd (p.ext :: p.ints) ⟨q.1, q.2⟩ ∧ rowLine b.minY b.maxY height (height - 1) ≤ q.2}).toReal =
        |ringArea p.ext| - (p.ints.map fun r => |ringArea r|).sum := by
  obtain ⟨b, arr, h1, h2, h3, h4, h5, h6⟩ := C92_area dbg srt h (height := height) hw
  refine ⟨b, arr, h1, h2, ?_⟩
  obtain ⟨b', hb', hbx, hby, hbox⟩ := boundingRect_valid h
  rw [h1, Option.some.injEq] at hb'
  subst hb'
  have hall := vertices_range h hbox
  set S : Set (ℝ × ℝ) := {q | EvenOdd (p.ext :: p.ints) ⟨q.1, q.2⟩} with hSd
  have hvol : volume S = ENNReal.ofReal (|ringArea p.ext| - (p.ints.map fun r => |ringArea r|).sum) := by
    have := C71_measure h.multi
    simpa [Spec.ringsOf] using this
  have hS : volume S ≠ ⊤ := by rw [hvol]; exact ENNReal.ofReal_ne_top
  have hin : ∀ q ∈ S, b.minX ≤ q.1 ∧ q.1 < b.maxX ∧ b.minY ≤ q.2 := fun q hq => evenOdd_range hall hq
  obtain ⟨k, rfl⟩ : ∃ k, height = k + 1 := ⟨height - 1, by omega⟩
  have hrow : ∀ i < k, ∑ j ∈ Finset.range width, (arr.getD (i + 1) []).getD j 0 = (volume (S ∩ {q | InRow b.minY b.maxY (k + 1) i q.2})).toReal := by
    intro i hi
    have hS' : volume (S ∩ {q | InRow b.minY b.maxY (k + 1) i q.2}) ≠ ⊤ := ne_top_of_le_ne_top hS (measure_mono Set.inter_subset_left)
    have := rows_add hS' measurable_fst hbx.le width (fun q hq => (hin q hq.1).1) width
    have e : S ∩ {q | InRow b.minY b.maxY (k + 1) i q.2} ∩ {q | q.1 < rowLine b.minX b.maxX width width} = S ∩ {q | InRow b.minY b.maxY (k + 1) i q.2} := by
      refine Set.inter_eq_left.2 fun q hq => ?_
      have hwr : (width : ℝ) ≠ 0 := by exact_mod_cast hw.ne'
      have : rowLine b.minX b.maxX width width = b.maxX := by unfold rowLine; rw [mul_div_cancel₀ _ hwr]; ring
      show q.1 < _
      rw [this]
      exact (hin q hq.1).2.1
    rw [e] at this
    rw [← this]
    refine Finset.sum_congr rfl fun j hj => ?_
    rw [h6 i (by omega) j (Finset.mem_range.1 hj)]
    congr 2
    ext q
    simp only [hSd, Set.mem_inter_iff, Set.mem_ofPred_eq, and_assoc]
  rw [grid_sum h3 h4, Finset.sum_range_succ', Finset.sum_eq_zero (s := Finset.range width) fun j hj => h5 hh j (Finset.mem_range.1 hj), add_zero,
    Finset.sum_congr rfl fun i hi => hrow i (Finset.mem_range.1 hi), rows_add hS measurable_snd hby.le (k + 1) (fun q hq => (hin q hq).2.2) k]
  have hm : MeasurableSet {q : ℝ × ℝ | q.2 < rowLine b.minY b.maxY (k + 1) k} := measurableSet_lt measurable_snd measurable_const
  have := measure_inter_add_sdiff (μ := volume) S hm
  have e : S \ {q : ℝ × ℝ | q.2 < rowLine b.minY b.maxY (k + 1) k} = {q : ℝ × ℝ | EvenOdd (p.ext :: p.ints) ⟨q.1, q.2⟩ ∧ rowLine b.minY b.maxY (k + 1) (k + 1 - 1) ≤ q.2} := by
    ext q
    simp only [hSd, Set.mem_sdiff, Set.mem_ofPred_eq, not_lt, Nat.add_sub_cancel]
  rw [e] at this
  rw [← ENNReal.toReal_add, this, hvol, ENNReal.toReal_ofReal]
  · exact (C56_area_pos h).le
  · exact ne_top_of_le_ne_top hS (measure_mono Set.inter_subset_left)
  · exact ne_top_of_le_ne_top hS (measure_mono fun q hq => hq.1)

/-- Non-vacuity: a triangle satisfies the hypotheses. -/
example : ∃ b arr, (⟨[⟨0, 0⟩, ⟨3, 0⟩, ⟨1, 2⟩, ⟨0, 0⟩], []⟩ : Polygon ℝ).boundingRect = some b ∧
    ourArea true id (⟨[⟨0, 0⟩, ⟨3, 0⟩, ⟨1, 2⟩, ⟨0, 0⟩], []⟩ : Polygon ℝ) 3 2 = some arr ∧
    (arr.map List.sum).sum + (volume {q : ℝ × ℝ | EvenOdd [[⟨0, 0⟩, ⟨3, 0⟩, ⟨1, 2⟩, ⟨0, 0⟩]] ⟨q.1, q.2⟩ ∧ rowLine b.minY b.maxY 2 1 ≤ q.2}).toReal =
      |ringArea ([⟨0, 0⟩, ⟨3, 0⟩, ⟨1, 2⟩, ⟨0, 0⟩] : List (Pt ℝ))| - 0 :=
  C92_total true id (p := ⟨[⟨0, 0⟩, ⟨3, 0⟩, ⟨1, 2⟩, ⟨0, 0⟩], []⟩) triangle_valid (by decide) (by decide)

/-- A wide column joined to a short one by a beam on top. -/
def prongs : Polygon ℚ := ⟨[⟨0, 0⟩, ⟨0, 8⟩, ⟨5, 8⟩, ⟨5, 4⟩, ⟨4, 4⟩, ⟨4, 7⟩, ⟨1, 7⟩, ⟨1, 0⟩, ⟨0, 0⟩], []⟩

/-- The beam, of area 5 in the last row, is missing, and the first row is empty. -/
example : ourArea true id prongs 5 8 = some [[0, 0, 0, 0, 0], [1, 0, 0, 0, 0], [1, 0, 0, 0, 0], [1, 0, 0, 0, 0], [1, 0, 0, 0, 0],
    [1, 0, 0, 0, 1], [1, 0, 0, 0, 1], [1, 0, 0, 0, 1]] := by decide +kernel

end GeoCrossings
