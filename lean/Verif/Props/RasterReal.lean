import Verif.Props.Rasterize
import Mathlib.MeasureTheory.Measure.Lebesgue.Basic
import Mathlib.MeasureTheory.Integral.IntervalIntegral.FundThmCalculus
import Mathlib.MeasureTheory.Integral.IntervalIntegral.Basic
import Mathlib.Analysis.SpecialFunctions.Integrals.Basic

/-! # Over the reals, the areas of C49 are Lebesgue measures -/
namespace GeoCrossings
open Spec MeasureTheory

/-- The part of `t` with heights in `[a, b)`. -/
def bandSet (t : Trapz ℝ) (a b : ℝ) : Set (ℝ × ℝ) := {p | InTrapz t ⟨p.1, p.2⟩ ∧ a ≤ p.2 ∧ p.2 < b}

theorem trapz_compact (t : Trapz ℝ) : IsCompact {p : ℝ × ℝ | InTrapz t ⟨p.1, p.2⟩} := by
  have h1 : IsCompact {q : ℝ × ℝ | q ∈ Set.Icc ((0 : ℝ), min t.left.bot t.right.bot) (1, max t.left.top t.right.top) ∧
      t.left.bot + q.1 * (t.right.bot - t.left.bot) ≤ q.2 ∧ q.2 ≤ t.left.top + q.1 * (t.right.top - t.left.top)} := by
    refine isCompact_Icc.inter_right (t := {q : ℝ × ℝ | t.left.bot + q.1 * (t.right.bot - t.left.bot) ≤ q.2} ∩
      {q : ℝ × ℝ | q.2 ≤ t.left.top + q.1 * (t.right.top - t.left.top)}) ?_
    exact (isClosed_le (by fun_prop) (by fun_prop)).inter (isClosed_le (by fun_prop) (by fun_prop))
  convert h1.image (f := fun q : ℝ × ℝ => (t.left.x + q.1 * (t.right.x - t.left.x), q.2)) (by fun_prop) using 1
  ext ⟨x, y⟩
  constructor
  · intro h
    have := inTrapz_range h
    obtain ⟨s, s0, s1, hx, h1, h2⟩ := h
    exact ⟨(s, y), ⟨⟨⟨s0, this.1⟩, ⟨s1, this.2⟩⟩, h1, h2⟩, by simp only at hx; rw [hx]⟩
  · rintro ⟨⟨s, y'⟩, ⟨⟨⟨s0, -⟩, ⟨s1, -⟩⟩, h1, h2⟩, he⟩
    simp only [Prod.mk.injEq] at he
    obtain ⟨rfl, rfl⟩ := he
    exact ⟨s, s0, s1, rfl, h1, h2⟩

theorem bandSet_measurable (t : Trapz ℝ) (a b : ℝ) : MeasurableSet (bandSet t a b) := by
  apply (trapz_compact t).measurableSet.inter
  exact (measurableSet_le measurable_const measurable_snd).inter (measurableSet_lt measurable_snd measurable_const)

theorem bandSet_finite (t : Trapz ℝ) (a b : ℝ) : volume (bandSet t a b) ≠ ⊤ :=
  ((measure_mono (fun _ h => h.1)).trans_lt (trapz_compact t).measure_lt_top).ne

/-- The Lebesgue measure is an area in the sense of `BandArea`, for every trapezoid. -/
theorem volume_bandArea (t : Trapz ℝ) : BandArea t fun a b => (volume (bandSet t a b)).toReal where
  add a b c hab hbc := by
    have hu : bandSet t a c = bandSet t a b ∪ bandSet t b c := by
      ext p
      simp only [bandSet, Set.mem_ofPred_eq, Set.mem_union]
      constructor
      · rintro ⟨h, h1, h2⟩
        rcases lt_or_ge p.2 b with k | k
        · exact .inl ⟨h, h1, k⟩
        · exact .inr ⟨h, k, h2⟩
      · rintro (⟨h, h1, h2⟩ | ⟨h, h1, h2⟩)
        · exact ⟨h, h1, h2.trans_le hbc⟩
        · exact ⟨h, hab.trans h1, h2⟩
    have hd : Disjoint (bandSet t a b) (bandSet t b c) := by
      rw [Set.disjoint_left]
      rintro p ⟨-, -, h⟩ ⟨-, h', -⟩
      exact absurd h (not_lt.2 h')
    rw [hu, measure_union hd (bandSet_measurable t b c), ENNReal.toReal_add (bandSet_finite t a b) (bandSet_finite t b c)]
  empty a b hab h := by
    have : volume (bandSet t a b) = 0 := by
      rw [Measure.volume_eq_prod, Measure.prod_apply_symm (bandSet_measurable t a b)]
      rw [lintegral_eq_zero_iff' (measurable_measure_prodMk_right (bandSet_measurable t a b)).aemeasurable]
      have hne : ∀ᵐ u : ℝ, u ≠ a := by simp [ae_iff]
      filter_upwards [hne] with u hu
      have : (fun x => (x, u)) ⁻¹' bandSet t a b = ∅ := by
        rw [Set.eq_empty_iff_forall_notMem]
        rintro x ⟨h1, h2, h3⟩
        exact h u (lt_of_le_of_ne h2 (Ne.symm hu)) h3 x h1
      rw [this]; simp
    simp only [this, ENNReal.toReal_zero]
  slab a b w v w' v' hab hwv hwv' h := by
    have hd : 0 < b - a := sub_pos.2 hab
    have hnn : ∀ u ∈ Set.Icc a b, 0 ≤ (v - w) + (u - a) / (b - a) * ((v' - w') - (v - w)) := by
      rintro u ⟨u0, u1⟩
      have c0 : 0 ≤ (u - a) / (b - a) := div_nonneg (by linarith) hd.le
      have c1 : (u - a) / (b - a) ≤ 1 := (div_le_one hd).2 (by linarith)
      nlinarith
    have hvol : volume (bandSet t a b) =
        ENNReal.ofReal (∫ u in a..b, ((v - w) + (u - a) / (b - a) * ((v' - w') - (v - w)))) := by
      rw [Measure.volume_eq_prod, Measure.prod_apply_symm (bandSet_measurable t a b)]
      rw [intervalIntegral.integral_of_le hab.le, ofReal_integral_eq_lintegral_ofReal]
      · rw [← lintegral_indicator measurableSet_Ioc]
        apply lintegral_congr_ae
        have hne : ∀ᵐ u : ℝ, u ≠ a := by simp [ae_iff]
        have hne' : ∀ᵐ u : ℝ, u ≠ b := by simp [ae_iff]
        filter_upwards [hne, hne'] with u hu hu'
        by_cases hin : a < u ∧ u < b
        · rw [Set.indicator_of_mem (show u ∈ Set.Ioc a b from ⟨hin.1, hin.2.le⟩)]
          have : (fun x => (x, u)) ⁻¹' bandSet t a b =
              Set.Icc (w + (u - a) / (b - a) * (w' - w)) (v + (u - a) / (b - a) * (v' - v)) := by
            ext x
            simp only [Set.mem_preimage, bandSet, Set.mem_ofPred_eq, Set.mem_Icc]
            rw [h u hin.1 hin.2 x]
            exact ⟨fun k => k.1, fun k => ⟨k, hin.1.le, hin.2⟩⟩
          rw [this, Real.volume_Icc]
          congr 1; ring
        · rw [Set.indicator_of_notMem]
          · have : (fun x => (x, u)) ⁻¹' bandSet t a b = ∅ := by
              rw [Set.eq_empty_iff_forall_notMem]
              rintro x ⟨-, h2, h3⟩
              exact hin ⟨lt_of_le_of_ne h2 (Ne.symm hu), h3⟩
            rw [this]; simp
          · rintro ⟨k1, k2⟩
            exact hin ⟨k1, lt_of_le_of_ne k2 hu'⟩
      · exact (Continuous.integrableOn_Ioc (by fun_prop))
      · filter_upwards [ae_restrict_mem measurableSet_Ioc] with u hu
        exact hnn u ⟨hu.1.le, hu.2⟩
    simp only [hvol]
    have hint : ∫ u in a..b, ((v - w) + (u - a) / (b - a) * ((v' - w') - (v - w))) =
        (b - a) * ((v - w) + (v' - w')) / 2 := by
      have e : ∀ u : ℝ, (v - w) + (u - a) / (b - a) * ((v' - w') - (v - w)) =
          ((v - w) - a / (b - a) * ((v' - w') - (v - w))) + (((v' - w') - (v - w)) / (b - a)) * u := by
        intro u; field_simp; ring
      simp only [e]
      rw [intervalIntegral.integral_add (by simp) (Continuous.intervalIntegrable (by fun_prop) _ _),
        intervalIntegral.integral_const, intervalIntegral.integral_const_mul, integral_id, smul_eq_mul]
      field_simp
      ring
    rw [hint, ENNReal.toReal_ofReal]
    exact div_nonneg (mul_nonneg hd.le (by linarith)) zero_le_two

/-- **C49 over the reals.** `cross_area` adds to each row the Lebesgue measure of the part of each swept trapezoid inside that
row, and in total the measure of the part inside the band. -/
theorem C49_lebesgue {m : MonoPoly ℝ} (hm : MonotonePair m.top m.bot) (ha : NowhereBelow m.top m.bot) {s : Scanner ℝ}
    {ts0 : List (Trapz ℝ)} (hr : Reach m s ts0) (right : ℝ) {cmin cmax : ℝ} (hc : cmin < cmax) {arr : List ℝ} (hh : arr ≠ []) :
    ∃ s' ts arr', s.advanceTo s.rounds right = some (s', ts) ∧ s.crossArea right cmin cmax arr = some (s', arr') ∧
      arr'.length = arr.length ∧
      (∀ (i : Nat) (v : ℝ), arr[i]? = some v →
        arr'[i]? = some (v + (ts.map fun t =>
          (volume (bandSet t (rowLine cmin cmax arr.length i) (rowLine cmin cmax arr.length (i + 1)))).toReal).sum)) ∧
      arr'.sum = arr.sum + (ts.map fun t => (volume (bandSet t cmin cmax)).toReal).sum := by
  obtain ⟨s', ts, arr', h1, h2, h3, h4⟩ := C49_cross_area hm ha hr right hc hh
  obtain ⟨h5, h6⟩ := h4 _ fun t _ => volume_bandArea t
  exact ⟨s', ts, arr', h1, h2, h3, h5, h6⟩

end GeoCrossings
