import Verif.Spec.Raster
import Verif.Model.Rasterize
import Verif.Lemmas.Scanner

set_option linter.unusedSectionVars false
namespace GeoCrossings
open Spec

variable {K : Type _} [Field K] [LinearOrder K] [IsStrictOrderedRing K] [FloorSemiring K]

def ExtremesOf (ts : List (Trapz K)) (e : Extremes K) : Prop :=
  HighestTop ts e.topMax ∧ LowestTop ts e.topMin ∧ HighestBot ts e.botMax ∧ LowestBot ts e.botMin

omit [IsStrictOrderedRing K] [FloorSemiring K] in
theorem extreme_max {ts : List (Trapz K)} {f g : Trapz K → K} {v : K} (h : Extreme (· ≤ ·) ts f g v) (t : Trapz K) :
    Extreme (· ≤ ·) (ts ++ [t]) f g (max (max v (f t)) (g t)) := by
  constructor
  · rcases max_choice (max v (f t)) (g t) with k | k
    · rw [k]
      rcases max_choice v (f t) with k | k
      · rw [k]; obtain ⟨u, hu, hv⟩ := h.1; exact ⟨u, by simp [hu], hv⟩
      · rw [k]; exact ⟨t, by simp, .inl rfl⟩
    · rw [k]; exact ⟨t, by simp, .inr rfl⟩
  · intro u hu
    rcases List.mem_append.1 hu with hu | hu
    · obtain ⟨a, b⟩ := h.2 u hu
      exact ⟨a.trans ((le_max_left _ _).trans (le_max_left _ _)), b.trans ((le_max_left _ _).trans (le_max_left _ _))⟩
    · rw [List.mem_singleton] at hu; subst hu
      exact ⟨(le_max_right _ _).trans (le_max_left _ _), le_max_right _ _⟩

omit [IsStrictOrderedRing K] [FloorSemiring K] in
theorem extreme_min {ts : List (Trapz K)} {f g : Trapz K → K} {v : K} (h : Extreme (· ≥ ·) ts f g v) (t : Trapz K) :
    Extreme (· ≥ ·) (ts ++ [t]) f g (min (min v (f t)) (g t)) := by
  constructor
  · rcases min_choice (min v (f t)) (g t) with k | k
    · rw [k]
      rcases min_choice v (f t) with k | k
      · rw [k]; obtain ⟨u, hu, hv⟩ := h.1; exact ⟨u, by simp [hu], hv⟩
      · rw [k]; exact ⟨t, by simp, .inl rfl⟩
    · rw [k]; exact ⟨t, by simp, .inr rfl⟩
  · intro u hu
    rcases List.mem_append.1 hu with hu | hu
    · obtain ⟨a, b⟩ := h.2 u hu
      exact ⟨((min_le_left _ _).trans (min_le_left _ _)).trans a, ((min_le_left _ _).trans (min_le_left _ _)).trans b⟩
    · rw [List.mem_singleton] at hu; subst hu
      exact ⟨(min_le_left _ _).trans (min_le_right _ _), min_le_right _ _⟩

theorem extremes_cons (t : Trapz K) (ts : List (Trapz K)) : ∃ e, extremes (t :: ts) = some e ∧ ExtremesOf (t :: ts) e := by
  have aux : ∀ (ts pre : List (Trapz K)) (e : Extremes K), ExtremesOf pre e →
      ∃ e', ts.foldl Extremes.add (some e) = some e' ∧ ExtremesOf (pre ++ ts) e' := by
    intro ts
    induction ts with
    | nil => intro pre e h; exact ⟨e, rfl, by simpa using h⟩
    | cons t ts ih =>
      intro pre e h
      obtain ⟨e', h1, h2⟩ := ih (pre ++ [t])
        ⟨max (max e.topMax t.left.top) t.right.top, min (min e.topMin t.left.top) t.right.top,
         max (max e.botMax t.left.bot) t.right.bot, min (min e.botMin t.left.bot) t.right.bot⟩
        ⟨extreme_max h.1 t, extreme_min h.2.1 t, extreme_max h.2.2.1 t, extreme_min h.2.2.2 t⟩
      exact ⟨e', h1, by simpa using h2⟩
  refine aux ts [t] _ ⟨?_, ?_, ?_, ?_⟩
  · refine ⟨⟨t, by simp, max_choice _ _⟩, fun u hu => ?_⟩
    rw [List.mem_singleton] at hu; subst hu; exact ⟨le_max_left _ _, le_max_right _ _⟩
  · refine ⟨⟨t, by simp, min_choice _ _⟩, fun u hu => ?_⟩
    rw [List.mem_singleton] at hu; subst hu; exact ⟨min_le_left _ _, min_le_right _ _⟩
  · refine ⟨⟨t, by simp, max_choice _ _⟩, fun u hu => ?_⟩
    rw [List.mem_singleton] at hu; subst hu; exact ⟨le_max_left _ _, le_max_right _ _⟩
  · refine ⟨⟨t, by simp, min_choice _ _⟩, fun u hu => ?_⟩
    rw [List.mem_singleton] at hu; subst hu; exact ⟨min_le_left _ _, min_le_right _ _⟩

theorem crossPt_eq (cmin cmax : K) (h j : Nat) : crossPt cmin cmax h j = rowLine cmin cmax h j := by
  unfold crossPt rowLine; ring

theorem crossIdx_eq (cmin cmax : K) (h : Nat) (y : K) : crossIdx cmin cmax h y = crossIdxInv cmin cmax h y := by
  unfold crossIdx crossIdxInv
  have : (y - cmin) / ((cmax - cmin) / (h : K)) = (y - cmin) * ((h : K) / (cmax - cmin)) := by
    rw [div_div_eq_mul_div, mul_div_assoc]
  simp only [this]

theorem crossIdxInv_mono {cmin cmax : K} (hc : cmin < cmax) (h : Nat) {y y' : K} (hy : y ≤ y') :
    crossIdxInv cmin cmax h y ≤ crossIdxInv cmin cmax h y' := by
  unfold crossIdxInv
  simp only
  have : (y - cmin) * ((h : K) / (cmax - cmin)) ≤ (y' - cmin) * ((h : K) / (cmax - cmin)) :=
    mul_le_mul_of_nonneg_right (by linarith) (div_nonneg (Nat.cast_nonneg _) (sub_nonneg.2 hc.le))
  exact min_le_min (Nat.floor_mono (min_le_min (max_le_max this le_rfl) le_rfl)) le_rfl

theorem crossIdxInv_lt {cmin cmax : K} {h : Nat} (hh : 0 < h) (y : K) : crossIdxInv cmin cmax h y < h := by
  unfold crossIdxInv
  simp only
  exact (min_le_right _ _).trans_lt (by omega)

theorem rowLine_zero (cmin cmax : K) (h : Nat) : rowLine cmin cmax h 0 = cmin := by unfold rowLine; simp

theorem rowLine_height {cmin cmax : K} {h : Nat} (hh : 0 < h) : rowLine cmin cmax h h = cmax := by
  unfold rowLine
  have : (h : K) ≠ 0 := by exact_mod_cast hh.ne'
  field_simp; ring

theorem rowLine_lt {cmin cmax : K} (hc : cmin < cmax) {h : Nat} (hh : 0 < h) {i j : Nat} (hij : i < j) :
    rowLine cmin cmax h i < rowLine cmin cmax h j := by
  unfold rowLine
  have h1 : 0 < (cmax - cmin) / (h : K) := div_pos (sub_pos.2 hc) (by exact_mod_cast hh)
  have h2 : (i : K) < j := by exact_mod_cast hij
  have := mul_lt_mul_of_pos_right h2 h1
  linarith

theorem rowLine_mono {cmin cmax : K} (hc : cmin < cmax) {h : Nat} (hh : 0 < h) {i j : Nat} (hij : i ≤ j) :
    rowLine cmin cmax h i ≤ rowLine cmin cmax h j := by
  rcases hij.lt_or_eq with k | k
  · exact (rowLine_lt hc hh k).le
  · rw [k]

/-- `cross_idx` finds the row. -/
theorem crossIdxInv_row {cmin cmax : K} (hc : cmin < cmax) {h : Nat} (hh : 0 < h) {y : K} (h1 : cmin ≤ y) (h2 : y ≤ cmax) :
    rowLine cmin cmax h (crossIdxInv cmin cmax h y) ≤ y ∧ y ≤ rowLine cmin cmax h (crossIdxInv cmin cmax h y + 1) ∧
    (y < cmax → InRow cmin cmax h (crossIdxInv cmin cmax h y) y) := by
  have hK : (0 : K) < h := by exact_mod_cast hh
  have hd : 0 < cmax - cmin := sub_pos.2 hc
  have j0 : 0 ≤ (y - cmin) * ((h : K) / (cmax - cmin)) := mul_nonneg (sub_nonneg.2 h1) (div_nonneg hK.le hd.le)
  have jh : (y - cmin) * ((h : K) / (cmax - cmin)) ≤ h := by
    rw [mul_div_assoc', div_le_iff₀ hd]; nlinarith
  have ey : y = cmin + ((y - cmin) * ((h : K) / (cmax - cmin))) * ((cmax - cmin) / h) := by
    field_simp; ring
  have hw : 0 < (cmax - cmin) / (h : K) := div_pos hd hK
  have e : crossIdxInv cmin cmax h y = min ⌊(y - cmin) * ((h : K) / (cmax - cmin))⌋₊ (h - 1) := by
    unfold crossIdxInv; simp only; rw [max_eq_left j0, min_eq_left jh]
  by_cases hlt : y < cmax
  · have jlt : (y - cmin) * ((h : K) / (cmax - cmin)) < h := by
      rw [mul_div_assoc', div_lt_iff₀ hd]; nlinarith
    have hf : ⌊(y - cmin) * ((h : K) / (cmax - cmin))⌋₊ < h := (Nat.floor_lt j0).2 jlt
    rw [min_eq_left (by omega)] at e
    rw [e]
    have a := Nat.floor_le j0
    have b := Nat.lt_floor_add_one ((y - cmin) * ((h : K) / (cmax - cmin)))
    have c1 : rowLine cmin cmax h ⌊(y - cmin) * ((h : K) / (cmax - cmin))⌋₊ ≤ y := by
      unfold rowLine
      conv_rhs => rw [ey]
      have := mul_le_mul_of_nonneg_right a hw.le
      linarith
    have c2 : y < rowLine cmin cmax h (⌊(y - cmin) * ((h : K) / (cmax - cmin))⌋₊ + 1) := by
      unfold rowLine
      conv_lhs => rw [ey]
      have := mul_lt_mul_of_pos_right b hw
      push_cast
      linarith
    exact ⟨c1, c2.le, fun _ => ⟨c1, c2⟩⟩
  · have hy : y = cmax := le_antisymm h2 (not_lt.1 hlt)
    subst hy
    have jeq : (y - cmin) * ((h : K) / (y - cmin)) = h := by field_simp
    rw [jeq, Nat.floor_natCast, min_eq_right (by omega)] at e
    rw [e, show h - 1 + 1 = h by omega, rowLine_height hh]
    refine ⟨?_, le_rfl, fun h => absurd h (lt_irrefl _)⟩
    conv_rhs => rw [← rowLine_height (cmin := cmin) (cmax := y) hh]
    exact rowLine_mono hc hh (by omega)

/-- Rows do not overlap. -/
theorem inRow_unique {cmin cmax : K} (hc : cmin < cmax) {h : Nat} (hh : 0 < h) {i j : Nat} {y : K}
    (h1 : InRow cmin cmax h i y) (h2 : InRow cmin cmax h j y) : i = j := by
  rcases lt_trichotomy i j with k | k | k
  · exact absurd (h1.2.trans_le ((rowLine_mono hc hh k).trans h2.1)) (lt_irrefl _)
  · exact k
  · exact absurd (h2.2.trans_le ((rowLine_mono hc hh k).trans h1.1)) (lt_irrefl _)

end GeoCrossings
