import Verif.Model.LineOrPoint
import Verif.Spec.SweepOrder
import Mathlib.Order.Compare
import Mathlib.Tactic.Linarith
import Mathlib.Tactic.Ring
import Mathlib.Tactic.FieldSimp
import Mathlib.Tactic.Positivity

/-! # Orientation algebra -/
set_option linter.unusedSectionVars false

namespace GeoCrossings
open Spec

variable {K : Type _} [Field K] [LinearOrder K]

theorem det_swap (p q r : Pt K) : det p r q = - det p q r := by unfold det; ring
theorem det_rot (p q r : Pt K) : det q r p = det p q r := by unfold det; ring
theorem det_swap12 (p q r : Pt K) : det q p r = - det p q r := by unfold det; ring
@[simp] theorem det_left (p q : Pt K) : det p q p = 0 := by unfold det; ring
@[simp] theorem det_right (p q : Pt K) : det p q q = 0 := by unfold det; ring
@[simp] theorem det_self (p q : Pt K) : det p p q = 0 := by unfold det; ring

theorem collinear3_iff (p q r : Pt K) : Collinear3 p q r ↔ det p q r = 0 := by
  unfold Collinear3 det; exact sub_eq_zero.symm

theorem oao (p q r : Pt K) : orientationAsOrdering (orient2d p q r) = compare 0 (det p q r) := by
  unfold orient2d
  rcases lt_trichotomy 0 (det p q r) with h | h | h
  · rw [if_pos h, compare_lt_iff_lt.2 h]; rfl
  · rw [if_neg (by rw [← h]; exact lt_irrefl _), if_neg (by rw [← h]; exact lt_irrefl _),
      compare_eq_iff_eq.2 h]; rfl
  · rw [if_neg h.not_gt, if_pos h, compare_gt_iff_gt.2 h]; rfl

theorem orient2d_coll (p q r : Pt K) : orient2d p q r = .collinear ↔ det p q r = 0 := by
  unfold orient2d
  rcases lt_trichotomy 0 (det p q r) with h | h | h
  · simp [h, h.ne']
  · simp [← h]
  · simp [h, h.not_gt, h.ne]

theorem orient2d_ccw (p q r : Pt K) : orient2d p q r = .counterClockwise ↔ 0 < det p q r := by
  unfold orient2d
  split_ifs with h1 h2 <;> simp [h1]

theorem orient2d_cw (p q r : Pt K) : orient2d p q r = .clockwise ↔ det p q r < 0 := by
  unfold orient2d
  rcases lt_trichotomy 0 (det p q r) with h | h | h
  · simp [h, h.not_gt]
  · simp [← h]
  · simp [h, h.not_gt]

theorem then_lt_iff {a b : Ordering} : a.then b = .lt ↔ a = .lt ∨ (a = .eq ∧ b = .lt) := by
  cases a <;> cases b <;> simp [Ordering.then]
theorem then_gt_iff {a b : Ordering} : a.then b = .gt ↔ a = .gt ∨ (a = .eq ∧ b = .gt) := by
  cases a <;> cases b <;> simp [Ordering.then]
theorem then_eq_iff {a b : Ordering} : a.then b = .eq ↔ a = .eq ∧ b = .eq := by
  cases a <;> cases b <;> simp [Ordering.then]

theorem pcmpLineLine_some {p1 q1 p2 q2 : Pt K} (h1 : p1 < q2) (h2 : p2 < q2) :
    pcmpLineLine p1 q1 p2 q2 = some ((compare 0 (det p1 q1 p2)).then (compare 0 (det p1 q1 q2))) := by
  unfold pcmpLineLine
  rw [if_neg (by simp [not_le.2 h1, not_le.2 h2]), oao, oao]

/-! ## Heights -/

/-- Height of the supporting line of a non-vertical segment over abscissa `x`. -/
def hgt (p q : Pt K) (x : K) : K := p.y + (x - p.x) * ((q.y - p.y) / (q.x - p.x))

/-- Slope as a scalar. -/
def slp (p q : Pt K) : K := (q.y - p.y) / (q.x - p.x)

theorem hgt_add (p q : Pt K) (x x' : K) : hgt p q x' = hgt p q x + slp p q * (x' - x) := by
  unfold hgt slp; ring

theorem hgt_left (p q : Pt K) : hgt p q p.x = p.y := by unfold hgt; ring

theorem hgt_right {p q : Pt K} (h : p.x ≠ q.x) : hgt p q q.x = q.y := by
  have : q.x - p.x ≠ 0 := sub_ne_zero.2 h.symm
  unfold hgt; field_simp; ring

theorem det_hgt {p q : Pt K} (h : p.x ≠ q.x) (r : Pt K) :
    det p q r = (q.x - p.x) * (r.y - hgt p q r.x) := by
  have : q.x - p.x ≠ 0 := sub_ne_zero.2 h.symm
  unfold det hgt; field_simp; ring

theorem heightAt_eq {p q : Pt K} (h : p.x ≠ q.x) (c : Pt K) : heightAt p q c = hgt p q c.x := by
  unfold heightAt hgt; rw [if_neg h]

theorem heightAt_vert {p q : Pt K} (h : p.x = q.x) (c : Pt K) : heightAt p q c = c.y := by
  unfold heightAt; rw [if_pos h]

theorem slope_eq {p q : Pt K} (h : p.x ≠ q.x) : slope p q = (slp p q : K) := by
  unfold slope slp; rw [if_neg h]

theorem slope_vert {p q : Pt K} (h : p.x = q.x) : slope p q = ⊤ := by
  unfold slope; rw [if_pos h]

variable [IsStrictOrderedRing K]

theorem onSeg_of_hgt {p q : Pt K} (h : p.x < q.x) {x : K} (h1 : p.x ≤ x) (h2 : x ≤ q.x) :
    OnSeg p q ⟨x, hgt p q x⟩ := by
  have hd : 0 < q.x - p.x := sub_pos.2 h
  refine ⟨(x - p.x) / (q.x - p.x), ?_, ?_, ?_, ?_⟩
  · exact div_nonneg (sub_nonneg.2 h1) hd.le
  · rw [div_le_one hd]; linarith
  · field_simp; ring
  · unfold hgt; field_simp

theorem onSeg_vert {p q : Pt K} (h : p.x = q.x) (hl : p.y < q.y) {y : K} (h1 : p.y ≤ y) (h2 : y ≤ q.y) :
    OnSeg p q ⟨p.x, y⟩ := by
  have hd : 0 < q.y - p.y := sub_pos.2 hl
  refine ⟨(y - p.y) / (q.y - p.y), ?_, ?_, ?_, ?_⟩
  · exact div_nonneg (sub_nonneg.2 h1) hd.le
  · rw [div_le_one hd]; linarith
  · simp [h]
  · field_simp; ring

theorem sign_mul_pos {a b : K} (ha : 0 < a) :
    compare 0 (a * b) = compare 0 b := by
  rcases lt_trichotomy 0 b with h | h | h
  · rw [compare_lt_iff_lt.2 h, compare_lt_iff_lt.2 (mul_pos ha h)]
  · rw [← h, mul_zero]
  · rw [compare_gt_iff_gt.2 h, compare_gt_iff_gt.2 (mul_neg_of_pos_of_neg ha h)]

theorem Pt.x_le_of_le {a b : Pt K} (h : a ≤ b) : a.x ≤ b.x := by
  rcases h with h | h
  · exact h.le
  · exact h.1.le

theorem Pt.x_lt_of_lt_of_ne {a b : Pt K} (h : a < b) (hx : a.x ≠ b.x) : a.x < b.x := by
  rcases h with h | h
  · exact h
  · exact absurd h.1 hx

theorem Pt.y_lt_of_lt_of_eq {a b : Pt K} (h : a < b) (hx : a.x = b.x) : a.y < b.y := by
  rcases h with h | h
  · rw [hx] at h; exact absurd h (lt_irrefl _)
  · exact h.2

theorem Pt.y_le_of_le_of_eq {a b : Pt K} (h : a ≤ b) (hx : a.x = b.x) : a.y ≤ b.y := by
  rcases h with h | h
  · rw [hx] at h; exact absurd h (lt_irrefl _)
  · exact h.2

/-- Scalar core of the order lemma. `f0` is the difference of heights where the later segment starts, `d` the
difference of slopes, `Δ` the distance swept since. `lo` says the height in question is at or below the sweep
position. `H` is the absence of a meeting point in between. -/
theorem affine_core {f0 d Δ : K} {lo : Prop} [Decidable lo] (hΔ : 0 ≤ Δ)
    (hlo : Δ = 0 → f0 = 0 → lo)
    (H1 : ∀ δ, 0 < δ → δ < Δ → f0 + d * δ = 0 → d = 0 ∧ f0 = 0)
    (H2 : 0 < Δ → lo → f0 + d * Δ = 0 → d = 0 ∧ f0 = 0) :
    (0 < f0 ∨ (f0 = 0 ∧ 0 < d)) ↔
      (0 < f0 + d * Δ ∨ (f0 + d * Δ = 0 ∧ if lo then 0 < d else d < 0)) := by
  rcases hΔ.eq_or_lt with h0 | hpos
  · subst h0
    simp only [mul_zero, add_zero]
    constructor
    · rintro (h | ⟨h, h'⟩)
      · exact .inl h
      · exact .inr ⟨h, by rw [if_pos (hlo rfl h)]; exact h'⟩
    · rintro (h | ⟨h, h'⟩)
      · exact .inl h
      · rw [if_pos (hlo rfl h)] at h'; exact .inr ⟨h, h'⟩
  · have root : ∀ s : K, (s * f0 > 0) → s * (f0 + d * Δ) < 0 → False := by
      intro s h1 h2
      have hd0 : d ≠ 0 := by
        rintro rfl; rw [zero_mul, add_zero] at h2; linarith
      have hδ : f0 + d * (-f0 / d) = 0 := by field_simp; ring
      have hsd : s * d < 0 := by
        by_contra hc
        have h3 : 0 ≤ s * d * Δ := mul_nonneg (not_lt.1 hc) hpos.le
        have : s * (f0 + d * Δ) = s * f0 + s * d * Δ := by ring
        linarith
      have e1 : -f0 / d = (s * f0) / (-(s * d)) := by
        have hs : s ≠ 0 := by rintro rfl; simp at h1
        field_simp
      have h4 : 0 < -f0 / d := by
        rw [e1]; exact div_pos h1 (by linarith)
      have h5 : -f0 / d < Δ := by
        rw [e1, div_lt_iff₀ (by linarith)]
        have : s * (f0 + d * Δ) = s * f0 + s * d * Δ := by ring
        linarith
      obtain ⟨h6, -⟩ := H1 _ h4 h5 hδ
      exact hd0 h6
    rcases lt_trichotomy f0 0 with hf | hf | hf
    · -- f0 < 0
      constructor
      · rintro (h | ⟨h, -⟩)
        · exact absurd h hf.not_gt
        · exact absurd h hf.ne
      · rintro (h | ⟨h, h'⟩)
        · exact (root (-1) (by linarith) (by linarith)).elim
        · exfalso
          have hdpos : 0 < d * Δ := by linarith
          have hd : 0 < d := by
            by_contra hc
            have := mul_nonpos_of_nonpos_of_nonneg (not_lt.1 hc) hpos.le
            linarith
          split_ifs at h' with hl
          · exact hf.ne (H2 hpos hl h).2
          · exact absurd h' hd.not_gt
    · subst hf
      simp only [zero_add, lt_self_iff_false, true_and, false_or]
      constructor
      · intro hd; exact .inl (mul_pos hd hpos)
      · rintro (h | ⟨h, h'⟩)
        · by_contra hc
          have := mul_nonpos_of_nonpos_of_nonneg (not_lt.1 hc) hpos.le
          linarith
        · have hd : d = 0 := by
            rcases mul_eq_zero.1 h with h | h
            · exact h
            · exact absurd h hpos.ne'
          subst hd
          split_ifs at h' <;> exact absurd h' (lt_irrefl _)
    · -- 0 < f0
      constructor
      · intro _
        rcases lt_trichotomy (f0 + d * Δ) 0 with h | h | h
        · exact (root 1 (by linarith) (by linarith)).elim
        · refine .inr ⟨h, ?_⟩
          have hd : d < 0 := by
            by_contra hc
            have := mul_nonneg (not_lt.1 hc) hpos.le
            linarith
          split_ifs with hl
          · exact absurd (H2 hpos hl h).2 hf.ne'
          · exact hd
        · exact .inl h
      · intro _; exact .inl hf

end GeoCrossings
