import Verif.Lemmas.Geom
import Mathlib.Tactic.LinearCombination

/-! # The comparison of two segments is their vertical order at any later common sweep position -/
set_option linter.unusedSectionVars false
namespace GeoCrossings
open Spec

variable {K : Type _} [Field K] [LinearOrder K] [IsStrictOrderedRing K]

theorem and_congr_ctx {a b c d : Prop} (h : a ↔ b) (h' : a → (c ↔ d)) : (a ∧ c) ↔ (b ∧ d) :=
  ⟨fun ⟨x, y⟩ => ⟨h.1 x, (h' x).1 y⟩, fun ⟨x, y⟩ => ⟨h.2 x, (h' (h.2 x)).2 y⟩⟩

theorem ite_congr_prop {p q a b a' b' : Prop} [Decidable p] [Decidable q] (h : p ↔ q) (ha : a ↔ a')
    (hb : b ↔ b') : (if p then a else b) ↔ (if q then a' else b') := by
  by_cases hp : p
  · rw [if_pos hp, if_pos (h.1 hp)]; exact ha
  · rw [if_neg hp, if_neg (fun hq => hp (h.2 hq))]; exact hb

theorem then_compare_lt {a b : K} : (compare 0 a).then (compare 0 b) = .lt ↔ 0 < a ∨ (a = 0 ∧ 0 < b) := by
  rw [then_lt_iff, compare_lt_iff_lt, compare_eq_iff_eq, compare_lt_iff_lt, eq_comm]

theorem then_compare_gt {a b : K} : (compare 0 a).then (compare 0 b) = .gt ↔ a < 0 ∨ (a = 0 ∧ b < 0) := by
  rw [then_gt_iff, compare_gt_iff_gt, compare_eq_iff_eq, compare_gt_iff_gt, eq_comm]

theorem then_compare_eq {a b : K} : (compare 0 a).then (compare 0 b) = .eq ↔ a = 0 ∧ b = 0 := by
  rw [then_eq_iff, compare_eq_iff_eq, compare_eq_iff_eq, eq_comm, eq_comm (b := b)]

section
variable {p1 q1 p2 q2 c : Pt K}

/-- Both segments non-vertical. -/
theorem order_nonvert (n1 : p1.x < q1.x) (n2 : p2.x < q2.x) (hp : p1 ≤ p2) (hc : p2 ≤ c)
    (hc1 : c < q1) (hc2 : c < q2) (H : NoMeetUpTo c p1 q1 p2 q2) :
    ((compare 0 (det p1 q1 p2)).then (compare 0 (det p1 q1 q2)) = .lt ↔ BelowAt c p1 q1 p2 q2) ∧
    ((compare 0 (det p1 q1 p2)).then (compare 0 (det p1 q1 q2)) = .gt ↔ BelowAt c p2 q2 p1 q1) := by
  have hx12 := Pt.x_le_of_le hp
  have hxc := Pt.x_le_of_le hc
  have hxc1 := Pt.x_le_of_le hc1.le
  have hxc2 := Pt.x_le_of_le hc2.le
  have hw1 : 0 < q1.x - p1.x := sub_pos.2 n1
  have hw2 : 0 < q2.x - p2.x := sub_pos.2 n2
  -- difference of heights and of slopes
  obtain ⟨f0, hf0⟩ : ∃ f0, f0 = p2.y - hgt p1 q1 p2.x := ⟨_, rfl⟩
  obtain ⟨d, hd⟩ : ∃ d, d = slp p2 q2 - slp p1 q1 := ⟨_, rfl⟩
  have hf : ∀ x, hgt p2 q2 x - hgt p1 q1 x = f0 + d * (x - p2.x) := by
    intro x
    rw [hgt_add p2 q2 p2.x x, hgt_add p1 q1 p2.x x, hgt_left, hf0, hd]; ring
  have hD1 : det p1 q1 p2 = (q1.x - p1.x) * f0 := by rw [det_hgt n1.ne, hf0]
  have hD2 : det p1 q1 q2 = (q1.x - p1.x) * (f0 + d * (q2.x - p2.x)) := by
    rw [det_hgt n1.ne, ← hf, hgt_right n2.ne]
  have hcol : det p1 q1 p2 = 0 ∧ det p1 q1 q2 = 0 → d = 0 ∧ f0 = 0 := by
    rintro ⟨h1, h2⟩
    rw [hD1] at h1; rw [hD2] at h2
    have e1 : f0 = 0 := (mul_eq_zero.1 h1).resolve_left hw1.ne'
    have e2 := (mul_eq_zero.1 h2).resolve_left hw1.ne'
    rw [e1, zero_add] at e2
    exact ⟨(mul_eq_zero.1 e2).resolve_right hw2.ne', e1⟩
  have meet : ∀ x, p2.x < x → x ≤ c.x → (x < c.x ∨ hgt p1 q1 x ≤ c.y) → f0 + d * (x - p2.x) = 0 →
      d = 0 ∧ f0 = 0 := by
    intro x hx1 hx2 hx3 h0
    have he : hgt p2 q2 x = hgt p1 q1 x := by have := hf x; rw [h0] at this; linarith
    have hle : (⟨x, hgt p1 q1 x⟩ : Pt K) ≤ c := by
      rcases hx3 with h | h
      · exact .inl h
      · rcases hx2.eq_or_lt with h' | h'
        · exact .inr ⟨h', h⟩
        · exact .inl h'
    have := H ⟨x, hgt p1 q1 x⟩ (.inl (hx12.trans_lt hx1)) (.inl hx1) hle
      (onSeg_of_hgt n1 (hx12.trans hx1.le) (hx2.trans hxc1))
      (he ▸ onSeg_of_hgt n2 hx1.le (hx2.trans hxc2))
    rw [collinear3_iff, collinear3_iff] at this
    exact hcol this
  have hlo0 : c.x - p2.x = 0 → f0 = 0 → hgt p1 q1 c.x ≤ c.y := by
    intro h1 h2
    have hx : p2.x = c.x := by linarith
    rw [← hx]
    have := Pt.y_le_of_le_of_eq hc hx
    linarith
  have H1 : ∀ δ, 0 < δ → δ < c.x - p2.x → f0 + d * δ = 0 → d = 0 ∧ f0 = 0 := by
    intro δ h1 h2 h3
    refine meet (p2.x + δ) (by linarith) (by linarith) (.inl (by linarith)) ?_
    rw [← h3]; ring
  have H2 : 0 < c.x - p2.x → hgt p1 q1 c.x ≤ c.y → f0 + d * (c.x - p2.x) = 0 → d = 0 ∧ f0 = 0 := by
    intro h1 h2 h3
    exact meet c.x (by linarith) le_rfl (.inr h2) h3
  have hpos2 : ∀ e : K, f0 = 0 → (0 < e * (f0 + d * (q2.x - p2.x)) ↔ 0 < e * d) := by
    intro e h; rw [h, zero_add, ← mul_assoc]
    exact mul_pos_iff_of_pos_right hw2
  constructor
  · rw [hD1, hD2, sign_mul_pos hw1, sign_mul_pos hw1, then_compare_lt]
    have key := affine_core (lo := hgt p1 q1 c.x ≤ c.y) (sub_nonneg.2 hxc) hlo0 H1 H2
    have e : (0 < f0 ∨ (f0 = 0 ∧ 0 < f0 + d * (q2.x - p2.x))) ↔ (0 < f0 ∨ (f0 = 0 ∧ 0 < d)) := by
      refine or_congr_right (and_congr_right fun h => ?_)
      have := hpos2 1 h; simpa using this
    rw [e, key]
    unfold BelowAt
    rw [heightAt_eq n1.ne, heightAt_eq n2.ne, slope_eq n1.ne, slope_eq n2.ne]
    have hfc := hf c.x
    refine or_congr ?_ (and_congr ?_ ?_)
    · rw [← hfc, sub_pos]
    · rw [← hfc, sub_eq_zero, eq_comm]
    · refine ite_congr_prop Iff.rfl ?_ ?_
      · rw [hd, sub_pos, WithTop.coe_lt_coe]
      · rw [hd, sub_neg, WithTop.coe_lt_coe]
  · rw [hD1, hD2, sign_mul_pos hw1, sign_mul_pos hw1, then_compare_gt]
    have key := affine_core (f0 := -f0) (d := -d) (lo := hgt p1 q1 c.x ≤ c.y) (sub_nonneg.2 hxc)
      (fun h1 h2 => hlo0 h1 (neg_eq_zero.1 h2))
      (fun δ h1 h2 h3 => by
        have := H1 δ h1 h2 (by linear_combination -h3)
        simpa using this)
      (fun h1 h2 h3 => by
        have := H2 h1 h2 (by linear_combination -h3)
        simpa using this)
    have e : (f0 < 0 ∨ (f0 = 0 ∧ f0 + d * (q2.x - p2.x) < 0)) ↔ (0 < -f0 ∨ (-f0 = 0 ∧ 0 < -d)) := by
      refine or_congr (by rw [neg_pos]) (and_congr_ctx (by rw [neg_eq_zero]) fun h => ?_)
      have := hpos2 (-1) h
      rw [neg_one_mul, neg_one_mul, neg_pos, neg_pos] at this
      rw [neg_pos]; exact this
    rw [e, key]
    unfold BelowAt
    rw [heightAt_eq n1.ne, heightAt_eq n2.ne, slope_eq n1.ne, slope_eq n2.ne]
    have hfc := hf c.x
    have hfc' : hgt p1 q1 c.x - hgt p2 q2 c.x = -f0 + -d * (c.x - p2.x) := by linear_combination -hfc
    refine or_congr ?_ (and_congr_ctx ?_ fun h0 => ?_)
    · rw [← hfc', sub_pos]
    · rw [← hfc', sub_eq_zero, eq_comm]
    · rw [← hfc', sub_eq_zero] at h0
      refine ite_congr_prop (by rw [h0]) ?_ ?_
      · rw [hd, WithTop.coe_lt_coe, neg_sub, sub_pos]
      · rw [hd, WithTop.coe_lt_coe, neg_sub, sub_neg]

/-- The later segment vertical, the earlier one not. -/
theorem order_vert2 (n1 : p1.x < q1.x) (v2 : p2.x = q2.x) (hw2 : p2 < q2) (hp : p1 ≤ p2) (hc : p2 ≤ c)
    (hc1 : c < q1) (hc2 : c < q2) (H : NoMeetUpTo c p1 q1 p2 q2) :
    ((compare 0 (det p1 q1 p2)).then (compare 0 (det p1 q1 q2)) = .lt ↔ BelowAt c p1 q1 p2 q2) ∧
    ((compare 0 (det p1 q1 p2)).then (compare 0 (det p1 q1 q2)) = .gt ↔ BelowAt c p2 q2 p1 q1) := by
  have hx12 := Pt.x_le_of_le hp
  have hxc := Pt.x_le_of_le hc
  have hxc2 := Pt.x_le_of_le hc2.le
  have hxe : p2.x = c.x := le_antisymm hxc (by rw [v2]; exact hxc2)
  have hxc1 := Pt.x_le_of_le hc1.le
  have hw1 : 0 < q1.x - p1.x := sub_pos.2 n1
  have hy2 := Pt.y_lt_of_lt_of_eq hw2 v2
  have hyc := Pt.y_le_of_le_of_eq hc hxe
  have hyc2 := Pt.y_lt_of_lt_of_eq hc2 (hxe ▸ v2)
  obtain ⟨Y, hY⟩ : ∃ Y, Y = hgt p1 q1 c.x := ⟨_, rfl⟩
  have hD1 : det p1 q1 p2 = (q1.x - p1.x) * (p2.y - Y) := by rw [det_hgt n1.ne, hxe, ← hY]
  have hD2 : det p1 q1 q2 = (q1.x - p1.x) * (q2.y - Y) := by rw [det_hgt n1.ne, ← v2, hxe, ← hY]
  have meet : p2.y < Y → Y ≤ c.y → False := by
    intro h1 h2
    have hr : (⟨c.x, Y⟩ : Pt K) ≤ c := .inr ⟨rfl, h2⟩
    have h2r : p2 < ⟨c.x, Y⟩ := .inr ⟨hxe, h1⟩
    have := H ⟨c.x, Y⟩ (lt_of_le_of_lt hp h2r) h2r hr
      (hY ▸ onSeg_of_hgt n1 (hx12.trans hxc) hxc1)
      (hxe ▸ onSeg_vert v2 hy2 h1.le (h2.trans hyc2.le))
    rw [collinear3_iff, collinear3_iff, hD1] at this
    have := (mul_eq_zero.1 this.1).resolve_left hw1.ne'
    linarith
  have e1 : (compare 0 (det p1 q1 p2)).then (compare 0 (det p1 q1 q2)) = .lt ↔ Y ≤ p2.y := by
    rw [hD1, hD2, sign_mul_pos hw1, sign_mul_pos hw1, then_compare_lt]
    constructor
    · rintro (h | ⟨h, -⟩) <;> linarith
    · intro h
      rcases h.eq_or_lt with h | h
      · exact .inr ⟨by linarith, by linarith⟩
      · exact .inl (by linarith)
  have e2 : (compare 0 (det p1 q1 p2)).then (compare 0 (det p1 q1 q2)) = .gt ↔ p2.y < Y := by
    rw [hD1, hD2, sign_mul_pos hw1, sign_mul_pos hw1, then_compare_gt]
    constructor
    · rintro (h | ⟨h, h'⟩) <;> linarith
    · intro h; exact .inl (by linarith)
  rw [e1, e2]
  unfold BelowAt
  rw [heightAt_eq n1.ne, heightAt_vert v2, slope_eq n1.ne, slope_vert v2, ← hY]
  constructor
  · constructor
    · intro h
      rcases (h.trans hyc).eq_or_lt with h' | h'
      · exact .inr ⟨h', by rw [if_pos h'.le]; exact WithTop.coe_lt_top _⟩
      · exact .inl h'
    · intro h
      have h' : Y ≤ c.y := by
        rcases h with h | ⟨h, -⟩
        exacts [h.le, h.le]
      by_contra hc
      exact meet (not_le.1 hc) h'
  · constructor
    · intro h
      left
      by_contra hc
      exact meet h (not_lt.1 hc)
    · rintro (h | ⟨h, h'⟩)
      · linarith
      · rw [if_pos le_rfl] at h'; exact absurd h' (not_lt.2 le_top)

/-- The earlier segment vertical. -/
theorem order_vert1 (v1 : p1.x = q1.x) (hw1 : p1 < q1) (hw2 : p2 < q2) (hp : p1 ≤ p2) (hc : p2 ≤ c)
    (hc1 : c < q1) :
    ((compare 0 (det p1 q1 p2)).then (compare 0 (det p1 q1 q2)) = .lt ↔ BelowAt c p1 q1 p2 q2) ∧
    ((compare 0 (det p1 q1 p2)).then (compare 0 (det p1 q1 q2)) = .gt ↔ BelowAt c p2 q2 p1 q1) := by
  have hx12 := Pt.x_le_of_le hp
  have hxc := Pt.x_le_of_le hc
  have hxc1 := Pt.x_le_of_le hc1.le
  have hxe : p2.x = c.x := le_antisymm hxc (by linarith)
  have hx1 : p1.x = p2.x := le_antisymm hx12 (by linarith)
  have hy1 := Pt.y_lt_of_lt_of_eq hw1 v1
  have hyc := Pt.y_le_of_le_of_eq hc hxe
  have hD1 : det p1 q1 p2 = 0 := by unfold det; rw [← v1, hx1]; ring
  have hD2 : det p1 q1 q2 = -((q1.y - p1.y) * (q2.x - p2.x)) := by unfold det; rw [← v1, hx1]; ring
  have hpos : 0 < q1.y - p1.y := sub_pos.2 hy1
  have hx2 := Pt.x_le_of_le hw2.le
  rw [hD1, hD2, then_compare_lt, then_compare_gt]
  simp only [lt_self_iff_false, false_or, true_and]
  by_cases v2 : p2.x = q2.x
  · unfold BelowAt
    rw [heightAt_vert v1, heightAt_vert v2, slope_vert v1, slope_vert v2, ← v2]
    simp
  · have n2 := Pt.x_lt_of_lt_of_ne hw2 v2
    have hh : hgt p2 q2 c.x = p2.y := by rw [← hxe, hgt_left]
    have hm := mul_pos hpos (sub_pos.2 n2)
    unfold BelowAt
    rw [heightAt_vert v1, heightAt_eq v2, slope_vert v1, slope_eq v2, hh]
    constructor
    · constructor
      · intro h; linarith
      · rintro (h | ⟨h, h'⟩)
        · linarith
        · rw [if_pos le_rfl] at h'; exact absurd h' (not_lt.2 le_top)
    · constructor
      · intro _
        rcases hyc.eq_or_lt with h | h
        · exact .inr ⟨h, by rw [if_pos hyc]; exact WithTop.coe_lt_top _⟩
        · exact .inl h
      · intro _; linarith

theorem order_core (hw1 : p1 < q1) (hw2 : p2 < q2) (hp : p1 ≤ p2) (hc : p2 ≤ c)
    (hc1 : c < q1) (hc2 : c < q2) (H : NoMeetUpTo c p1 q1 p2 q2) :
    ((compare 0 (det p1 q1 p2)).then (compare 0 (det p1 q1 q2)) = .lt ↔ BelowAt c p1 q1 p2 q2) ∧
    ((compare 0 (det p1 q1 p2)).then (compare 0 (det p1 q1 q2)) = .gt ↔ BelowAt c p2 q2 p1 q1) := by
  by_cases v1 : p1.x = q1.x
  · exact order_vert1 v1 hw1 hw2 hp hc hc1
  · have n1 := Pt.x_lt_of_lt_of_ne hw1 v1
    by_cases v2 : p2.x = q2.x
    · exact order_vert2 n1 v2 hw2 hp hc hc1 hc2 H
    · exact order_nonvert n1 (Pt.x_lt_of_lt_of_ne hw2 v2) hp hc hc1 hc2 H

/-- Collinearity of two proper segments is symmetric. -/
theorem collinear_comm (hw1 : p1 < q1) (h : det p1 q1 p2 = 0 ∧ det p1 q1 q2 = 0) :
    det p2 q2 p1 = 0 ∧ det p2 q2 q1 = 0 := by
  obtain ⟨h1, h2⟩ := h
  by_cases v1 : p1.x = q1.x
  · have hy := Pt.y_lt_of_lt_of_eq hw1 v1
    have hne : q1.y - p1.y ≠ 0 := (sub_pos.2 hy).ne'
    unfold det at h1 h2 ⊢
    rw [← v1] at h1 h2 ⊢
    have e1 : p2.x - p1.x = 0 := by
      have : (q1.y - p1.y) * (p2.x - p1.x) = 0 := by linear_combination -h1
      exact (mul_eq_zero.1 this).resolve_left hne
    have e2 : q2.x - p1.x = 0 := by
      have : (q1.y - p1.y) * (q2.x - p1.x) = 0 := by linear_combination -h2
      exact (mul_eq_zero.1 this).resolve_left hne
    have e3 : q2.x = p2.x := by linear_combination e2 - e1
    have e4 : p1.x = p2.x := by linear_combination -e1
    rw [e3, e4]; constructor <;> ring
  · have hne : q1.x - p1.x ≠ 0 := sub_ne_zero.2 (Ne.symm v1)
    rw [det_hgt v1] at h1 h2
    have e1 := (mul_eq_zero.1 h1).resolve_left hne
    have e2 := (mul_eq_zero.1 h2).resolve_left hne
    have e3 : p2.y = hgt p1 q1 p2.x := by linear_combination e1
    have e4 : q2.y = hgt p1 q1 q2.x := by linear_combination e2
    have e5 : q1.y = hgt p1 q1 q1.x := (hgt_right v1).symm
    have e6 : p1.y = hgt p1 q1 p1.x := (hgt_left _ _).symm
    have e : ∀ x, hgt p1 q1 x = p1.y + slp p1 q1 * (x - p1.x) := by
      intro x; rw [hgt_add p1 q1 p1.x x, hgt_left]
    unfold det
    rw [e] at e3 e4 e5
    rw [e3, e4, e5]
    constructor <;> ring

end
end GeoCrossings
