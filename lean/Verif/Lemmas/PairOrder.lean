import Verif.Lemmas.Intersect
import Verif.Props.LineOrPoint

/-!
# Pairs of segments at a sweep position

`Lt` is the order of the active set written with determinants. `Apart pos` says that two segments do not meet at or before
`pos` except at a common end, `Tidy pos` the same for points after `pos`.
-/
set_option linter.unusedSectionVars false
namespace GeoCrossings
open Spec

variable {K : Type _} [Field K] [LinearOrder K] [IsStrictOrderedRing K]

/-- The first segment is stored below the second. -/
def Lt (p1 q1 p2 q2 : Pt K) : Prop :=
  (p1 ≤ p2 ∧ (0 < det p1 q1 p2 ∨ det p1 q1 p2 = 0 ∧ 0 < det p1 q1 q2)) ∨
  (p2 < p1 ∧ (det p2 q2 p1 < 0 ∨ det p2 q2 p1 = 0 ∧ det p2 q2 q1 < 0))

/-- The segments meet at points up to `pos` only where both start, or at `pos` itself if both end there. -/
def Apart (pos p1 q1 p2 q2 : Pt K) : Prop :=
  ∀ r, r ≤ pos → OnSeg p1 q1 r → OnSeg p2 q2 r → (r = p1 ∧ r = p2) ∨ (r = pos ∧ r = q1 ∧ r = q2)

/-- The segments meet at points after `pos` only where both end. -/
def Tidy (pos p1 q1 p2 q2 : Pt K) : Prop :=
  ∀ r, pos < r → OnSeg p1 q1 r → OnSeg p2 q2 r → r = q1 ∧ r = q2

theorem Apart.symm {pos p1 q1 p2 q2 : Pt K} (h : Apart pos p1 q1 p2 q2) : Apart pos p2 q2 p1 q1 := by
  intro r hr h2 h1
  rcases h r hr h1 h2 with ⟨a, b⟩ | ⟨a, b, c⟩
  · exact .inl ⟨b, a⟩
  · exact .inr ⟨a, c, b⟩

theorem Tidy.symm {pos p1 q1 p2 q2 : Pt K} (h : Tidy pos p1 q1 p2 q2) : Tidy pos p2 q2 p1 q1 :=
  fun r hr h2 h1 => (h r hr h1 h2).symm

theorem pcmp_lt_iff {p1 q1 p2 q2 : Pt K} (h1 : p1 < q1) (h2 : p2 < q2) :
    (LineOrPoint.line p1 q1).pcmp (.line p2 q2) = some .lt ↔ Lt p1 q1 p2 q2 := by
  simp only [LineOrPoint.pcmp, Lt]
  by_cases h : p2 < p1
  · rw [if_pos h, pcmpLineLine_some (h.trans h1) h1]
    simp only [Option.map_some, Option.some.injEq, not_le.2 h, false_and, h, true_and, false_or]
    rw [← then_compare_gt]
    cases ((compare 0 (det p2 q2 p1)).then (compare 0 (det p2 q2 q1))) <;> simp
  · rw [if_neg h, pcmpLineLine_some ((not_lt.1 h).trans_lt h2) h2]
    simp only [Option.some.injEq, not_lt.1 h, true_and, h, false_and, or_false]
    exact then_compare_lt

theorem pcmp_gt_iff {p1 q1 p2 q2 : Pt K} (h1 : p1 < q1) (h2 : p2 < q2) :
    (LineOrPoint.line p1 q1).pcmp (.line p2 q2) = some .gt ↔ Lt p2 q2 p1 q1 := by
  rw [← pcmp_lt_iff h2 h1, (C12_duality (.line p1 q1) (.line p2 q2) h1 h2).1]
  rcases (LineOrPoint.line p1 q1).pcmp (.line p2 q2) with _ | (_ | _ | _) <;> simp

theorem pcmp_eq_iff {p1 q1 p2 q2 : Pt K} (h1 : p1 < q1) (h2 : p2 < q2) :
    (LineOrPoint.line p1 q1).pcmp (.line p2 q2) = some .eq ↔ det p1 q1 p2 = 0 ∧ det p1 q1 q2 = 0 := by
  simp only [LineOrPoint.pcmp]
  by_cases h : p2 < p1
  · rw [if_pos h, pcmpLineLine_some (h.trans h1) h1]
    simp only [Option.map_some, Option.some.injEq]
    have : (((compare 0 (det p2 q2 p1)).then (compare 0 (det p2 q2 q1))).swap = .eq) ↔
        ((compare 0 (det p2 q2 p1)).then (compare 0 (det p2 q2 q1)) = .eq) := by
      cases ((compare 0 (det p2 q2 p1)).then (compare 0 (det p2 q2 q1))) <;> simp
    rw [this, then_compare_eq]
    exact ⟨collinear_comm h2, collinear_comm h1⟩
  · rw [if_neg h, pcmpLineLine_some ((not_lt.1 h).trans_lt h2) h2]
    simp only [Option.some.injEq]
    exact then_compare_eq

/-- Same order, written at the start `p` of the second segment. -/
theorem lt_right_iff {p1 q1 p u : Pt K} (h : p1 ≤ p) :
    Lt p1 q1 p u ↔ 0 < det p1 q1 p ∨ det p1 q1 p = 0 ∧ 0 < det p1 q1 u := by
  simp [Lt, h, not_lt.2 h]

theorem lt_left_iff {p2 q2 p u : Pt K} (h : p2 ≤ p) :
    Lt p u p2 q2 ↔ det p2 q2 p < 0 ∨ det p2 q2 p = 0 ∧ det p2 q2 u < 0 := by
  rcases h.eq_or_lt with rfl | h
  · simp only [Lt, le_rfl, det_left, lt_irrefl, true_and, false_or, false_and, or_false]
    rw [det_swap]; constructor <;> intro h <;> linarith
  · simp [Lt, h, not_le.2 h]

/-- A linear function that is not negative at zero and rising if zero there, but negative at `Δ`, has a zero in between. -/
theorem affine_root {f0 d Δ : K} (h0 : 0 ≤ f0) (h1 : f0 = 0 → 0 < d) (hΔ : 0 ≤ Δ) (hneg : f0 + d * Δ < 0) :
    ∃ δ, 0 < δ ∧ δ < Δ ∧ f0 + d * δ = 0 := by
  have hf : 0 < f0 := by
    rcases h0.eq_or_lt with h | h
    · exfalso
      have := mul_nonneg (h1 h.symm).le hΔ
      linarith
    · exact h
  have hd : d < 0 := by
    by_contra hc
    have := mul_nonneg (not_lt.1 hc) hΔ
    linarith
  refine ⟨f0 / (-d), div_pos hf (by linarith), ?_, ?_⟩
  · rw [div_lt_iff₀ (by linarith)]; linarith
  · have : d ≠ 0 := hd.ne
    field_simp; ring

/-- What `Lt` says about heights for two non-vertical segments. -/
theorem lt_heights {p1 q1 p2 q2 : Pt K} (n1 : p1.x < q1.x) (n2 : p2.x < q2.x) (h : Lt p1 q1 p2 q2) :
    ∃ x0, (x0 = p1.x ∨ x0 = p2.x) ∧ p1.x ≤ x0 ∧ p2.x ≤ x0 ∧ 0 ≤ hgt p2 q2 x0 - hgt p1 q1 x0 ∧
      (hgt p2 q2 x0 - hgt p1 q1 x0 = 0 → 0 < slp p2 q2 - slp p1 q1) := by
  have d1 : 0 < q1.x - p1.x := sub_pos.2 n1
  have d2 : 0 < q2.x - p2.x := sub_pos.2 n2
  rcases h with ⟨hp, h⟩ | ⟨hp, h⟩
  · refine ⟨p2.x, .inr rfl, Pt.x_le_of_le hp, le_rfl, ?_, ?_⟩
    · rw [hgt_left]
      have e := det_hgt n1.ne p2
      by_contra hc
      have := mul_neg_of_pos_of_neg d1 (not_le.1 hc)
      rcases h with h | ⟨h, -⟩ <;> linarith
    · intro h0
      rw [hgt_left] at h0
      have e := det_hgt n1.ne p2
      rw [h0, mul_zero] at e
      rcases h with h | ⟨-, h⟩
      · linarith
      · rw [det_hgt n1.ne q2] at h
        have e2 := hgt_add p1 q1 p2.x q2.x
        have e3 := hgt_add p2 q2 p2.x q2.x
        rw [hgt_left, hgt_right n2.ne] at e3
        have : q2.y - hgt p1 q1 q2.x = (slp p2 q2 - slp p1 q1) * (q2.x - p2.x) := by
          rw [e2, e3]; linear_combination h0
        rw [this] at h
        by_contra hc
        have h5 := mul_nonpos_of_nonpos_of_nonneg (not_lt.1 hc) d2.le
        have := mul_nonpos_of_nonneg_of_nonpos d1.le h5
        linarith
  · refine ⟨p1.x, .inl rfl, le_rfl, Pt.x_le_of_le hp.le, ?_, ?_⟩
    · rw [hgt_left p1 q1]
      have e := det_hgt n2.ne p1
      by_contra hc
      have := mul_pos d2 (show 0 < p1.y - hgt p2 q2 p1.x by linarith [not_le.1 hc])
      rcases h with h | ⟨h, -⟩ <;> linarith
    · intro h0
      rw [hgt_left p1 q1] at h0
      have e := det_hgt n2.ne p1
      have h0' : p1.y - hgt p2 q2 p1.x = 0 := by linarith
      rw [h0', mul_zero] at e
      rcases h with h | ⟨-, h⟩
      · linarith
      · rw [det_hgt n2.ne q1] at h
        have e2 := hgt_add p2 q2 p1.x q1.x
        have e3 := hgt_add p1 q1 p1.x q1.x
        rw [hgt_left, hgt_right n1.ne] at e3
        have : q1.y - hgt p2 q2 q1.x = -((slp p2 q2 - slp p1 q1) * (q1.x - p1.x)) := by
          rw [e2, e3]; linear_combination h0'
        rw [this] at h
        by_contra hc
        have h5 := mul_nonpos_of_nonpos_of_nonneg (not_lt.1 hc) d1.le
        have := mul_nonneg d2.le (show 0 ≤ -((slp p2 q2 - slp p1 q1) * (q1.x - p1.x)) by linarith)
        linarith

/-- Two segments that are apart up to `r` are in the same order at `r` as where they were compared: a point below the lower
is below the upper, a point on the lower is not above the upper. -/
theorem mono {r p1 q1 p2 q2 : Pt K} (w1 : p1 < q1) (w2 : p2 < q2) (hlt : Lt p1 q1 p2 q2) (hJ : Apart r p1 q1 p2 q2)
    (a1 : p1 ≤ r) (b1 : r ≤ q1) (a2 : p2 ≤ r) (b2 : r ≤ q2) :
    (det p1 q1 r < 0 → det p2 q2 r < 0) ∧ (det p1 q1 r = 0 → det p2 q2 r ≤ 0) := by
  have xa1 := Pt.x_le_of_le a1
  have xb1 := Pt.x_le_of_le b1
  have xa2 := Pt.x_le_of_le a2
  have xb2 := Pt.x_le_of_le b2
  by_cases v2 : p2.x = q2.x
  · -- the upper one is vertical, so `r` is on it
    have hx : r.x = p2.x := le_antisymm (by linarith) xa2
    have e2 : det p2 q2 r = 0 := by unfold det; rw [hx, ← v2]; ring
    have y2 := Pt.y_lt_of_lt_of_eq w2 v2
    refine ⟨fun h => ?_, fun _ => e2.le⟩
    exfalso
    have hy : p2.y ≤ r.y := Pt.y_le_of_le_of_eq a2 hx.symm
    rcases hlt with ⟨hp, hl⟩ | ⟨hp, hl⟩
    · have : det p1 q1 r = det p1 q1 p2 + (q1.x - p1.x) * (r.y - p2.y) := by unfold det; rw [hx]; ring
      have h5 : 0 ≤ (q1.x - p1.x) * (r.y - p2.y) :=
        mul_nonneg (by linarith [Pt.x_le_of_le w1.le]) (by linarith)
      rcases hl with hl | ⟨hl, -⟩ <;> linarith
    · have hx1 : p1.x = p2.x := le_antisymm (by linarith) (Pt.x_le_of_le hp.le)
      have e : det p1 q1 r = (q1.x - p1.x) * (r.y - p1.y) := by unfold det; rw [hx, ← hx1]; ring
      have hy1 : p1.y ≤ r.y := Pt.y_le_of_le_of_eq a1 (by rw [hx, hx1])
      have := mul_nonneg (show 0 ≤ q1.x - p1.x by linarith [Pt.x_le_of_le w1.le]) (sub_nonneg.2 hy1)
      linarith
  by_cases v1 : p1.x = q1.x
  · have hx : r.x = p1.x := le_antisymm (by linarith) xa1
    have e1 : det p1 q1 r = 0 := by unfold det; rw [hx, ← v1]; ring
    have y1 := Pt.y_lt_of_lt_of_eq w1 v1
    refine ⟨fun h => absurd e1 h.ne, fun _ => ?_⟩
    have n2 := Pt.x_lt_of_lt_of_ne w2 v2
    have hy : p1.y ≤ r.y := Pt.y_le_of_le_of_eq a1 hx.symm
    have yq : r.y ≤ q1.y := Pt.y_le_of_le_of_eq b1 (by rw [hx, v1])
    by_contra hc
    have hc := not_le.1 hc
    -- `r` is above the upper one, `p1` below it: they meet below `r`
    have hd : 0 < q2.x - p2.x := sub_pos.2 n2
    have hm : OnSeg p2 q2 ⟨r.x, hgt p2 q2 r.x⟩ := onSeg_of_hgt n2 xa2 xb2
    have hlow : hgt p2 q2 r.x < r.y := by
      rw [det_hgt n2.ne] at hc
      by_contra h6
      have := mul_nonpos_of_nonneg_of_nonpos hd.le (show r.y - hgt p2 q2 r.x ≤ 0 by linarith [not_lt.1 h6])
      linarith
    rcases hlt with ⟨hp, hl⟩ | ⟨hp, hl⟩
    · -- p1 ≤ p2, on the same vertical
      have hx2 : p2.x = p1.x := le_antisymm (by linarith) (Pt.x_le_of_le hp)
      have e : det p1 q1 p2 = 0 := by unfold det; rw [hx2, v1]; ring
      have e' : det p1 q1 q2 = - ((q1.y - p1.y) * (q2.x - p1.x)) := by unfold det; rw [v1]; ring
      rw [e, e'] at hl
      simp only [lt_irrefl, true_and, false_or] at hl
      have := mul_pos (sub_pos.2 y1) (show 0 < q2.x - p1.x by linarith)
      linarith
    · have e : det p2 q2 p1 = (q2.x - p2.x) * (p1.y - hgt p2 q2 r.x) := by rw [det_hgt n2.ne, hx]
      have h7 : p1.y ≤ hgt p2 q2 r.x := by
        by_contra h8
        have := mul_pos hd (sub_pos.2 (not_le.1 h8))
        rcases hl with hl | ⟨hl, -⟩ <;> linarith
      have hm1 : OnSeg p1 q1 ⟨r.x, hgt p2 q2 r.x⟩ := by
        rw [hx]; exact onSeg_vert v1 y1 (by rw [← hx]; exact h7) (by rw [← hx]; linarith)
      rcases hJ ⟨r.x, hgt p2 q2 r.x⟩ (.inr ⟨rfl, hlow.le⟩) hm1 hm with ⟨m1, m2⟩ | ⟨m1, -, -⟩
      · exact hp.ne (m2.symm.trans m1)
      · have : hgt p2 q2 r.x = r.y := congrArg Pt.y m1
        linarith
  · have n1 := Pt.x_lt_of_lt_of_ne w1 v1
    have n2 := Pt.x_lt_of_lt_of_ne w2 v2
    have d1 : 0 < q1.x - p1.x := sub_pos.2 n1
    have d2 : 0 < q2.x - p2.x := sub_pos.2 n2
    obtain ⟨x0, hx0, hx1, hx2, hf, hs⟩ := lt_heights n1 n2 hlt
    have hxr : x0 ≤ r.x := by rcases hx0 with rfl | rfl <;> assumption
    have key : ¬ (hgt p2 q2 r.x - hgt p1 q1 r.x < 0) := by
      intro hneg
      have e : hgt p2 q2 r.x - hgt p1 q1 r.x =
          (hgt p2 q2 x0 - hgt p1 q1 x0) + (slp p2 q2 - slp p1 q1) * (r.x - x0) := by
        rw [hgt_add p2 q2 x0 r.x, hgt_add p1 q1 x0 r.x]; ring
      rw [e] at hneg
      obtain ⟨δ, δ0, δ1, hδ⟩ := affine_root hf hs (sub_nonneg.2 hxr) hneg
      have em : hgt p1 q1 (x0 + δ) = hgt p2 q2 (x0 + δ) := by
        rw [hgt_add p2 q2 x0 (x0 + δ), hgt_add p1 q1 x0 (x0 + δ)]; linear_combination -hδ
      have m1 : OnSeg p1 q1 ⟨x0 + δ, hgt p1 q1 (x0 + δ)⟩ := onSeg_of_hgt n1 (by linarith) (by linarith)
      have m2 : OnSeg p2 q2 ⟨x0 + δ, hgt p1 q1 (x0 + δ)⟩ := by
        rw [em]; exact onSeg_of_hgt n2 (by linarith) (by linarith)
      rcases hJ _ (.inl (by simp; linarith)) m1 m2 with ⟨h1, -⟩ | ⟨h1, -⟩
      · have := congrArg Pt.x h1; simp at this; linarith
      · have := congrArg Pt.x h1; simp at this; linarith
    have key := not_lt.1 key
    rw [det_hgt n1.ne, det_hgt n2.ne]
    constructor
    · intro h
      have : r.y - hgt p1 q1 r.x < 0 := by
        by_contra hc
        have := mul_nonneg d1.le (not_lt.1 hc)
        linarith
      exact mul_neg_of_pos_of_neg d2 (by linarith)
    · intro h
      have : r.y - hgt p1 q1 r.x = 0 := (mul_eq_zero.1 h).resolve_left d1.ne'
      exact mul_nonpos_of_nonneg_of_nonpos d2.le (by linarith)

/-- Directions to the right of `p` are ordered transitively by `det`. -/
theorem angle {p a b u : Pt K} (ha : p < a) (hb : p < b) (hu : p < u) (h1 : 0 < det p a b) (h2 : det p a u ≤ 0) :
    det p b u < 0 := by
  by_contra hc
  have hc := not_lt.1 hc
  have xa := sub_nonneg.2 (Pt.x_le_of_le ha.le)
  have xb := sub_nonneg.2 (Pt.x_le_of_le hb.le)
  have xu := sub_nonneg.2 (Pt.x_le_of_le hu.le)
  have ex : det p a b * (u.x - p.x) + det p b u * (a.x - p.x) - det p a u * (b.x - p.x) = 0 := by unfold det; ring
  have t1 := mul_nonneg h1.le xu
  have t2 := mul_nonneg hc xa
  have t3 := mul_nonneg (neg_nonneg.2 h2) xb
  have z1 : det p a b * (u.x - p.x) = 0 := by linarith
  have hux : u.x - p.x = 0 := (mul_eq_zero.1 z1).resolve_left h1.ne'
  have huy : 0 < u.y - p.y := by
    have := Pt.y_lt_of_lt_of_eq hu (by linarith)
    linarith
  have e : det p a u = (a.x - p.x) * (u.y - p.y) := by
    have : det p a u = (a.x - p.x) * (u.y - p.y) - (a.y - p.y) * (u.x - p.x) := rfl
    rw [this, hux]; ring
  rw [e] at h2
  have hax : a.x - p.x = 0 := by
    rcases xa.eq_or_lt with h | h
    · exact h.symm
    · have := mul_pos h huy; linarith
  have hay : 0 < a.y - p.y := by
    have := Pt.y_lt_of_lt_of_eq ha (by linarith)
    linarith
  have e2 : det p a b = - ((a.y - p.y) * (b.x - p.x)) := by
    have : det p a b = (a.x - p.x) * (b.y - p.y) - (a.y - p.y) * (b.x - p.x) := rfl
    rw [this, hax]; ring
  have := mul_nonneg hay.le xb
  linarith

/-- A segment starting at the sweep position has a well-defined place among active segments: it is above the lower or below
the upper of any two. -/
theorem place {p u p1 q1 p2 q2 : Pt K} (w1 : p1 < q1) (w2 : p2 < q2) (hlt : Lt p1 q1 p2 q2)
    (hJ : Apart p p1 q1 p2 q2) (a1 : p1 ≤ p) (b1 : p < q1) (a2 : p2 ≤ p) (b2 : p < q2) (wu : p < u) :
    Lt p1 q1 p u ∨ Lt p u p2 q2 := by
  obtain ⟨m1, m2⟩ := mono w1 w2 hlt hJ a1 b1.le a2 b2.le
  rw [lt_right_iff a1, lt_left_iff a2]
  rcases lt_trichotomy (det p1 q1 p) 0 with h | h | h
  · exact .inr (.inl (m1 h))
  · rcases (m2 h).lt_or_eq with h' | h'
    · exact .inr (.inl h')
    · rcases hJ p le_rfl ((onSeg_iff w1).2 ⟨h, a1, b1.le⟩) ((onSeg_iff w2).2 ⟨h', a2, b2.le⟩) with ⟨e1, e2⟩ | ⟨-, e1, -⟩
      · subst e1; subst e2
        by_cases hu : 0 < det p q1 u
        · exact .inl (.inr ⟨h, hu⟩)
        · refine .inr (.inr ⟨h', ?_⟩)
          rw [lt_right_iff le_rfl] at hlt
          simp only [det_left, lt_irrefl, true_and, false_or] at hlt
          exact angle w1 w2 wu hlt (not_lt.1 hu)
      · exact absurd e1 b1.ne
  · exact .inl (.inl h)

/-- The same for a point event: it is strictly above the lower, or on or below the upper. -/
theorem place_point {p p1 q1 p2 q2 : Pt K} (w1 : p1 < q1) (w2 : p2 < q2) (hlt : Lt p1 q1 p2 q2)
    (hJ : Apart p p1 q1 p2 q2) (a1 : p1 ≤ p) (b1 : p ≤ q1) (a2 : p2 ≤ p) (b2 : p ≤ q2) :
    0 < det p1 q1 p ∨ det p2 q2 p ≤ 0 := by
  obtain ⟨m1, m2⟩ := mono w1 w2 hlt hJ a1 b1 a2 b2
  rcases lt_trichotomy (det p1 q1 p) 0 with h | h | h
  · exact .inr (m1 h).le
  · exact .inr (m2 h)
  · exact .inl h

end GeoCrossings
