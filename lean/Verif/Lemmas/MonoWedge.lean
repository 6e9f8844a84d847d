import Verif.Lemmas.MonoChain

/-!
# A point between two chains whose last edges differ
-/
set_option linter.unusedSectionVars false
namespace GeoCrossings.Monotone
open Spec

variable {K : Type} [Field K] [LinearOrder K] [IsStrictOrderedRing K]

theorem lt_left_wedge {a b : Sg K} {v : Pt K} (ha : a.2 = v) (hb : b.2 = v) (h : a.Lt b) : 0 < det v b.1 a.1 := by
  have e1 : det a.1 v b.1 = det v b.1 a.1 := by unfold det; ring
  have e2 : det b.1 v a.1 = - det v b.1 a.1 := by unfold det; ring
  rcases h with ⟨-, h | ⟨-, h⟩⟩ | ⟨-, h | ⟨-, h⟩⟩
  · rw [ha, e1] at h; exact h
  · rw [ha, hb] at h; simp [det_right] at h
  · rw [hb, e2] at h; linarith
  · rw [ha, hb] at h; simp [det_right] at h

theorem small_pos {p : K} (q : K) (hp : 0 < p) : ∃ δ, 0 < δ ∧ ∀ s, 0 < s → s < δ → 0 < p + s * q := by
  have h1 : 0 < |q| + 1 := by have := abs_nonneg q; linarith
  refine ⟨p / (|q| + 1), div_pos hp h1, fun s h0 h => ?_⟩
  rw [lt_div_iff₀ h1] at h
  have h2 : -(s * |q|) ≤ s * q := by
    have := mul_le_mul_of_nonneg_left (neg_abs_le q) h0.le
    linarith
  nlinarith

/-- The edge with which an increasing chain reaches the abscissa of its last point. -/
theorem last_column {c : Pt K} : ∀ {l : List (Pt K)} {s : Pt K}, Incr l → l.head? = some s → l.getLast? = some c → s.x < c.x →
    ∃ e ∈ es l, e.1.x < c.x ∧ e.2.x = c.x
  | [], s, _, h, _, _ => by simp at h
  | [a], s, _, h, h', hx => by
    simp only [List.head?_cons, List.getLast?_singleton, Option.some.injEq] at h h'
    rw [← h, h'] at hx
    exact absurd hx (lt_irrefl _)
  | a :: b :: l, s, hi, h, h', hx => by
    simp only [List.head?_cons, Option.some.injEq] at h
    subst h
    have hi' : Incr (b :: l) := (List.pairwise_cons.1 hi).2
    have hl : (b :: l).getLast? = some c := by simpa using h'
    rcases (Pt.x_le_of_le (hi'.le_last hl (by simp : b ∈ b :: l))).lt_or_eq with k | k
    · obtain ⟨e, he, h1⟩ := last_column hi' rfl hl k
      exact ⟨e, List.mem_cons_of_mem _ he, h1⟩
    · exact ⟨(a, b), by simp [es], hx, k⟩

/-- Two increasing chains from one point to `v`, the last edge of `T` above that of `B`: some point is above `B` and not above `T`. -/
theorem wedge_between {T B : List (Pt K)} {a c v : Pt K} (iT : Incr T) (iB : Incr B) (hh : T.head? = B.head?) (eT : EndsIn T a v)
    (eB : EndsIn B c v) (h : 0 < det c v a) : ∃ r, Pass r B ∧ ¬ Pass r T := by
  obtain ⟨pT, rfl⟩ := eT
  obtain ⟨pB, rfl⟩ := eB
  have av : a < v := by
    have := (List.pairwise_append.1 iT).2.1
    simpa using this
  have cv : c < v := by
    have := (List.pairwise_append.1 iB).2.1
    simpa using this
  have ax : a.x < v.x := by
    rcases (Pt.x_le_of_le av.le).lt_or_eq with k | k
    · exact k
    · have hy : a.y < v.y := by
        rcases Pt.lt_def.1 av with h | h
        · rw [k] at h; exact absurd h (lt_irrefl _)
        · exact h.2
      have : det c v a = (v.x - c.x) * (a.y - v.y) := by unfold det; rw [k]; ring
      rw [this] at h
      have := mul_nonneg (sub_nonneg.2 (Pt.x_le_of_le cv.le)) (sub_nonneg.2 hy.le)
      nlinarith
  -- the edge of `B` just to the left of `v`
  have key : ∃ e ∈ es (pB ++ [c, v]), e.1.x < v.x ∧ e.2.x = v.x ∧ 0 ≤ det e.1 e.2 v ∧ (0 < det e.1 e.2 v ∨ 0 < det e.1 e.2 a) := by
    rcases (Pt.x_le_of_le cv.le).lt_or_eq with k | k
    · exact ⟨(c, v), by rw [es_pre]; simp, k, rfl, by rw [det_right], .inr h⟩
    · have e0 : pB ++ [c, v] = (pB ++ [c]) ++ [v] := by simp
      have iB' : Incr (pB ++ [c]) := by rw [e0] at iB; exact iB.init
      obtain ⟨s, hs⟩ : ∃ s, (pB ++ [c]).head? = some s := by
        cases pB with
        | nil => exact ⟨c, rfl⟩
        | cons s l => exact ⟨s, rfl⟩
      have hs' : (pT ++ [a, v]).head? = some s := by
        rw [hh, e0, ← hs]
        cases pB <;> rfl
      have sa : s ≤ a := by
        cases pT with
        | nil => simp at hs'; exact hs'.ge
        | cons z l =>
          simp only [List.cons_append, List.head?_cons, Option.some.injEq] at hs'
          subst hs'
          exact ((List.pairwise_cons.1 iT).1 a (by simp)).le
      have sx : s.x < c.x := by rw [k]; exact lt_of_le_of_lt (Pt.x_le_of_le sa) ax
      obtain ⟨e, he, h1, h2⟩ := last_column iB' hs (by simp) sx
      have h3 := iB'.le_last (a := c) (by simp) (mem_es he).2
      have hy : e.2.y < v.y := by
        rcases Pt.lt_def.1 (lt_of_le_of_lt h3 cv) with h | h
        · rw [h2, k] at h; exact absurd h (lt_irrefl _)
        · exact h.2
      have hp : 0 < det e.1 e.2 v := by
        have : det e.1 e.2 v = (e.2.x - e.1.x) * (v.y - e.2.y) := by unfold det; rw [← k, ← h2]; ring
        rw [this, h2]
        exact mul_pos (by linarith) (by linarith)
      exact ⟨e, by rw [es_pre]; simp [he], by rw [← k]; exact h1, by rw [← k]; exact h2, hp.le, .inl hp⟩
  obtain ⟨e, he, h1, h2, h3, h4⟩ := key
  -- a point of the last edge of `T` close to `v`
  obtain ⟨δ1, d1, f1⟩ := small_pos (a.x - v.x) (sub_pos.2 h1)
  obtain ⟨δ2, d2, f2⟩ : ∃ δ, 0 < δ ∧ ∀ s, 0 < s → s < δ → 0 < det e.1 e.2 v + s * (det e.1 e.2 a - det e.1 e.2 v) := by
    rcases h3.lt_or_eq with k | k
    · exact small_pos _ k
    · rw [← k] at h4 ⊢
      have h4 := h4.resolve_left (lt_irrefl _)
      refine ⟨1, one_pos, fun s s0 _ => ?_⟩
      rw [zero_add, sub_zero]
      exact mul_pos s0 h4
  set s := min 1 (min δ1 δ2) / 2 with hs
  have m0 : 0 < min 1 (min δ1 δ2) := lt_min one_pos (lt_min d1 d2)
  have s0 : 0 < s := half_pos m0
  have sm : s < min 1 (min δ1 δ2) := half_lt_self m0
  have s1 : s < 1 := sm.trans_le (min_le_left _ _)
  have g1 := f1 s s0 (sm.trans_le ((min_le_right _ _).trans (min_le_left _ _)))
  have g2 := f2 s s0 (sm.trans_le ((min_le_right _ _).trans (min_le_right _ _)))
  have hd : ∀ p q : Pt K, det p q ⟨v.x + s * (a.x - v.x), v.y + s * (a.y - v.y)⟩ = det p q v + s * (det p q a - det p q v) := by
    intro p q; unfold det; simp only; ring
  have rx : v.x + s * (a.x - v.x) < v.x := by
    have := mul_pos s0 (sub_pos.2 ax)
    linarith
  have rx' : a.x < v.x + s * (a.x - v.x) := by
    have := mul_lt_mul_of_pos_right s1 (sub_pos.2 ax)
    linarith
  refine ⟨⟨v.x + s * (a.x - v.x), v.y + s * (a.y - v.y)⟩, ⟨e, he, Pt.lt_def.2 (.inl ?_), Pt.lt_def.2 (.inl ?_), ?_⟩, fun hp => ?_⟩
  · simp only; linarith
  · simp only; rw [h2]; exact rx
  · rw [hd]; exact g2
  · obtain ⟨-, -, hp⟩ := pass_edge iT ⟨pT, rfl⟩ (Pt.lt_def.2 (.inl rx')).le hp
    simp only at hp
    rw [hd, det_right, det_left] at hp
    simp at hp

end GeoCrossings.Monotone
