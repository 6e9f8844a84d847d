import Verif.Lemmas.Affine

/-! # Near every point there is one on no side, with the same edges below -/
set_option linter.unusedSectionVars false
namespace GeoCrossings.Spec

variable {K : Type _} [Field K] [LinearOrder K] [IsStrictOrderedRing K]

/-- `z` is not on the side, which is below both or none of `z` and `r`. -/
def Beside (r : Pt K) (e : Pt K × Pt K) (z : Pt K) : Prop := ¬ OnSeg e.1 e.2 z ∧ (PassesBelow z e.1 e.2 ↔ PassesBelow r e.1 e.2)

theorem Beside.symm {r a b z : Pt K} (h : Beside r (b, a) z) : Beside r (a, b) z := by
  refine ⟨fun ho => h.1 ?_, ⟨fun k => (h.2.1 k.symm).symm, fun k => (h.2.2 k.symm).symm⟩⟩
  obtain ⟨t, t0, t1, tx, ty⟩ := ho
  exact ⟨1 - t, by linarith, by linarith, by rw [tx]; ring, by rw [ty]; ring⟩

theorem onSeg_det0 {a b z : Pt K} (h : OnSeg a b z) : det a b z = 0 := by
  obtain ⟨t, -, -, tx, ty⟩ := h
  unfold det
  rw [tx, ty]; ring

theorem onSeg_x {a b z : Pt K} (h : OnSeg a b z) (hab : a.x ≤ b.x) : a.x ≤ z.x ∧ z.x ≤ b.x := by
  obtain ⟨t, t0, t1, tx, -⟩ := h
  rw [tx]
  have := mul_nonneg t0 (sub_nonneg.2 hab)
  have := mul_le_mul_of_nonneg_right t1 (sub_nonneg.2 hab)
  constructor <;> linarith

theorem not_passesBelow {a b z : Pt K} (hab : a.x ≤ b.x) (h : z.x < a.x ∨ b.x ≤ z.x) : ¬ PassesBelow z a b := by
  rintro ⟨h1, h2, -⟩
  rw [min_eq_left hab] at h1
  rw [max_eq_right hab] at h2
  rcases h with h | h
  · exact absurd h1 (not_le.2 h)
  · exact absurd h2 (not_lt.2 h)

/-- A little lower, and then still less to the right. -/
theorem beside_one (r : Pt K) {a b : Pt K} (hab : a.x ≤ b.x) :
    ∃ δ0 > 0, ∀ δ, 0 < δ → δ < δ0 → ∃ ε0 > 0, ∀ ε, 0 < ε → ε < ε0 → Beside r (a, b) ⟨r.x + ε, r.y - δ⟩ := by
  by_cases h1 : r.x < a.x
  · refine ⟨1, zero_lt_one, fun δ _ _ => ⟨a.x - r.x, sub_pos.2 h1, fun ε h2 h3 => ⟨fun ho => ?_, iff_of_false ?_ ?_⟩⟩⟩
    · exact absurd (onSeg_x ho hab).1 (not_le.2 (show r.x + ε < a.x by linarith))
    · exact not_passesBelow hab (.inl (show r.x + ε < a.x by linarith))
    · exact not_passesBelow hab (.inl h1)
  rw [not_lt] at h1
  by_cases h2 : b.x ≤ r.x
  · refine ⟨1, zero_lt_one, fun δ _ _ => ⟨1, zero_lt_one, fun ε h3 _ => ⟨fun ho => ?_, iff_of_false ?_ ?_⟩⟩⟩
    · exact absurd (onSeg_x ho hab).2 (not_le.2 (show b.x < r.x + ε by linarith))
    · exact not_passesBelow hab (.inr (show b.x ≤ r.x + ε by linarith))
    · exact not_passesBelow hab (.inr h2)
  rw [not_le] at h2
  have hlt : a.x < b.x := h1.trans_lt h2
  have hw : 0 < b.x - a.x := sub_pos.2 hlt
  have hdet : ∀ ε δ, det a b ⟨r.x + ε, r.y - δ⟩ = det a b r - δ * (b.x - a.x) - ε * (b.y - a.y) := by
    intro ε δ; unfold det; simp only; ring
  have key : ∀ m : K, 0 < m → ∃ ε0 > 0, ∀ ε, 0 < ε → ε < ε0 → ε < b.x - r.x ∧ ε * |b.y - a.y| < m := by
    intro m hm
    have hp : 0 < |b.y - a.y| + 1 := by have := abs_nonneg (b.y - a.y); linarith
    refine ⟨min (b.x - r.x) (m / (|b.y - a.y| + 1)), lt_min (sub_pos.2 h2) (div_pos hm hp), fun ε k1 k2 => ?_⟩
    have k3 := (lt_min_iff.1 k2).2
    rw [lt_div_iff₀ hp] at k3
    exact ⟨(lt_min_iff.1 k2).1, by nlinarith⟩
  by_cases h3 : 0 < det a b r
  · refine ⟨det a b r / (b.x - a.x), div_pos h3 hw, fun δ k1 k2 => ?_⟩
    rw [lt_div_iff₀ hw] at k2
    obtain ⟨ε0, e1, e2⟩ := key (det a b r - δ * (b.x - a.x)) (by linarith)
    refine ⟨ε0, e1, fun ε k3 k4 => ?_⟩
    obtain ⟨k5, k6⟩ := e2 ε k3 k4
    have hd : 0 < det a b ⟨r.x + ε, r.y - δ⟩ := by
      rw [hdet]
      have := mul_le_mul_of_nonneg_left (le_abs_self (b.y - a.y)) k3.le
      linarith
    exact ⟨fun ho => hd.ne' (onSeg_det0 ho), iff_of_true ((passesBelow_iff_of_lt hlt).2 ⟨show a.x ≤ r.x + ε by linarith, show r.x + ε < b.x by linarith, hd⟩)
      ((passesBelow_iff_of_lt hlt).2 ⟨h1, h2, h3⟩)⟩
  · rw [not_lt] at h3
    refine ⟨1, zero_lt_one, fun δ k1 _ => ?_⟩
    have := mul_pos k1 hw
    obtain ⟨ε0, e1, e2⟩ := key (δ * (b.x - a.x) - det a b r) (by linarith)
    refine ⟨ε0, e1, fun ε k3 k4 => ?_⟩
    obtain ⟨k5, k6⟩ := e2 ε k3 k4
    have hd : det a b ⟨r.x + ε, r.y - δ⟩ < 0 := by
      rw [hdet]
      have := mul_le_mul_of_nonneg_left (neg_abs_le (b.y - a.y)) k3.le
      linarith
    refine ⟨fun ho => hd.ne (onSeg_det0 ho), iff_of_false (fun k => ?_) fun k => ?_⟩
    · exact absurd ((passesBelow_iff_of_lt hlt).1 k).2.2 (not_lt.2 hd.le)
    · exact absurd ((passesBelow_iff_of_lt hlt).1 k).2.2 (not_lt.2 h3)

theorem beside_all (r : Pt K) : ∀ es : List (Pt K × Pt K),
    ∃ δ0 > 0, ∀ δ, 0 < δ → δ < δ0 → ∃ ε0 > 0, ∀ ε, 0 < ε → ε < ε0 → ∀ e ∈ es, Beside r e ⟨r.x + ε, r.y - δ⟩
  | [] => ⟨1, zero_lt_one, fun _ _ _ => ⟨1, zero_lt_one, fun _ _ _ e he => by simp at he⟩⟩
  | (a, b) :: es => by
    obtain ⟨d1, p1, h1⟩ := beside_all r es
    obtain ⟨d2, p2, h2⟩ : ∃ δ0 > 0, ∀ δ, 0 < δ → δ < δ0 → ∃ ε0 > 0, ∀ ε, 0 < ε → ε < ε0 → Beside r (a, b) ⟨r.x + ε, r.y - δ⟩ := by
      rcases le_total a.x b.x with h | h
      · exact beside_one r h
      · obtain ⟨d, p, k⟩ := beside_one r h
        refine ⟨d, p, fun δ q1 q2 => ?_⟩
        obtain ⟨e, p', k'⟩ := k δ q1 q2
        exact ⟨e, p', fun ε q3 q4 => (k' ε q3 q4).symm⟩
    refine ⟨min d1 d2, lt_min p1 p2, fun δ q1 q2 => ?_⟩
    obtain ⟨e1, p3, h3⟩ := h1 δ q1 (lt_min_iff.1 q2).1
    obtain ⟨e2, p4, h4⟩ := h2 δ q1 (lt_min_iff.1 q2).2
    refine ⟨min e1 e2, lt_min p3 p4, fun ε q3 q4 e he => ?_⟩
    rcases List.mem_cons.1 he with rfl | he
    · exact h4 ε q3 (lt_min_iff.1 q4).2
    · exact h3 ε q3 (lt_min_iff.1 q4).1 e he

/-- For given rings and a point there is another point on no side of the rings that has the same sides below. -/
theorem off_sides (rings : List (List (Pt K))) (r : Pt K) :
    ∃ z, ¬ OnRings rings z ∧ ∀ R : List (List (Pt K)), R ⊆ rings → (EvenOdd R z ↔ EvenOdd R r) := by
  obtain ⟨d, p1, h1⟩ := beside_all r (rings.flatMap ringEdges)
  obtain ⟨e, p2, h2⟩ := h1 (d / 2) (by linarith) (by linarith)
  have h := h2 (e / 2) (by linarith) (by linarith)
  refine ⟨⟨r.x + e / 2, r.y - d / 2⟩, ?_, fun R hR => ?_⟩
  · rintro ⟨l, hl, x, hx, ho⟩
    exact (h x (List.mem_flatMap.2 ⟨l, hl, hx⟩)).1 ho
  · unfold EvenOdd edgesBelow
    have : ∀ l ∈ R, (l.zip l.tail).countP (fun x => decide (PassesBelow ⟨r.x + e / 2, r.y - d / 2⟩ x.1 x.2)) =
        (l.zip l.tail).countP fun x => decide (PassesBelow r x.1 x.2) := by
      intro l hl
      refine List.countP_congr fun x hx => ?_
      simp only [decide_eq_true_eq]
      exact (h x (List.mem_flatMap.2 ⟨l, hR hl, hx⟩)).2
    rw [List.map_congr_left this]

end GeoCrossings.Spec
