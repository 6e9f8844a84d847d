import Verif.Lemmas.BatchShape
import Mathlib.Algebra.Group.Nat.Even
import Mathlib.Algebra.Ring.Parity

/-! # Counting pieces of tilings -/
set_option linter.unusedSectionVars false
namespace GeoCrossings
open Spec

variable {K C : Type} [Field K] [LinearOrder K] [IsStrictOrderedRing K]
variable {lineOf : C → Line K}

theorem consecutive_ends (r : Pt K) : ∀ {l : List (Pt K × Pt K)} {p q : Pt K}, Consecutive p q l →
    Even (l.countP (fun ab => ab.1 = r) + l.countP (fun ab => ab.2 = r) + ((if p = r then 1 else 0) + if q = r then 1 else 0))
  | [], p, q, h => by
    have h : p = q := h
    subst h; split <;> simp
  | (a, b) :: l, p, q, h => by
    obtain ⟨rfl, h1, h2⟩ := h
    have := consecutive_ends r h2
    simp only [List.countP_cons, decide_eq_true_eq]
    rw [Nat.even_iff] at this ⊢
    omega

/-- The pieces of the lines `cs` have as many ends at `r` as the lines, up to an even number. -/
theorem Tiled.ends {cs : List C} {tri : List (C × Pt K × Pt K)} (h : Tiled lineOf cs tri) (P : C → Bool) (r : Pt K) :
    Even (tri.countP (fun t => P t.1 ∧ t.2.1 = r) + tri.countP (fun t => P t.1 ∧ t.2.2 = r) +
      (cs.countP (fun c => P c ∧ lo (lineOf c) = r) + cs.countP (fun c => P c ∧ hi (lineOf c) = r))) := by
  obtain ⟨tl, rfl, h2, h3⟩ := h
  rw [h3.countP_eq, h3.countP_eq]
  clear h3
  induction tl with
  | nil => simp
  | cons e tl ih =>
    have := ih fun e he => h2 e (by simp [he])
    have hc := consecutive_ends r (h2 e (by simp))
    simp only [List.flatMap_cons, List.countP_append, List.countP_map, List.map_cons, List.countP_cons]
    simp only [List.countP_map] at this
    rw [Nat.even_iff] at this hc ⊢
    by_cases hp : P e.1 = true
    · simp only [Function.comp_def, hp, true_and, decide_eq_true_eq] at this ⊢
      omega
    · simp only [Function.comp_def, hp, Bool.false_eq_true, false_and, decide_false, if_false] at this ⊢
      simp only [List.countP_false, Function.const_apply]
      omega

theorem Consecutive.ge : ∀ {l : List (Pt K × Pt K)} {p q : Pt K}, Consecutive p q l → p ≤ q ∧ ∀ ab ∈ l, p ≤ ab.1 ∧ ab.1 < ab.2 ∧ ab.2 ≤ q
  | [], p, q, h => by
    have h : p = q := h
    simp [h]
  | (a, b) :: l, p, q, h => by
    obtain ⟨rfl, h1, h2⟩ := h
    obtain ⟨k1, k2⟩ := Consecutive.ge h2
    refine ⟨h1.le.trans k1, ?_⟩
    intro ab hab
    rcases List.mem_cons.1 hab with rfl | hab
    · exact ⟨le_rfl, h1, k1⟩
    · obtain ⟨j1, j2, j3⟩ := k2 ab hab
      exact ⟨h1.le.trans j1, j2, j3⟩

theorem consecutive_cover_le_one (pos : Pt K) : ∀ {l : List (Pt K × Pt K)} {p q : Pt K}, Consecutive p q l →
    (l.filter fun ab => ab.1 ≤ pos ∧ pos < ab.2).length ≤ 1
  | [], _, _, _ => by simp
  | (a, b) :: l, p, q, h => by
    obtain ⟨rfl, h1, h2⟩ := h
    have ih := consecutive_cover_le_one pos h2
    rw [List.filter_cons]
    split
    · rename_i k
      simp only [decide_eq_true_eq] at k
      have : l.filter (fun ab => decide (ab.1 ≤ pos ∧ pos < ab.2)) = [] := by
        rw [List.filter_eq_nil_iff]
        intro ab hab
        have := (Consecutive.ge h2).2 ab hab
        simp only [decide_eq_true_eq, not_and, not_lt]
        intro k'
        exact absurd (this.1.trans k') (not_le.2 k.2)
      rw [this]; simp
    · exact ih

/-- A line has at most one piece at a time. -/
theorem Tiled.cover {cs : List C} {tri : List (C × Pt K × Pt K)} (h : Tiled lineOf cs tri) (hn : cs.Nodup) (pos : Pt K) :
    ((tri.filter fun t => t.2.1 ≤ pos ∧ pos < t.2.2).map (·.1)).Nodup := by
  obtain ⟨tl, rfl, h2, h3⟩ := h
  rw [((h3.filter _).map _).nodup_iff]
  clear h3
  induction tl with
  | nil => simp
  | cons e tl ih =>
    rw [List.map_cons, List.nodup_cons] at hn
    rw [List.flatMap_cons, List.filter_append, List.map_append, List.nodup_append']
    have hs : (((e.2.map fun ab => (e.1, ab)).filter fun t => decide (t.2.1 ≤ pos ∧ pos < t.2.2)).map (·.1)) =
        (e.2.filter fun ab => decide (ab.1 ≤ pos ∧ pos < ab.2)).map fun _ => e.1 := by
      rw [List.filter_map, List.map_map]; rfl
    refine ⟨?_, ih hn.2 fun e he => h2 e (by simp [he]), ?_⟩
    · rw [hs]
      have := consecutive_cover_le_one pos (h2 e (by simp))
      generalize (e.2.filter fun ab => decide (ab.1 ≤ pos ∧ pos < ab.2)) = l at this
      match l, this with
      | [], _ => simp
      | [x], _ => simp
      | _ :: _ :: _, h => simp at h
    · intro c h1 h2
      obtain ⟨t1, ht1, rfl⟩ := List.mem_map.1 h1
      have e1 := List.mem_of_mem_filter ht1
      obtain ⟨ab, -, rfl⟩ := List.mem_map.1 e1
      obtain ⟨t2, ht2, e2⟩ := List.mem_map.1 h2
      have e3 := List.mem_of_mem_filter ht2
      obtain ⟨e', he', ht⟩ := List.mem_flatMap.1 e3
      obtain ⟨ab', -, rfl⟩ := List.mem_map.1 ht
      have e2 : e'.1 = e.1 := e2
      exact hn.1 (e2 ▸ List.mem_map_of_mem (f := fun e => e.1) he')

/-- The segment passes strictly below `r`. -/
def Under (r p q : Pt K) : Prop := p.x ≤ r.x ∧ r.x < q.x ∧ 0 < det p q r

instance (r p q : Pt K) : Decidable (Under r p q) := by unfold Under; infer_instance

theorem consecutive_x (x : K) : ∀ {l : List (Pt K × Pt K)} {p q : Pt K}, Consecutive p q l →
    l.countP (fun ab => ab.1.x ≤ x ∧ x < ab.2.x) = if p.x ≤ x ∧ x < q.x then 1 else 0
  | [], p, q, h => by
    have h : p = q := h
    subst h
    rw [if_neg]; · simp
    rintro ⟨h1, h2⟩; exact absurd h1 (not_le.2 h2)
  | (a, b) :: l, p, q, h => by
    obtain ⟨rfl, h1, h2⟩ := h
    rw [List.countP_cons, consecutive_x x h2]
    have h3 := Pt.x_le_of_le h1.le
    have h4 := Pt.x_le_of_le (Consecutive.ge h2).1
    simp only [decide_eq_true_eq]
    by_cases k : b.x ≤ x
    · rw [if_neg (show ¬ (a.x ≤ x ∧ x < b.x) from fun h => absurd k (not_le.2 h.2))]
      have : a.x ≤ x := h3.trans k
      simp [k, this]
    · have k := not_le.1 k
      rw [if_neg (show ¬ (b.x ≤ x ∧ x < q.x) from fun h => absurd h.1 (not_le.2 k))]
      simp [k, k.trans_le h4]

theorem det_sub {p q a b : Pt K} (ha : OnSeg p q a) (hb : OnSeg p q b) : ∃ s t : K, b.x - a.x = (t - s) * (q.x - p.x) ∧
    ∀ r, det a b r = (t - s) * det p q r := by
  obtain ⟨s, -, -, ax, ay⟩ := ha
  obtain ⟨t, -, -, bx, b_y⟩ := hb
  refine ⟨s, t, by rw [ax, bx]; ring, fun r => ?_⟩
  unfold det; rw [ax, ay, bx, b_y]; ring

theorem under_sub {p q a b r : Pt K} (hpq : p < q) (ha : OnSeg p q a) (hb : OnSeg p q b) (hab : a.x < b.x) :
    0 < det a b r ↔ 0 < det p q r := by
  obtain ⟨s, t, h1, h2⟩ := det_sub ha hb
  have hx := Pt.x_le_of_le hpq.le
  have : 0 < t - s := by
    by_contra k
    have := mul_nonneg (neg_nonneg.2 (not_lt.1 k)) (sub_nonneg.2 hx)
    have h3 := sub_pos.2 hab
    rw [h1] at h3
    rw [neg_mul] at this
    exact absurd h3 (not_lt.2 (neg_nonneg.1 this))
  rw [h2]
  exact mul_pos_iff_of_pos_left this

theorem under_shr {p q q' r : Pt K} (hpq : p < q) (h : Sg.Shr (p, q) (p, q')) (hr : r.x < q'.x) : Under r p q' ↔ Under r p q := by
  rcases h.2 with e | e
  · have e : q' = q := e
    rw [e]
  · have e : Inside p q q' := e
    unfold Under
    by_cases k : p.x ≤ r.x
    · rw [under_sub hpq (onSeg_left _ _) e.onSeg (k.trans_lt hr)]
      have : r.x < q.x := hr.trans_le (Pt.x_le_of_le e.2.1.le)
      simp [hr, this]
    · simp [k]

/-- As many pieces pass below `r` as lines. -/
theorem Tiled.under {cs : List C} {tri : List (C × Pt K × Pt K)} (h : Tiled lineOf cs tri)
    (hs : ∀ t ∈ tri, lo (lineOf t.1) < hi (lineOf t.1) ∧ OnLine (lineOf t.1) t.2.1 ∧ OnLine (lineOf t.1) t.2.2) (P : C → Bool) (r : Pt K) :
    tri.countP (fun t => P t.1 ∧ Under r t.2.1 t.2.2) = cs.countP fun c => P c ∧ Under r (lo (lineOf c)) (hi (lineOf c)) := by
  obtain ⟨tl, rfl, h2, h3⟩ := h
  rw [h3.countP_eq]
  replace hs := fun t ht => hs t (h3.mem_iff.2 ht)
  clear h3
  induction tl with
  | nil => simp
  | cons e tl ih =>
    rw [List.flatMap_cons, List.countP_append, List.map_cons, List.countP_cons,
      ih (fun e he => h2 e (by simp [he])) (fun t ht => hs t (by rw [List.flatMap_cons]; exact List.mem_append_right _ ht)), Nat.add_comm]
    congr 1
    rw [List.countP_map]
    by_cases hp : P e.1 = true
    · simp only [hp, true_and, Function.comp_def, decide_eq_true_eq]
      have hc := consecutive_x r.x (h2 e (by simp))
      have e1 : e.2.countP (fun ab => decide (Under r ab.1 ab.2)) =
          e.2.countP fun ab => decide (ab.1.x ≤ r.x ∧ r.x < ab.2.x) && decide (0 < det (lo (lineOf e.1)) (hi (lineOf e.1)) r) := by
        refine List.countP_congr fun ab hab => ?_
        obtain ⟨s1, s2, s3⟩ := hs (e.1, ab) (by
          rw [List.flatMap_cons]; exact List.mem_append_left _ (List.mem_map_of_mem hab))
        rw [onLine_iff] at s2 s3
        rw [decide_eq_true_iff, Bool.and_eq_true, decide_eq_true_iff, decide_eq_true_iff]
        constructor
        · rintro ⟨k1, k2, k3⟩
          exact ⟨⟨k1, k2⟩, (under_sub s1 s2 s3 (k1.trans_lt k2)).1 k3⟩
        · rintro ⟨⟨k1, k2⟩, k3⟩
          exact ⟨k1, k2, (under_sub s1 s2 s3 (k1.trans_lt k2)).2 k3⟩
      rw [e1]
      by_cases k : 0 < det (lo (lineOf e.1)) (hi (lineOf e.1)) r
      · simp only [k, decide_true, Bool.and_true, Under, and_true]
        rw [hc]
      · simp only [k, decide_false, Bool.and_false, Under, and_false, if_false, List.countP_false, Function.const_apply]
    · simp [hp, Function.comp_def]

end GeoCrossings
