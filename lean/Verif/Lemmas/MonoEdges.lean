import Verif.Lemmas.SweepGeom
import Mathlib.Algebra.Ring.Parity

/-!
# The edges of a polygon, and the sorted list of those that a sweep line meets

`Edges` collects what the monotone decomposition needs to know about the edges of a valid polygon: they meet in common ends only, two
at every vertex, and it is known of each whether it bounds the interior from above.
-/
set_option linter.unusedSectionVars false
namespace GeoCrossings.Monotone
open Spec

variable {K : Type} [Field K] [LinearOrder K] [IsStrictOrderedRing K]

/-- `v` is an end of `e`. -/
def EndOf (e : Sg K) (v : Pt K) : Prop := v = e.1 ∨ v = e.2

instance (e : Sg K) (v : Pt K) : Decidable (EndOf e v) := by unfold EndOf; infer_instance

/-- Edge `e` crosses the column of `v` below `v`. -/
def Passes (v : Pt K) (e : Sg K) : Prop := e.1 < v ∧ v < e.2 ∧ 0 < det e.1 e.2 v

instance (e : Sg K) (v : Pt K) : Decidable (Passes v e) := by unfold Passes; infer_instance

/-- Edges with keys `1 … n`, from their left to their right ends; `top k`: the interior is below. -/
structure Edges (n : Nat) (ed : Nat → Sg K) (top : Nat → Bool) : Prop where
  lt : ∀ k, 1 ≤ k → k ≤ n → (ed k).1 < (ed k).2
  meet : ∀ i j, 1 ≤ i → i ≤ n → 1 ≤ j → j ≤ n → i ≠ j → ∀ x, OnSeg (ed i).1 (ed i).2 x → OnSeg (ed j).1 (ed j).2 x →
    EndOf (ed i) x ∧ EndOf (ed j) x
  deg : ∀ k, 1 ≤ k → k ≤ n → ∀ v, EndOf (ed k) v → ∃ j, 1 ≤ j ∧ j ≤ n ∧ j ≠ k ∧ EndOf (ed j) v ∧
    ∀ i, 1 ≤ i → i ≤ n → EndOf (ed i) v → i = k ∨ i = j
  ll : ∀ i j, 1 ≤ i → i ≤ n → 1 ≤ j → j ≤ n → i ≠ j → (ed i).1 = (ed j).1 → top i ≠ top j
  rr : ∀ i j, 1 ≤ i → i ≤ n → 1 ≤ j → j ≤ n → i ≠ j → (ed i).2 = (ed j).2 → top i ≠ top j
  rl : ∀ i j, 1 ≤ i → i ≤ n → 1 ≤ j → j ≤ n → (ed i).2 = (ed j).1 → top i = top j
  par : ∀ i j, 1 ≤ i → i ≤ n → 1 ≤ j → j ≤ n → (ed i).1 = (ed j).1 → 0 < det (ed i).1 (ed i).2 (ed j).2 →
    (top i = false ↔ Even ((List.range' 1 n).countP fun k => Passes (ed i).1 (ed k)))

/-! ## Lists -/

theorem split3 {α : Type _} (c : α → Nat) : ∀ (l : List α), (∀ a ∈ l, c a ≤ 2) → l.Pairwise (fun a b => c a ≤ c b) →
    l = l.filter (fun a => c a = 0) ++ l.filter (fun a => c a = 1) ++ l.filter (fun a => c a = 2)
  | [], _, _ => rfl
  | a :: l, h2, hp => by
    rw [List.pairwise_cons] at hp
    have ih := split3 c l (fun b hb => h2 b (by simp [hb])) hp.2
    have ha := h2 a (by simp)
    have n0 : 1 ≤ c a → l.filter (fun a => c a = 0) = [] := by
      intro h
      rw [List.filter_eq_nil_iff]
      intro b hb
      have := hp.1 b hb
      simp only [decide_eq_true_eq]; omega
    have n1 : 2 ≤ c a → l.filter (fun a => c a = 1) = [] := by
      intro h
      rw [List.filter_eq_nil_iff]
      intro b hb
      have := hp.1 b hb
      simp only [decide_eq_true_eq]; omega
    rcases (by omega : c a = 0 ∨ c a = 1 ∨ c a = 2) with h | h | h
    · simp only [List.filter_cons, h, decide_true, if_true]
      simp only [Nat.zero_ne_one, decide_false, Bool.false_eq_true, if_false, Nat.reduceEqDiff, List.cons_append]
      rw [← ih]
    · simp only [List.filter_cons, h, decide_true, if_true]
      simp only [Nat.one_ne_zero, decide_false, Bool.false_eq_true, if_false, Nat.reduceEqDiff]
      rw [n0 (by omega)] at ih ⊢
      simp only [List.nil_append, List.cons_append] at ih ⊢
      rw [← ih]
    · simp only [List.filter_cons, h, decide_true, if_true]
      simp only [decide_false, Bool.false_eq_true, if_false, Nat.reduceEqDiff, OfNat.ofNat_ne_zero]
      rw [n0 (by omega), n1 (by omega)] at ih ⊢
      simp only [List.nil_append] at ih ⊢
      rw [← ih]

section
variable {n : Nat} {ed : Nat → Sg K} {top : Nat → Bool}

theorem Edges.onSeg_left (E : Edges n ed top) {k : Nat} (h1 : 1 ≤ k) (h2 : k ≤ n) : OnSeg (ed k).1 (ed k).2 (ed k).1 :=
  (onSeg_iff (E.lt k h1 h2)).2 ⟨by simp, le_rfl, (E.lt k h1 h2).le⟩

theorem Edges.onSeg_right (E : Edges n ed top) {k : Nat} (h1 : 1 ≤ k) (h2 : k ≤ n) : OnSeg (ed k).1 (ed k).2 (ed k).2 :=
  (onSeg_iff (E.lt k h1 h2)).2 ⟨by simp, (E.lt k h1 h2).le, le_rfl⟩

theorem Edges.onSeg_end (E : Edges n ed top) {k : Nat} (h1 : 1 ≤ k) (h2 : k ≤ n) {v : Pt K} (h : EndOf (ed k) v) :
    OnSeg (ed k).1 (ed k).2 v := by
  rcases h with rfl | rfl
  · exact E.onSeg_left h1 h2
  · exact E.onSeg_right h1 h2

/-- A vertex on an edge is an end of it. -/
theorem Edges.end_of_det (E : Edges n ed top) {j k : Nat} (j1 : 1 ≤ j) (j2 : j ≤ n) (k1 : 1 ≤ k) (k2 : k ≤ n) {v : Pt K}
    (hj : EndOf (ed j) v) (a : (ed k).1 ≤ v) (b : v ≤ (ed k).2) (h : det (ed k).1 (ed k).2 v = 0) : EndOf (ed k) v := by
  by_cases e : j = k
  · exact e ▸ hj
  · exact (E.meet j k j1 j2 k1 k2 e v (E.onSeg_end j1 j2 hj) ((onSeg_iff (E.lt k k1 k2)).2 ⟨h, a, b⟩)).2

/-- Two edges that both reach `v` from the left are apart up to there. -/
theorem Edges.apart (E : Edges n ed top) {i j : Nat} (i1 : 1 ≤ i) (i2 : i ≤ n) (j1 : 1 ≤ j) (j2 : j ≤ n) (hij : i ≠ j) {v : Pt K}
    (ai : (ed i).1 < v) (bi : v ≤ (ed i).2) (aj : (ed j).1 < v) (bj : v ≤ (ed j).2) : (ed i).Apart v (ed j) := by
  intro r hr m1 m2
  obtain ⟨h1, h2⟩ := E.meet i j i1 i2 j1 j2 hij r m1 m2
  rcases h1 with h1 | h1 <;> rcases h2 with h2 | h2
  · exact .inl ⟨h1, h2⟩
  · exact absurd (h2 ▸ bj) (not_le.2 (h1 ▸ ai))
  · exact absurd (h1 ▸ bi) (not_le.2 (h2 ▸ aj))
  · exact .inr ⟨le_antisymm hr (h1 ▸ bi), h1, h2⟩

/-- Two edges from a common left end do not overlap. -/
theorem Edges.det_ll (E : Edges n ed top) {i j : Nat} (i1 : 1 ≤ i) (i2 : i ≤ n) (j1 : 1 ≤ j) (j2 : j ≤ n) (hij : i ≠ j)
    (h : (ed i).1 = (ed j).1) : det (ed i).1 (ed i).2 (ed j).2 ≠ 0 := by
  intro h0
  have li := E.lt i i1 i2
  have lj := E.lt j j1 j2
  rcases le_total (ed j).2 (ed i).2 with hle | hle
  · have h1 : OnSeg (ed i).1 (ed i).2 (ed j).2 := (onSeg_iff li).2 ⟨h0, by rw [h]; exact lj.le, hle⟩
    obtain ⟨e1 | e1, -⟩ := E.meet i j i1 i2 j1 j2 hij _ h1 (E.onSeg_right j1 j2)
    · rw [e1, h] at lj; exact lt_irrefl _ lj
    · -- both ends common: the middle is common too
      have hd : OnSeg (ed i).1 (ed i).2 ⟨((ed i).1.x + (ed i).2.x) / 2, ((ed i).1.y + (ed i).2.y) / 2⟩ :=
        ⟨1 / 2, by norm_num, by norm_num, by simp; ring, by simp; ring⟩
      obtain ⟨e2 | e2, -⟩ := E.meet i j i1 i2 j1 j2 hij _ hd (by rw [e1, ← h]; exact hd)
      · have ex := congrArg Pt.x e2
        have ey := congrArg Pt.y e2
        simp only at ex ey
        rcases li with k | ⟨k, k'⟩ <;> linarith
      · have ex := congrArg Pt.x e2
        have ey := congrArg Pt.y e2
        simp only at ex ey
        rcases li with k | ⟨k, k'⟩ <;> linarith
  · have h1 : OnSeg (ed j).1 (ed j).2 (ed i).2 := by
      refine (onSeg_iff lj).2 ⟨?_, by rw [← h]; exact li.le, hle⟩
      rw [← h, det_swap, h0, neg_zero]
    obtain ⟨-, e1 | e1⟩ := E.meet i j i1 i2 j1 j2 hij _ (E.onSeg_right i1 i2) h1
    · rw [e1, h] at li; exact lt_irrefl _ li
    · have hd : OnSeg (ed i).1 (ed i).2 ⟨((ed i).1.x + (ed i).2.x) / 2, ((ed i).1.y + (ed i).2.y) / 2⟩ :=
        ⟨1 / 2, by norm_num, by norm_num, by simp; ring, by simp; ring⟩
      obtain ⟨e2 | e2, -⟩ := E.meet i j i1 i2 j1 j2 hij _ hd (by rw [← e1, ← h]; exact hd)
      · have ex := congrArg Pt.x e2
        have ey := congrArg Pt.y e2
        simp only at ex ey
        rcases li with k | ⟨k, k'⟩ <;> linarith
      · have ex := congrArg Pt.x e2
        have ey := congrArg Pt.y e2
        simp only at ex ey
        rcases li with k | ⟨k, k'⟩ <;> linarith

/-! ## The active list -/

/-- `A` lists the edges that the sweep line just after `u` meets, from below. -/
structure Act (n : Nat) (ed : Nat → Sg K) (u : Pt K) (A : List Nat) : Prop where
  mem : ∀ k, k ∈ A ↔ 1 ≤ k ∧ k ≤ n ∧ (ed k).1 ≤ u ∧ u < (ed k).2
  sorted : A.Pairwise fun i j => (ed i).Lt (ed j)

/-- `v` is the vertex that follows `u`. -/
structure Next (n : Nat) (ed : Nat → Sg K) (u v : Pt K) : Prop where
  lt : u < v
  left : ∀ k, 1 ≤ k → k ≤ n → (ed k).1 ≤ u ∨ v ≤ (ed k).1
  right : ∀ k, 1 ≤ k → k ≤ n → (ed k).2 ≤ u ∨ v ≤ (ed k).2
  vertex : ∃ k, 1 ≤ k ∧ k ≤ n ∧ EndOf (ed k) v

variable {u v : Pt K} {A : List Nat}

theorem Act.spans (hA : Act n ed u A) (hv : Next n ed u v) {k : Nat} (hk : k ∈ A) :
    1 ≤ k ∧ k ≤ n ∧ (ed k).1 < v ∧ v ≤ (ed k).2 := by
  obtain ⟨h1, h2, h3, h4⟩ := (hA.mem k).1 hk
  refine ⟨h1, h2, h3.trans_lt hv.lt, ?_⟩
  rcases hv.right k h1 h2 with h | h
  · exact absurd h (not_le.2 h4)
  · exact h

theorem Act.nodup (E : Edges n ed top) (hA : Act n ed u A) : A.Nodup := by
  have : ∀ i ∈ A, ¬ (ed i).Lt (ed i) := by
    intro i hi h
    obtain ⟨h1, h2, -, -⟩ := (hA.mem i).1 hi
    exact lt_asymm (E.lt i h1 h2) (E.lt i h1 h2) h h
  refine hA.sorted.imp_of_mem ?_
  rintro a b ha - h rfl
  exact this a ha h

/-- The active list at a vertex: below it, ending there, above it. -/
theorem Act.split (E : Edges n ed top) (hA : Act n ed u A) (hv : Next n ed u v) : ∃ B M T, A = B ++ M ++ T ∧
    (∀ k, k ∈ B ↔ 1 ≤ k ∧ k ≤ n ∧ Passes v (ed k)) ∧
    (∀ k, k ∈ M ↔ 1 ≤ k ∧ k ≤ n ∧ (ed k).2 = v) ∧
    (∀ k, k ∈ T ↔ 1 ≤ k ∧ k ≤ n ∧ (ed k).1 < v ∧ v < (ed k).2 ∧ det (ed k).1 (ed k).2 v < 0) := by
  obtain ⟨k0, k01, k02, hk0⟩ := hv.vertex
  have hact : ∀ k, k ∈ A ↔ 1 ≤ k ∧ k ≤ n ∧ (ed k).1 < v ∧ v ≤ (ed k).2 := by
    intro k
    refine ⟨hA.spans hv, fun ⟨h1, h2, h3, h4⟩ => (hA.mem k).2 ⟨h1, h2, ?_, hv.lt.trans_le h4⟩⟩
    rcases hv.left k h1 h2 with h | h
    · exact h
    · exact absurd h3 (not_lt.2 h)
  have hzero : ∀ k, 1 ≤ k → k ≤ n → (ed k).1 < v → v ≤ (ed k).2 → det (ed k).1 (ed k).2 v = 0 → (ed k).2 = v := by
    intro k h1 h2 h3 h4 h5
    rcases E.end_of_det k01 k02 h1 h2 hk0 h3.le h4 h5 with h | h
    · exact absurd h h3.ne'
    · exact h.symm
  let c : Nat → Nat := fun k => if 0 < det (ed k).1 (ed k).2 v then 0 else if det (ed k).1 (ed k).2 v = 0 then 1 else 2
  have c0 : ∀ k, c k = 0 ↔ 0 < det (ed k).1 (ed k).2 v := by
    intro k; simp only [c]; split_ifs <;> simp_all
  have c1 : ∀ k, c k = 1 ↔ det (ed k).1 (ed k).2 v = 0 := by
    intro k; simp only [c]; split_ifs with h h' <;> simp_all
    exact h.ne'
  have c2 : ∀ k, c k = 2 ↔ det (ed k).1 (ed k).2 v < 0 := by
    intro k; simp only [c]; split_ifs with h h'
    · simp [h.le]
    · simp [h']
    · simp only [true_iff]
      exact lt_of_le_of_ne (not_lt.1 h) h'
  have hsp := split3 c A (by intro a _; simp only [c]; split_ifs <;> omega) (by
    refine ((hA.nodup E).and hA.sorted).imp_of_mem ?_
    · intro a b ha hb ⟨hne, hlt⟩
      obtain ⟨a1, a2, a3, a4⟩ := hA.spans hv ha
      obtain ⟨b1, b2, b3, b4⟩ := hA.spans hv hb
      obtain ⟨m1, m2⟩ := mono (E.lt a a1 a2) (E.lt b b1 b2) hlt (E.apart a1 a2 b1 b2 hne a3 a4 b3 b4) a3.le a4 b3.le b4
      rcases lt_trichotomy (det (ed a).1 (ed a).2 v) 0 with h | h | h
      · rw [(c2 b).2 (m1 h), (c2 a).2 h]
      · rw [(c1 a).2 h]
        by_contra hc
        have : c b = 0 := by omega
        exact absurd ((c0 b).1 this) (not_lt.2 (m2 h))
      · rw [(c0 a).2 h]; exact Nat.zero_le _)
  refine ⟨_, _, _, hsp, ?_, ?_, ?_⟩
  · intro k
    simp only [List.mem_filter, decide_eq_true_eq, hact, c0, Passes]
    constructor
    · rintro ⟨⟨h1, h2, h3, h4⟩, h5⟩
      refine ⟨h1, h2, h3, lt_of_le_of_ne h4 ?_, h5⟩
      rintro rfl
      simp at h5
    · rintro ⟨h1, h2, h3, h4, h5⟩
      exact ⟨⟨h1, h2, h3, h4.le⟩, h5⟩
  · intro k
    simp only [List.mem_filter, decide_eq_true_eq, hact, c1]
    constructor
    · rintro ⟨⟨h1, h2, h3, h4⟩, h5⟩
      exact ⟨h1, h2, hzero k h1 h2 h3 h4 h5⟩
    · rintro ⟨h1, h2, h3⟩
      refine ⟨⟨h1, h2, h3 ▸ E.lt k h1 h2, h3.ge⟩, ?_⟩
      rw [← h3]; simp
  · intro k
    simp only [List.mem_filter, decide_eq_true_eq, hact, c2]
    constructor
    · rintro ⟨⟨h1, h2, h3, h4⟩, h5⟩
      refine ⟨h1, h2, h3, lt_of_le_of_ne h4 ?_, h5⟩
      rintro rfl
      simp at h5
    · rintro ⟨h1, h2, h3, h4, h5⟩
      exact ⟨⟨h1, h2, h3, h4.le⟩, h5⟩

/-- Replacing the edges that end at a vertex by those that start there. -/
theorem Act.replace {B M T N : List Nat} (hA : Act n ed u (B ++ M ++ T)) (hv : Next n ed u v)
    (hB : ∀ k, k ∈ B ↔ 1 ≤ k ∧ k ≤ n ∧ Passes v (ed k))
    (hM : ∀ k, k ∈ M ↔ 1 ≤ k ∧ k ≤ n ∧ (ed k).2 = v)
    (hT : ∀ k, k ∈ T ↔ 1 ≤ k ∧ k ≤ n ∧ (ed k).1 < v ∧ v < (ed k).2 ∧ det (ed k).1 (ed k).2 v < 0)
    (hN : ∀ k, k ∈ N ↔ 1 ≤ k ∧ k ≤ n ∧ (ed k).1 = v) (hs : N.Pairwise fun i j => (ed i).Lt (ed j))
    (E : Edges n ed top) :
    Act n ed v (B ++ N ++ T) ∧ (∀ i ∈ B, ∀ j ∈ N, (ed i).Lt (ed j)) ∧ (∀ i ∈ N, ∀ j ∈ T, (ed i).Lt (ed j)) := by
  have g1 : ∀ i ∈ B, ∀ j ∈ N, (ed i).Lt (ed j) := by
    intro i hi j hj
    obtain ⟨-, -, p1, p2, p3⟩ := (hB i).1 hi
    obtain ⟨-, -, q1⟩ := (hN j).1 hj
    exact (lt_right_iff (q1 ▸ p1.le)).2 (.inl (q1 ▸ p3))
  have g2 : ∀ i ∈ N, ∀ j ∈ T, (ed i).Lt (ed j) := by
    intro i hi j hj
    obtain ⟨-, -, p1, p2, p3⟩ := (hT j).1 hj
    obtain ⟨-, -, q1⟩ := (hN i).1 hi
    exact (lt_left_iff (q1 ▸ p1.le)).2 (.inl (q1 ▸ p3))
  refine ⟨⟨?_, ?_⟩, g1, g2⟩
  · intro k
    simp only [List.mem_append]
    constructor
    · rintro ((h | h) | h)
      · obtain ⟨h1, h2, p1, p2, -⟩ := (hB k).1 h
        exact ⟨h1, h2, p1.le, p2⟩
      · obtain ⟨h1, h2, p1⟩ := (hN k).1 h
        exact ⟨h1, h2, p1.le, p1 ▸ E.lt k h1 h2⟩
      · obtain ⟨h1, h2, p1, p2, -⟩ := (hT k).1 h
        exact ⟨h1, h2, p1.le, p2⟩
    · rintro ⟨h1, h2, p1, p2⟩
      rcases p1.lt_or_eq with p1 | p1
      · have : k ∈ B ++ M ++ T := by
          refine (hA.mem k).2 ⟨h1, h2, ?_, hv.lt.trans p2⟩
          rcases hv.left k h1 h2 with h | h
          · exact h
          · exact absurd p1 (not_lt.2 h)
        simp only [List.mem_append] at this
        rcases this with (h | h) | h
        · exact .inl (.inl h)
        · exact absurd ((hM k).1 h).2.2 p2.ne'
        · exact .inr h
      · exact .inl (.inr ((hN k).2 ⟨h1, h2, p1⟩))
  · have hs0 := hA.sorted
    rw [List.pairwise_append, List.pairwise_append] at hs0
    rw [List.pairwise_append, List.pairwise_append]
    refine ⟨⟨hs0.1.1, hs, g1⟩, hs0.2.1, ?_⟩
    intro a ha b hb
    rcases List.mem_append.1 ha with ha | ha
    · exact hs0.2.2 a (List.mem_append_left _ ha) b hb
    · exact g2 a ha b hb

end

end GeoCrossings.Monotone
