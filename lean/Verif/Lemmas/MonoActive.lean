import Verif.Lemmas.MonoGaps

/-!
# The list of segments and the active set of the monotone sweep
-/
set_option linter.unusedSectionVars false
namespace GeoCrossings.Monotone
open Spec

variable {K : Type} [Field K] [LinearOrder K] [IsStrictOrderedRing K]

/-- The list of segments: the point of `store_point`, and the edges with their helpers. -/
def sl (n : Nat) (ed : Nat → Sg K) (c : Pt K) (hp : Nat → Option (Helper K)) : List (Seg K) :=
  Seg.newPoint 0 c :: (List.range' 1 n).map fun k => ⟨k, .line (ed k).1 (ed k).2, hp k⟩

variable {n : Nat} {ed : Nat → Sg K} {top : Nat → Bool} {u v c : Pt K} {hp : Nat → Option (Helper K)}

theorem sl_zero : (sl n ed c hp)[0]? = some (Seg.newPoint 0 c) := rfl

theorem sl_get {k : Nat} (h1 : 1 ≤ k) (h2 : k ≤ n) : (sl n ed c hp)[k]? = some ⟨k, .line (ed k).1 (ed k).2, hp k⟩ := by
  obtain ⟨m, rfl⟩ : ∃ m, k = m + 1 := ⟨k - 1, by omega⟩
  simp only [sl, List.getElem?_cons_succ, List.getElem?_map]
  rw [List.getElem?_range' (by omega)]
  simp [Nat.add_comm]

theorem sl_store : (sl n ed c hp).set 0 (Seg.newPoint 0 v) = sl n ed v hp := rfl

theorem sl_set {k : Nat} (h1 : 1 ≤ k) (h2 : k ≤ n) (h : Option (Helper K)) :
    (sl n ed c hp).set k ⟨k, .line (ed k).1 (ed k).2, h⟩ = sl n ed c (Function.update hp k h) := by
  obtain ⟨m, rfl⟩ : ∃ m, k = m + 1 := ⟨k - 1, by omega⟩
  simp only [sl, List.set_cons_succ, List.cons.injEq, true_and]
  apply List.ext_getElem?
  intro i
  rw [List.getElem?_set]
  simp only [List.length_map, List.length_range', List.getElem?_map]
  by_cases hi : m = i
  · subst hi
    rw [if_pos rfl, if_pos (by omega), List.getElem?_range' (by omega)]
    have : 1 + 1 * m = m + 1 := by omega
    rw [this]; simp
  · rw [if_neg hi]
    by_cases hl : i < n
    · rw [List.getElem?_range' hl]
      have : 1 + 1 * i ≠ m + 1 := by omega
      rw [Option.map_some, Option.map_some, Function.update_of_ne this]
    · rw [List.getElem?_eq_none (by simp; omega)]; rfl

theorem sl_length : (sl n ed c hp).length = n + 1 := by simp [sl]

/-! ## Comparisons -/

theorem cmp_lines {a b : Nat} (a1 : 1 ≤ a) (a2 : a ≤ n) (b1 : 1 ≤ b) (b2 : b ≤ n) :
    cmpSegs (sl n ed c hp) a b = ((LineOrPoint.line (ed a).1 (ed a).2).pcmp (.line (ed b).1 (ed b).2)).map fun o => o.then (compare a b) := by
  simp only [cmpSegs, sl_get a1 a2, sl_get b1 b2, Option.bind_eq_bind, Option.bind_some]
  cases (LineOrPoint.line (ed a).1 (ed a).2).pcmp (.line (ed b).1 (ed b).2) <;> rfl

theorem cmp_lt (E : Edges n ed top) {a b : Nat} (a1 : 1 ≤ a) (a2 : a ≤ n) (b1 : 1 ≤ b) (b2 : b ≤ n) (h : (ed a).Lt (ed b)) :
    cmpSegs (sl n ed c hp) a b = some .lt ∧ cmpSegs (sl n ed c hp) b a = some .gt := by
  rw [cmp_lines a1 a2 b1 b2, cmp_lines b1 b2 a1 a2, (pcmp_lt_iff (E.lt a a1 a2) (E.lt b b1 b2)).2 h,
    (pcmp_gt_iff (E.lt b b1 b2) (E.lt a a1 a2)).2 h]
  exact ⟨rfl, rfl⟩

theorem cmp_self (E : Edges n ed top) {a : Nat} (a1 : 1 ≤ a) (a2 : a ≤ n) : cmpSegs (sl n ed c hp) a a = some .eq := by
  rw [cmp_lines a1 a2 a1 a2, (pcmp_eq_iff (E.lt a a1 a2) (E.lt a a1 a2)).2 (by simp)]
  simp

theorem cmp_point {k : Nat} (k1 : 1 ≤ k) (k2 : k ≤ n) (h1 : (ed k).1 ≤ v) (h2 : v ≤ (ed k).2) :
    cmpSegs (sl n ed v hp) 0 k = some (if 0 < det (ed k).1 (ed k).2 v then .gt else .lt) ∧
      (cmpSegs (sl n ed v hp) k 0).isSome := by
  simp only [cmpSegs, sl_get k1 k2, sl_zero, Seg.newPoint, Option.bind_eq_bind, Option.bind_some, LineOrPoint.pcmp, pcmpLinePoint]
  rw [if_neg (by rintro (h | h); exacts [absurd h (not_lt.2 h2), absurd h (not_lt.2 h1)])]
  simp only [Option.map_some, Option.bind_some, Option.pure_def, Option.some.injEq, Option.isSome_some, and_true]
  rcases lt_trichotomy 0 (det (ed k).1 (ed k).2 v) with h | h | h
  · rw [(orient2d_ccw _ _ _).2 h, if_pos h]; rfl
  · rw [(orient2d_coll _ _ _).2 h.symm, if_neg h.not_lt]; rfl
  · rw [(orient2d_cw _ _ _).2 h, if_neg h.not_gt]; rfl

/-! ## The active set -/

theorem nextKey_spec {B T : List Nat} (hB : ∀ k ∈ B, 1 ≤ k ∧ k ≤ n ∧ Passes v (ed k))
    (hT : ∀ k ∈ T, 1 ≤ k ∧ k ≤ n ∧ (ed k).1 < v ∧ v < (ed k).2 ∧ det (ed k).1 (ed k).2 v < 0) :
    nextKey (sl n ed v hp) (B ++ T) 0 = some T.head? := by
  have hb : ∀ k ∈ B, cmpSegs (sl n ed v hp) 0 k = some .gt ∧ (cmpSegs (sl n ed v hp) k 0).isSome := by
    intro k hk
    obtain ⟨h1, h2, h3, h4, h5⟩ := hB k hk
    have := cmp_point (hp := hp) h1 h2 h3.le h4.le
    rwa [if_pos h5] at this
  have ht : ∀ k ∈ T, cmpSegs (sl n ed v hp) 0 k = some .lt ∧ (cmpSegs (sl n ed v hp) k 0).isSome := by
    intro k hk
    obtain ⟨h1, h2, h3, h4, h5⟩ := hT k hk
    have := cmp_point (hp := hp) h1 h2 h3.le h4.le
    rwa [if_neg h5.not_gt] at this
  have hc : comparable (sl n ed v hp) (B ++ T) 0 = true := by
    rw [comparable, List.all_eq_true]
    intro k hk
    rcases List.mem_append.1 hk with hk | hk
    · simp [hb k hk]
    · simp [ht k hk]
  rw [nextKey, if_pos hc, List.find?_append]
  have : B.find? (fun a => cmpSegs (sl n ed v hp) 0 a = some .lt) = none := by
    rw [List.find?_eq_none]
    intro k hk
    simp [(hb k hk).1]
  rw [this]
  cases T with
  | nil => rfl
  | cons t T => simp [(ht t (by simp)).1]

theorem addKey_spec (E : Edges n ed top) {B T : List Nat} {k : Nat} (hr : ∀ a ∈ B ++ k :: T, 1 ≤ a ∧ a ≤ n)
    (hB : ∀ a ∈ B, (ed a).Lt (ed k)) (hT : ∀ a ∈ T, (ed k).Lt (ed a)) :
    addKey (sl n ed c hp) (B ++ T) k = some (B ++ k :: T) := by
  obtain ⟨k1, k2⟩ := hr k (by simp)
  have hb : ∀ a ∈ B, cmpSegs (sl n ed c hp) k a = some .gt ∧ (cmpSegs (sl n ed c hp) a k).isSome := by
    intro a ha
    obtain ⟨a1, a2⟩ := hr a (by simp [ha])
    have := cmp_lt (c := c) (hp := hp) E a1 a2 k1 k2 (hB a ha)
    exact ⟨this.2, by simp [this.1]⟩
  have ht : ∀ a ∈ T, cmpSegs (sl n ed c hp) k a = some .lt ∧ (cmpSegs (sl n ed c hp) a k).isSome := by
    intro a ha
    obtain ⟨a1, a2⟩ := hr a (by simp [ha])
    have := cmp_lt (c := c) (hp := hp) E k1 k2 a1 a2 (hT a ha)
    exact ⟨this.1, by simp [this.2]⟩
  have hc : comparable (sl n ed c hp) (B ++ T) k = true := by
    rw [comparable, List.all_eq_true]
    intro a ha
    rcases List.mem_append.1 ha with ha | ha
    · simp [hb a ha]
    · simp [ht a ha]
  rw [addKey, if_pos hc, if_neg, List.takeWhile_append_of_pos, List.dropWhile_append_of_pos]
  · cases T with
    | nil => simp
    | cons t T => simp [(ht t (by simp)).1]
  · intro a ha; simp [(hb a ha).1]
  · intro a ha; simp [(hb a ha).1]
  · rw [Bool.not_eq_true, List.any_eq_false]
    intro a ha
    rcases List.mem_append.1 ha with ha | ha
    · simp [(hb a ha).1]
    · simp [(ht a ha).1]

theorem removeKey_spec (E : Edges n ed top) {B T : List Nat} {k : Nat} (hr : ∀ a ∈ B ++ k :: T, 1 ≤ a ∧ a ≤ n)
    (hs : (B ++ k :: T).Pairwise fun i j => (ed i).Lt (ed j)) :
    removeKey (sl n ed c hp) (B ++ k :: T) k = some (B ++ T) := by
  obtain ⟨k1, k2⟩ := hr k (by simp)
  rw [List.pairwise_append, List.pairwise_cons] at hs
  have hb : ∀ a ∈ B, cmpSegs (sl n ed c hp) k a = some .gt ∧ (cmpSegs (sl n ed c hp) a k).isSome := by
    intro a ha
    obtain ⟨a1, a2⟩ := hr a (by simp [ha])
    have := cmp_lt (c := c) (hp := hp) E a1 a2 k1 k2 (hs.2.2 a ha k (by simp))
    exact ⟨this.2, by simp [this.1]⟩
  have ht : ∀ a ∈ T, cmpSegs (sl n ed c hp) k a = some .lt ∧ (cmpSegs (sl n ed c hp) a k).isSome := by
    intro a ha
    obtain ⟨a1, a2⟩ := hr a (by simp [ha])
    have := cmp_lt (c := c) (hp := hp) E k1 k2 a1 a2 (hs.2.1.1 a ha)
    exact ⟨this.1, by simp [this.2]⟩
  have hk := cmp_self (c := c) (hp := hp) E k1 k2
  have hc : comparable (sl n ed c hp) (B ++ k :: T) k = true := by
    rw [comparable, List.all_eq_true]
    intro a ha
    rcases List.mem_append.1 ha with ha | ha
    · simp [hb a ha]
    · rcases List.mem_cons.1 ha with rfl | ha
      · simp [hk]
      · simp [ht a ha]
  have fb : B.filter (fun a => cmpSegs (sl n ed c hp) k a ≠ some .eq) = B := by
    rw [List.filter_eq_self]
    intro a ha; simp [(hb a ha).1]
  have ft : T.filter (fun a => cmpSegs (sl n ed c hp) k a ≠ some .eq) = T := by
    rw [List.filter_eq_self]
    intro a ha; simp [(ht a ha).1]
  rw [removeKey, if_pos hc, if_pos, List.filter_append, List.filter_cons, fb, ft]
  · simp [hk]
  · rw [List.any_eq_true]
    exact ⟨k, by simp, by simp [hk]⟩

end GeoCrossings.Monotone
