import Verif.Spec.Mono
import Verif.Lemmas.Intersect

/-! # Lemmas about chains -/
set_option linter.unusedSectionVars false
namespace GeoCrossings
open Spec

variable {K : Type _} [Field K] [LinearOrder K] [IsStrictOrderedRing K]

theorem edgeOf_cons {a b x : Pt K} {l : List (Pt K)} (h : EdgeOf l a b) : EdgeOf (x :: l) a b := by
  obtain ⟨pre, post, rfl⟩ := h
  exact ⟨x :: pre, post, rfl⟩

theorem edgeOf_get {l : List (Pt K)} {i : Nat} {a b : Pt K} (h1 : l[i]? = some a) (h2 : l[i + 1]? = some b) :
    EdgeOf l a b := by
  induction l generalizing i with
  | nil => simp at h1
  | cons x l ih =>
    cases i with
    | zero =>
      simp at h1 h2
      cases l with
      | nil => simp at h2
      | cons y l => simp at h2; subst h1; subst h2; exact ⟨[], l, rfl⟩
    | succ i => exact edgeOf_cons (ih (by simpa using h1) (by simpa using h2))

theorem edgeOf_lt {l : List (Pt K)} (hl : l.Pairwise (· < ·)) {a b : Pt K} (h : EdgeOf l a b) : a < b := by
  obtain ⟨pre, post, rfl⟩ := h
  rw [List.pairwise_append] at hl
  exact (List.pairwise_cons.1 hl.2.1).1 b (by simp)

theorem edgeOf_mem {l : List (Pt K)} {a b : Pt K} (h : EdgeOf l a b) : a ∈ l ∧ b ∈ l := by
  obtain ⟨pre, post, rfl⟩ := h
  simp

theorem onChain_cons {x r : Pt K} {l : List (Pt K)} (h : OnChain l r) : OnChain (x :: l) r := by
  obtain ⟨a, b, h1, h2⟩ := h
  exact ⟨a, b, edgeOf_cons h1, h2⟩

theorem onChain_vertex {l : List (Pt K)} (hl : 2 ≤ l.length) {v : Pt K} (hv : v ∈ l) : OnChain l v := by
  induction l with
  | nil => simp at hv
  | cons a l ih =>
    cases l with
    | nil => simp at hl
    | cons b l =>
      rcases List.mem_cons.1 hv with rfl | hv
      · exact ⟨v, b, ⟨[], l, rfl⟩, onSeg_left _ _⟩
      · cases l with
        | nil =>
          simp at hv; subst hv
          exact ⟨a, v, ⟨[], [], rfl⟩, onSeg_right _ _⟩
        | cons c l => exact onChain_cons (ih (by simp) hv)

/-- A chain from `s` to `e` has a point over every abscissa in between. -/
theorem exists_onChain {l : List (Pt K)} {s e : Pt K} (hl : Leads l s e) (h2 : 2 ≤ l.length) (hs : l.Pairwise (· < ·)) {x : K}
    (h : s.x ≤ x) (h' : x ≤ e.x) : ∃ y, OnChain l ⟨x, y⟩ := by
  induction l generalizing s with
  | nil => simp at h2
  | cons a l ih =>
    cases l with
    | nil => simp at h2
    | cons b l =>
      have ha : a = s := by simpa using hl.1
      subst ha
      have hab : a < b := (List.pairwise_cons.1 hs).1 b (by simp)
      by_cases hx : x ≤ b.x
      · by_cases hv : a.x = b.x
        · exact ⟨a.y, a, b, ⟨[], l, rfl⟩, by
            have : x = a.x := le_antisymm (hv ▸ hx) h
            subst this; exact onSeg_left _ _⟩
        · exact ⟨_, a, b, ⟨[], l, rfl⟩, onSeg_of_hgt (Pt.x_lt_of_lt_of_ne hab hv) h hx⟩
      · push Not at hx
        cases l with
        | nil =>
          have : b = e := by simpa using hl.2
          subst this; exact absurd h' (not_le.2 hx)
        | cons c l =>
          obtain ⟨y, hy⟩ := ih (s := b) ⟨rfl, by simpa using hl.2⟩ (by simp) (List.pairwise_cons.1 hs).2 hx.le
          exact ⟨y, onChain_cons hy⟩

theorem onChain_y {l : List (Pt K)} {r : Pt K} (h : OnChain l r) : (∃ v ∈ l, v.y ≤ r.y) ∧ (∃ v ∈ l, r.y ≤ v.y) := by
  obtain ⟨a, b, h1, h2⟩ := h
  obtain ⟨ha, hb⟩ := edgeOf_mem h1
  obtain ⟨t, t0, t1, -, hy⟩ := h2
  rcases le_total a.y b.y with k | k
  · refine ⟨⟨a, ha, ?_⟩, ⟨b, hb, ?_⟩⟩
    · rw [hy]; nlinarith
    · rw [hy]; nlinarith
  · refine ⟨⟨b, hb, ?_⟩, ⟨a, ha, ?_⟩⟩
    · rw [hy]; nlinarith
    · rw [hy]; nlinarith

theorem sorted_bounds {l : List (Pt K)} {s e : Pt K} (hl : Leads l s e) (hs : l.Pairwise (· < ·)) {v : Pt K} (hv : v ∈ l) :
    s ≤ v ∧ v ≤ e := by
  constructor
  · cases l with
    | nil => simp at hv
    | cons a l =>
      have ha : a = s := by simpa using hl.1
      subst ha
      rcases List.mem_cons.1 hv with rfl | hv
      · exact le_rfl
      · exact ((List.pairwise_cons.1 hs).1 v hv).le
  · obtain ⟨l', rfl⟩ := List.getLast?_eq_some_iff.1 hl.2
    rw [List.pairwise_append] at hs
    rcases List.mem_append.1 hv with hv | hv
    · exact (hs.2.2 v hv e (by simp)).le
    · simp at hv; exact hv.le

theorem two_le_length {l : List (Pt K)} {s e : Pt K} (hl : Leads l s e) (hse : s ≠ e) : 2 ≤ l.length := by
  match l, hl with
  | [], h => simp [Leads] at h
  | [a], h => simp [Leads] at h; exact absurd (h.1.symm.trans h.2) hse
  | _ :: _ :: _, _ => simp

theorem maxY_spec (m : K) (l : List (Pt K)) :
    m ≤ maxY m l ∧ (∀ v ∈ l, v.y ≤ maxY m l) ∧ (maxY m l = m ∨ ∃ v ∈ l, v.y = maxY m l) := by
  induction l generalizing m with
  | nil => simp [maxY]
  | cons a l ih =>
    have e : maxY m (a :: l) = maxY (if a.y > m then a.y else m) l := rfl
    obtain ⟨h1, h2, h3⟩ := ih (if a.y > m then a.y else m)
    rw [e]
    have k1 : m ≤ (if a.y > m then a.y else m) := by split_ifs with h; exacts [h.le, le_rfl]
    have k2 : a.y ≤ (if a.y > m then a.y else m) := by split_ifs with h; exacts [le_rfl, not_lt.1 h]
    refine ⟨k1.trans h1, ?_, ?_⟩
    · intro v hv
      rcases List.mem_cons.1 hv with rfl | hv
      · exact k2.trans h1
      · exact h2 v hv
    · rcases h3 with h3 | ⟨v, hv, h3⟩
      · by_cases h : a.y > m
        · rw [if_pos h] at h3 ⊢; exact .inr ⟨a, by simp, h3.symm⟩
        · rw [if_neg h] at h3 ⊢; exact .inl h3
      · exact .inr ⟨v, by simp [hv], h3⟩

theorem minY_spec (m : K) (l : List (Pt K)) :
    minY m l ≤ m ∧ (∀ v ∈ l, minY m l ≤ v.y) ∧ (minY m l = m ∨ ∃ v ∈ l, v.y = minY m l) := by
  induction l generalizing m with
  | nil => simp [minY]
  | cons a l ih =>
    have e : minY m (a :: l) = minY (if a.y < m then a.y else m) l := rfl
    obtain ⟨h1, h2, h3⟩ := ih (if a.y < m then a.y else m)
    rw [e]
    have k1 : (if a.y < m then a.y else m) ≤ m := by split_ifs with h; exacts [h.le, le_rfl]
    have k2 : (if a.y < m then a.y else m) ≤ a.y := by split_ifs with h; exacts [le_rfl, not_lt.1 h]
    refine ⟨h1.trans k1, ?_, ?_⟩
    · intro v hv
      rcases List.mem_cons.1 hv with rfl | hv
      · exact h1.trans k2
      · exact h2 v hv
    · rcases h3 with h3 | ⟨v, hv, h3⟩
      · by_cases h : a.y < m
        · rw [if_pos h] at h3 ⊢; exact .inr ⟨a, by simp, h3.symm⟩
        · rw [if_neg h] at h3 ⊢; exact .inl h3
      · exact .inr ⟨v, by simp [hv], h3⟩

end GeoCrossings
