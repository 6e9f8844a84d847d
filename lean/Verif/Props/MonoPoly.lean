import Verif.Spec.Mono
import Verif.Lemmas.Mono
import Mathlib.Algebra.Order.Ring.Rat
import Mathlib.Algebra.Field.Rat
import Mathlib.Tactic.LinearCombination

/-! # C42, C43: monotone polygons -/
set_option linter.unusedSectionVars false
namespace GeoCrossings
open Spec

variable {K : Type _} [Field K] [LinearOrder K]

theorem allIncreasing_iff (l : List (Pt K)) : allIncreasing l = true ↔ l.Pairwise (· < ·) := by
  rw [← List.isChain_iff_pairwise]
  induction l with
  | nil => simp [allIncreasing]
  | cons a l ih =>
    cases l with
    | nil => simp [allIncreasing]
    | cons b l => simp [allIncreasing, ih]

/-- **C42.** `MonoPoly::new` returns exactly for monotone chain pairs, and then keeps the chains. -/
theorem C42_new_accepts_iff (top bot : List (Pt K)) (m : MonoPoly K) :
    MonoPoly.new top bot = some m ↔ m = ⟨top, bot⟩ ∧ MonotonePair top bot := by
  unfold MonoPoly.new MonotonePair Leads
  by_cases h1 : top.head? = bot.head?
  · rw [if_pos h1]
    by_cases h2 : top.getLast? = bot.getLast?
    · rw [if_pos h2]
      by_cases h3 : top.head? ≠ top.getLast?
      · rw [if_pos h3]
        by_cases h4 : (allIncreasing top && allIncreasing bot) = true
        · rw [if_pos h4]
          rw [Bool.and_eq_true, allIncreasing_iff, allIncreasing_iff] at h4
          cases top with
          | nil => simp at h3
          | cons a t =>
            obtain ⟨e, he⟩ : ∃ e, (a :: t).getLast? = some e := ⟨_, List.getLast?_eq_some_getLast (by simp)⟩
            simp only [Option.some.injEq]
            constructor
            · rintro rfl
              refine ⟨rfl, a, e, ?_, ⟨rfl, he⟩, ⟨h1.symm, h2.symm.trans he⟩, h4⟩
              rintro rfl
              exact h3 (by rw [he]; rfl)
            · rintro ⟨rfl, _⟩; rfl
        · rw [if_neg h4]
          rw [Bool.and_eq_true, allIncreasing_iff, allIncreasing_iff] at h4
          simp only [reduceCtorEq, false_iff]
          rintro ⟨_, s, e, _, _, _, h5⟩
          exact h4 h5
      · rw [if_neg h3]
        simp only [reduceCtorEq, false_iff]
        rintro ⟨_, s, e, hse, ⟨h5, h6⟩, _⟩
        apply h3; rw [h5, h6]; simpa using hse
    · rw [if_neg h2]
      simp only [reduceCtorEq, false_iff]
      rintro ⟨_, s, e, _, ⟨_, h5⟩, ⟨_, h6⟩, _⟩
      exact h2 (h5.trans h6.symm)
  · rw [if_neg h1]
    simp only [reduceCtorEq, false_iff]
    rintro ⟨_, s, e, _, ⟨h5, _⟩, ⟨h6, _⟩, _⟩
    exact h1 (h5.trans h6.symm)

example : MonoPoly.new [(⟨0, 0⟩ : Pt ℚ), ⟨0, 2⟩, ⟨3, 1⟩] [⟨0, 0⟩, ⟨2, -1⟩, ⟨3, 1⟩] =
    some ⟨[⟨0, 0⟩, ⟨0, 2⟩, ⟨3, 1⟩], [⟨0, 0⟩, ⟨2, -1⟩, ⟨3, 1⟩]⟩ := by decide +kernel

section C43
variable [IsStrictOrderedRing K]

theorem crossSum_append (l : List (Pt K)) (a : Pt K) (r : List (Pt K)) :
    crossSum (l ++ a :: r) = crossSum (l ++ [a]) + crossSum (a :: r) := by
  induction l with
  | nil => simp [crossSum]
  | cons x l ih =>
    cases l with
    | nil => simp [crossSum]
    | cons y l =>
      simp only [List.cons_append, crossSum] at ih ⊢
      rw [ih]; ring

theorem crossSum_reverse (l : List (Pt K)) : crossSum l.reverse = - crossSum l := by
  induction l with
  | nil => simp [crossSum]
  | cons a l ih =>
    cases l with
    | nil => simp [crossSum]
    | cons b l =>
      rw [List.reverse_cons, List.reverse_cons, List.append_assoc, List.singleton_append, crossSum_append,
        ← List.reverse_cons, ih]
      simp [crossSum]

theorem crossSum_eq (a : Pt K) (l : List (Pt K)) (e : Pt K) (h : (a :: l).getLast? = some e) :
    crossSum (a :: l) = e.x * e.y - a.x * a.y - 2 * areaUnder (a :: l) := by
  induction l generalizing a with
  | nil => simp at h; subst h; simp [crossSum, areaUnder]
  | cons b l ih =>
    rw [crossSum, ih b (by simpa using h), areaUnder]; ring

/-- **C43.** For an accepted polygon, `into_polygon` returns the closed ring `top` followed by the reversed `bot`, shared
ends once; its (counter-clockwise) signed area is the area under `bot` minus that under `top`, so its absolute area is
their difference when `top` is the upper chain; and `into_ls_pair` returns the chains. -/
theorem C43_into_polygon (m : MonoPoly K) (h : MonotonePair m.top m.bot) :
    ∃ ring, m.intoPolygon = some ring ∧
      (∃ rest s, m.bot.reverse = s :: rest ∧ ring = m.top ++ rest) ∧
      ring.head? = ring.getLast? ∧
      ring.length + 1 = m.top.length + m.bot.length ∧
      (∀ v, v ∈ ring ↔ v ∈ m.top ∨ v ∈ m.bot) ∧
      ringArea ring = areaUnder m.bot - areaUnder m.top ∧
      m.intoLsPair = (m.top, m.bot) := by
  obtain ⟨top, bot⟩ := m
  obtain ⟨s, e, hse, ⟨h1, h2⟩, ⟨h3, h4⟩, -, -⟩ := h
  simp only at h1 h2 h3 h4 ⊢
  obtain ⟨b', rfl⟩ : ∃ b', bot = b' ++ [e] := by
    rw [List.getLast?_eq_some_iff] at h4; exact h4
  obtain ⟨t', rfl⟩ : ∃ t', top = t' ++ [e] := by
    rw [List.getLast?_eq_some_iff] at h2; exact h2
  obtain ⟨b'', rfl⟩ : ∃ l, b' = s :: l := by
    cases b' with
    | nil => simp at h3; exact absurd h3.symm hse
    | cons x l => simp at h3; exact ⟨l, by rw [h3]⟩
  obtain ⟨t'', rfl⟩ : ∃ l, t' = s :: l := by
    cases t' with
    | nil => simp at h1; exact absurd h1.symm hse
    | cons x l => simp at h1; exact ⟨l, by rw [h1]⟩
  refine ⟨(s :: t'' ++ [e]) ++ (s :: b'').reverse, ?_, ?_, ?_, ?_, ?_, ?_, rfl⟩
  · rw [MonoPoly.intoPolygon]
    simp only
    rw [h2]
    have hl := List.getLast?_eq_some_iff (a := s) |>.2 ⟨(s :: t'' ++ [e]) ++ b''.reverse, rfl⟩
    simp_all
  · exact ⟨(s :: b'').reverse, e, by simp, rfl⟩
  · rw [List.getLast?_eq_some_iff (a := s) |>.2 ⟨(s :: t'' ++ [e]) ++ b''.reverse, by simp⟩]
    simp
  · simp; omega
  · intro v
    simp only [List.mem_append, List.mem_reverse, List.mem_cons, List.not_mem_nil, or_false]
    tauto
  · have e1 : (s :: t'' ++ [e]) ++ (s :: b'').reverse = (s :: t'') ++ e :: (s :: b'').reverse := by simp
    have e2 : e :: (s :: b'').reverse = ((s :: b'') ++ [e]).reverse := by simp
    rw [ringArea, e1, crossSum_append, e2, crossSum_reverse]
    have a1 := crossSum_eq s (t'' ++ [e]) e h2
    have a2 := crossSum_eq s (b'' ++ [e]) e h4
    simp only [List.cons_append] at a1 a2 ⊢
    rw [a1, a2]
    have : (2 : K) ≠ 0 := two_ne_zero
    field_simp
    ring

end C43

end GeoCrossings
