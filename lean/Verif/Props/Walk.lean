import Verif.Model.Crossings
import Mathlib.Algebra.Order.Ring.Rat
import Mathlib.Algebra.Field.Rat
import Mathlib.Tactic.Ring

/-! # C29: the walk of `Intersections` over the batches -/
set_option linter.unusedSectionVars false
namespace GeoCrossings

variable {σ K C : Type _} [Field K] [LinearOrder K]

namespace Spec

/-- The inner iterator, polled from `s`, yields exactly the batches `bs` and then ends. -/
inductive Yields (pull : σ → Option (σ × Option (List (Crossing K C)))) : σ → List (List (Crossing K C)) → Prop
  | done {s s'} : pull s = some (s', none) → Yields pull s []
  | more {s s' b bs} : pull s = some (s', some b) → Yields pull s' bs → Yields pull s (b :: bs)

/-- One pair looked at: the two reported segments, and whether they are considered to overlap. -/
structure Look (K C : Type _) where
  first : Crossing K C
  second : Crossing K C
  overlap : Bool
deriving DecidableEq

/-- A segment against all later ones of its batch; `ov` says whether every segment from it up to the present one is
flagged as overlapping the following one. -/
def looksFrom (a : Crossing K C) : Bool → List (Crossing K C) → List (Look K C)
  | _, [] => []
  | ov, c :: cs => ⟨a, c, ov⟩ :: looksFrom a (ov && c.hasOverlap) cs

/-- All pairs of a batch, each once, in order. -/
def looks : List (Crossing K C) → List (Look K C)
  | [] => []
  | a :: as => looksFrom a a.hasOverlap as ++ looks as

end Spec
open Spec

namespace Inters

/-- The pairs `(segments[idx], segments[jdx])` and the overlap flag seen after each successful `step` — crossings.rs:337-347. -/
def trace (pull : σ → Option (σ × Option (List (Crossing K C)))) (fuel : Nat) : Nat → Inters σ K C → Option (List (Look K C))
  | 0, _ => none
  | n + 1, it => do
    let (it, ok) ← it.step pull fuel
    if ok then
      let a ← it.batch[it.idx]?
      let b ← it.batch[it.jdx]?
      let rest ← trace pull fuel n it
      pure (⟨a, b, it.isOverlap⟩ :: rest)
    else pure []

end Inters

variable {pull : σ → Option (σ × Option (List (Crossing K C)))}

theorem pullLoop_spec {s : σ} {bs : List (List (Crossing K C))} (h : Yields pull s bs) :
    ∀ fuel, bs.length < fuel →
      (∃ s', Inters.pullLoop pull fuel s = some (s', none) ∧ ∀ b ∈ bs, b.length < 2) ∨
      (∃ s' b bs1 bs2, Inters.pullLoop pull fuel s = some (s', some b) ∧ bs = bs1 ++ b :: bs2 ∧
        (∀ b ∈ bs1, b.length < 2) ∧ 2 ≤ b.length ∧ Yields pull s' bs2) := by
  induction h with
  | @done s s' hp =>
    intro fuel hf
    obtain ⟨f, rfl⟩ : ∃ f, fuel = f + 1 := ⟨fuel - 1, by simp at hf; omega⟩
    exact .inl ⟨s', by simp [Inters.pullLoop, hp], by simp⟩
  | @more s s' b bs hp hy ih =>
    intro fuel hf
    obtain ⟨f, rfl⟩ : ∃ f, fuel = f + 1 := ⟨fuel - 1, by simp at hf; omega⟩
    by_cases hb : b.length > 1
    · exact .inr ⟨s', b, [], bs, by simp [Inters.pullLoop, hp, hb], rfl, by simp, hb, hy⟩
    · have e : Inters.pullLoop pull (f + 1) s = Inters.pullLoop pull f s' := by simp [Inters.pullLoop, hp, hb]
      rcases ih f (by simp at hf; omega) with ⟨s2, h1, h2⟩ | ⟨s2, c, bs1, bs2, h1, h2, h3, h4, h5⟩
      · exact .inl ⟨s2, e.trans h1, by simpa using ⟨by omega, h2⟩⟩
      · exact .inr ⟨s2, c, b :: bs1, bs2, e.trans h1, by simp [h2], by simpa using ⟨by omega, h3⟩, h4, h5⟩

theorem looks_small {b : List (Crossing K C)} (h : b.length < 2) : looks b = [] := by
  match b, h with
  | [], _ => rfl
  | [_], _ => rfl
  | _ :: _ :: _, h => simp at h; omega

theorem flatMap_looks_small {bs : List (List (Crossing K C))} (h : ∀ b ∈ bs, b.length < 2) : bs.flatMap looks = [] := by
  simpa [List.flatMap_eq_nil_iff] using fun b hb => looks_small (h b hb)

theorem looksFrom_length (a : Crossing K C) (ov : Bool) (l : List (Crossing K C)) : (looksFrom a ov l).length = l.length := by
  induction l generalizing ov with
  | nil => rfl
  | cons c cs ih => simp [looksFrom, ih]

/-- What is still to be looked at from a state whose pair `(idx, jdx)` has just been looked at. -/
theorem trace_spec {fuel : Nat} : ∀ (n : Nat) (it : Inters σ K C) (bs : List (List (Crossing K C))),
    Yields pull it.inner bs → bs.length < fuel →
    ∀ (c : Crossing K C) (post mid : List (Crossing K C)),
    (it.batch.drop it.jdx = c :: post ∧ it.batch.drop (it.idx + 1) = mid ∧ it.idx < it.jdx →
      (∃ a, it.batch[it.idx]? = some a) →
      (∀ a, it.batch[it.idx]? = some a → 
        (looksFrom a (it.isOverlap && c.hasOverlap) post ++ looks mid ++ bs.flatMap looks).length < n →
        it.trace pull fuel n = some (looksFrom a (it.isOverlap && c.hasOverlap) post ++ looks mid ++ bs.flatMap looks))) := by
  intro n
  induction n with
  | zero => intro it bs _ _ c post mid _ _ a _ h; simp at h
  | succ n ih =>
    intro it bs hy hf c post mid ⟨hj, hm, hlt⟩ _ a ha hn
    have hjl : it.jdx < it.batch.length := by
      by_contra h
      rw [List.drop_eq_nil_of_le (by omega)] at hj
      simp at hj
    have hc : it.batch[it.jdx]? = some c := by
      have := congrArg (·[0]?) hj
      simpa using this
    have hpost : it.batch.drop (it.jdx + 1) = post := by
      have := congrArg (List.drop 1) hj
      simpa [Nat.add_comm] using this
    cases post with
    | cons d post =>
      have hlen : it.jdx + 1 < it.batch.length := by
        by_contra h
        rw [List.drop_eq_nil_of_le (by omega)] at hpost
        simp at hpost
      have hs : it.step pull fuel = some ({ it with isOverlap := it.isOverlap && c.hasOverlap, jdx := it.jdx + 1 }, true) := by
        simp [Inters.step, show 1 + it.jdx < it.batch.length by omega, hc]
      have hd : it.batch[it.jdx + 1]? = some d := by
        have := congrArg (·[0]?) hpost
        simpa using this
      have := ih { it with isOverlap := it.isOverlap && c.hasOverlap, jdx := it.jdx + 1 } bs hy hf d post mid
        ⟨hpost, hm, by simp; omega⟩ ⟨a, ha⟩ a ha (by simp [looksFrom] at hn ⊢; omega)
      simp [Inters.trace, hs, ha, hd, this, looksFrom]
    | nil =>
      have hlen : it.batch.length = it.jdx + 1 := by
        have := congrArg List.length hpost
        simp at this; omega
      by_cases hi : 1 + (it.idx + 1) ≥ it.batch.length
      · -- the batch is finished
        have hmid : looks mid = [] := looks_small (by rw [← hm]; simp; omega)
        have hst : it.step pull fuel = (do
            let (s, o) ← Inters.pullLoop pull fuel it.inner
            match o with
            | none => pure ({ it with idx := it.idx + 1, inner := s, batch := [] }, false)
            | some b =>
              let c ← b[0]?
              pure ({ inner := s, batch := b, idx := 0, isOverlap := c.hasOverlap, jdx := 1 }, true)) := by
          simp [Inters.step, hlen, show ¬ (1 + it.jdx < it.jdx + 1) by omega, show it.jdx + 1 ≤ 1 + (it.idx + 1) by omega]
          rfl
        rcases pullLoop_spec hy fuel hf with ⟨s', h1, h2⟩ | ⟨s', b, bs1, bs2, h1, h2, h3, h4, h5⟩
        · simp [Inters.trace, hst, h1, hmid, looksFrom, flatMap_looks_small h2]
        · match b, h4 with
          | x :: y :: b, _ =>
            have h6 : bs.flatMap looks = looks (x :: y :: b) ++ bs2.flatMap looks := by
              rw [h2]; simp [flatMap_looks_small h3]
            have h7 : bs2.length < fuel := by rw [h2] at hf; simp at hf; omega
            have := ih { inner := s', batch := x :: y :: b, idx := 0, isOverlap := x.hasOverlap, jdx := 1 } bs2 h5 h7 y b (y :: b)
              ⟨rfl, rfl, by simp⟩ ⟨x, rfl⟩ x rfl (by
                rw [h6] at hn; simp [looksFrom, looks, hmid] at hn ⊢; omega)
            simp [Inters.trace, hst, h1, this, hmid, h6, looksFrom, looks]
      · -- next row of the batch
        have hst : it.step pull fuel = (do
            let c ← it.batch[it.idx + 1]?
            pure ({ it with idx := it.idx + 1, isOverlap := c.hasOverlap, jdx := it.idx + 2 }, true)) := by
          simp [Inters.step, hlen, show ¬ (1 + it.jdx < it.jdx + 1) by omega, show ¬ (it.jdx + 1 ≤ 1 + (it.idx + 1)) by omega]
        obtain ⟨x, y, r, hr⟩ : ∃ x y r, mid = x :: y :: r := by
          have : mid.length = it.batch.length - (it.idx + 1) := by rw [← hm]; simp
          match mid, this with
          | [], h => simp at h; omega
          | [_], h => simp at h; omega
          | x :: y :: r, _ => exact ⟨x, y, r, rfl⟩
        subst hr
        have hx : it.batch[it.idx + 1]? = some x := by
          have := congrArg (·[0]?) hm
          simpa using this
        have hy2 : it.batch.drop (it.idx + 2) = y :: r := by
          have := congrArg (List.drop 1) hm
          simpa [Nat.add_comm, Nat.add_left_comm] using this
        have hy' : it.batch[it.idx + 2]? = some y := by
          have := congrArg (·[0]?) hy2
          simpa using this
        have := ih { it with idx := it.idx + 1, isOverlap := x.hasOverlap, jdx := it.idx + 2 } bs hy hf y r (y :: r)
          ⟨hy2, hy2, by simp⟩ ⟨x, hx⟩ x hx (by simp [looksFrom, looks] at hn ⊢; omega)
        simp [Inters.trace, hst, hx, hy', this, looksFrom, looks]

/-- **C29.** Over any inner iterator, the walk looks at exactly the pairs of distinct positions of every batch, batch by
batch, each once, with the overlap flag set exactly if all segments from the first position up to the one before the
second are flagged; single-segment batches give none; and then it ends. -/
theorem C29_walk_visits_each_pair_once {s : σ} {bs : List (List (Crossing K C))} (h : Yields pull s bs) (fuel n : Nat)
    (hf : bs.length < fuel) (hn : (bs.flatMap looks).length < n) :
    (Inters.ofInner s).trace pull fuel n = some (bs.flatMap looks) := by
  obtain ⟨n, rfl⟩ : ∃ m, n = m + 1 := ⟨n - 1, by omega⟩
  have hst : (Inters.ofInner s : Inters σ K C).step pull fuel = (do
      let (s, o) ← Inters.pullLoop pull fuel s
      match o with
      | none => pure ({ inner := s, batch := [], idx := 1, jdx := 0, isOverlap := false }, false)
      | some b =>
        let c ← b[0]?
        pure ({ inner := s, batch := b, idx := 0, isOverlap := c.hasOverlap, jdx := 1 }, true)) := by
    simp [Inters.step, Inters.ofInner]
    rfl
  rcases pullLoop_spec h fuel hf with ⟨s', h1, h2⟩ | ⟨s', b, bs1, bs2, h1, h2, h3, h4, h5⟩
  · simp [Inters.trace, hst, h1, flatMap_looks_small h2]
  · match b, h4 with
    | x :: y :: b, _ =>
      have h6 : bs.flatMap looks = looks (x :: y :: b) ++ bs2.flatMap looks := by
        rw [h2]; simp [flatMap_looks_small h3]
      have h7 : bs2.length < fuel := by rw [h2] at hf; simp at hf; omega
      have := trace_spec n { inner := s', batch := x :: y :: b, idx := 0, isOverlap := x.hasOverlap, jdx := 1 } bs2 h5 h7 y b (y :: b)
        ⟨rfl, rfl, by simp⟩ ⟨x, rfl⟩ x rfl (by
          rw [h6] at hn; simp [looksFrom, looks] at hn ⊢; omega)
      simp [Inters.trace, hst, h1, this, h6, looksFrom, looks]

/-- `looks` says what it should: the entries are the pairs of positions `i < j`, with the flag of the positions in between. -/
theorem mem_looksFrom (a : Crossing K C) (ov : Bool) (l : List (Crossing K C)) (k : Look K C) :
    k ∈ looksFrom a ov l ↔ ∃ j c, l[j]? = some c ∧ k = ⟨a, c, ov && (l.take j).all (·.hasOverlap)⟩ := by
  induction l generalizing ov with
  | nil => simp [looksFrom]
  | cons c cs ih =>
    rw [looksFrom, List.mem_cons, ih]
    constructor
    · rintro (rfl | ⟨j, d, h1, rfl⟩)
      · exact ⟨0, c, rfl, by simp⟩
      · exact ⟨j + 1, d, h1, by simp [Bool.and_assoc]⟩
    · rintro ⟨j, d, h1, rfl⟩
      cases j with
      | zero => left; simp at h1; simp [h1]
      | succ j => right; exact ⟨j, d, by simpa using h1, by simp [Bool.and_assoc]⟩

theorem mem_looks (b : List (Crossing K C)) (k : Look K C) :
    k ∈ looks b ↔ ∃ i j x y, i < j ∧ b[i]? = some x ∧ b[j]? = some y ∧
      k = ⟨x, y, ((b.drop i).take (j - i)).all (·.hasOverlap)⟩ := by
  induction b with
  | nil => simp [looks]
  | cons a as ih =>
    rw [looks, List.mem_append, ih, mem_looksFrom]
    constructor
    · rintro (⟨j, c, h1, rfl⟩ | ⟨i, j, x, y, h, h1, h2, rfl⟩)
      · exact ⟨0, j + 1, a, c, by omega, rfl, h1, by simp⟩
      · exact ⟨i + 1, j + 1, x, y, by omega, h1, h2, by simp⟩
    · rintro ⟨i, j, x, y, h, h1, h2, rfl⟩
      obtain ⟨j, rfl⟩ : ∃ m, j = m + 1 := ⟨j - 1, by omega⟩
      cases i with
      | zero => left; simp at h1; subst h1; exact ⟨j, y, by simpa using h2, by simp⟩
      | succ i => right; exact ⟨i, j, x, y, by omega, by simpa using h1, by simpa using h2, by simp⟩

theorem looks_length (b : List (Crossing K C)) : 2 * (looks b).length = b.length * (b.length - 1) := by
  induction b with
  | nil => simp [looks]
  | cons a as ih =>
    rw [looks, List.length_append, looksFrom_length, Nat.mul_add, ih, List.length_cons, Nat.add_sub_cancel]
    cases as with
    | nil => simp
    | cons x xs => simp only [List.length_cons, Nat.add_sub_cancel]; ring

section Example
private def cr (n : Nat) (o : Bool) : Crossing ℚ Nat := ⟨n, .point ⟨0, 0⟩, true, o, true, n⟩
private def pullList : List (List (Crossing ℚ Nat)) → Option (List (List (Crossing ℚ Nat)) × Option (List (Crossing ℚ Nat)))
  | [] => some ([], none)
  | b :: bs => some (bs, some b)
private theorem yields_list (bs) : Yields pullList bs bs := by
  induction bs with
  | nil => exact .done rfl
  | cons b bs ih => exact .more rfl ih

/-- Batches of sizes 1, 3, 1, 2: four pairs. -/
example : (Inters.ofInner [[cr 0 false], [cr 1 true, cr 2 false, cr 3 false], [cr 4 false], [cr 5 true, cr 6 false]]).trace
      pullList 5 5 = some [⟨cr 1 true, cr 2 false, true⟩, ⟨cr 1 true, cr 3 false, false⟩, ⟨cr 2 false, cr 3 false, false⟩,
        ⟨cr 5 true, cr 6 false, true⟩] := by
  have := C29_walk_visits_each_pair_once
    (yields_list [[cr 0 false], [cr 1 true, cr 2 false, cr 3 false], [cr 4 false], [cr 5 true, cr 6 false]]) 5 5 (by decide) (by decide)
  simpa [looks, looksFrom, cr] using this
end Example

end GeoCrossings
