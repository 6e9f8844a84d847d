import Verif.Lemmas.Intersect
import Mathlib.Algebra.Order.Ring.Rat

/-! # C16, C17: intersecting two geometries -/
set_option linter.unusedSectionVars false
namespace GeoCrossings
open Spec

variable {K : Type _} [Field K] [LinearOrder K] [IsStrictOrderedRing K]

/-- A well-formed geometry is determined by its point set. -/
theorem geom_ext {g h : LineOrPoint K} (hg : g.WF) (hh : h.WF) (e : ∀ r, On g r ↔ On h r) : g = h := by
  cases g with
  | point p =>
    cases h with
    | point q => rw [(e p).1 rfl]
    | line a b =>
      exfalso
      have h1 := (e a).2 (onSeg_left a b)
      have h2 := (e b).2 (onSeg_right a b)
      exact hh.ne (h1.trans h2.symm)
  | line p q =>
    cases h with
    | point a =>
      exfalso
      have h1 := (e p).1 (onSeg_left p q)
      have h2 := (e q).1 (onSeg_right p q)
      exact hg.ne (h1.trans h2.symm)
    | line a b =>
      have h1 := (onSeg_iff hg).1 ((e a).2 (onSeg_left a b))
      have h2 := (onSeg_iff hg).1 ((e b).2 (onSeg_right a b))
      have h3 := (onSeg_iff hh).1 ((e p).1 (onSeg_left p q))
      have h4 := (onSeg_iff hh).1 ((e q).1 (onSeg_right p q))
      rw [le_antisymm h1.2.1 h3.2.1, le_antisymm h2.2.2 h4.2.2]

theorem intersectLine_isInter (a : LineOrPoint K) {p q : Pt K} (ha : a.WF) (hb : p < q) :
    ∃ res, a.intersectLine (.line p q) = some res ∧ IsInter res (On a) (On (.line p q)) := by
  cases a with
  | point z =>
    have hdef : (LineOrPoint.point z).intersectLine (.line p q) =
        if orient2d p z q = .collinear then
          if z ≥ p ∧ z ≤ q then some (some (.point z)) else some none
        else some none := rfl
    rw [hdef]
    by_cases h : OnSeg p q z
    · obtain ⟨h1, h2, h3⟩ := (onSeg_iff hb).1 h
      rw [if_pos ((orient2d_coll _ _ _).2 (by rw [det_swap, h1, neg_zero])), if_pos ⟨h2, h3⟩]
      refine ⟨_, rfl, trivial, fun r => ⟨?_, fun h => h.1⟩⟩
      rintro rfl; exact ⟨rfl, h⟩
    · refine ⟨none, ?_, ?_⟩
      · split_ifs with h1 h2
        · exfalso
          rw [orient2d_coll, det_swap, neg_eq_zero] at h1
          exact h ((onSeg_iff hb).2 ⟨h1, h2⟩)
        · rfl
        · rfl
      · rintro r ⟨h1, h2⟩
        simp only [On] at h1 h2
        subst h1
        exact h h2
  | line c d =>
    refine ⟨_, rfl, ?_⟩
    exact lineIntersection_spec ha hb

/-- **C16.** `a.intersect_line(b)` panics exactly if `b` is a point; otherwise it is `None` exactly if the closed point sets
are disjoint, `Point(p)` exactly if they meet in the single point `p`, and `Line(p, q)` exactly if they meet in the
non-degenerate segment from `p` to `q`. -/
theorem C16_intersect_line_exact (a b : LineOrPoint K) (ha : a.WF) (hb : b.WF) :
    (a.intersectLine b = none ↔ ∃ z, b = .point z) ∧
    ((∃ p q, b = .line p q) →
      (a.intersectLine b = some none ↔ ∀ r, ¬ (On a r ∧ On b r)) ∧
      (∀ z, a.intersectLine b = some (some (.point z)) ↔ ∀ r, (On a r ∧ On b r) ↔ r = z) ∧
      (∀ p q, a.intersectLine b = some (some (.line p q)) ↔ p < q ∧ ∀ r, (On a r ∧ On b r) ↔ OnSeg p q r)) := by
  refine ⟨?_, ?_⟩
  · cases b with
    | point z => simp [LineOrPoint.intersectLine, LineOrPoint.isLine]
    | line p q =>
      obtain ⟨res, h, -⟩ := intersectLine_isInter a ha hb
      simp [h]
  · rintro ⟨p, q, rfl⟩
    obtain ⟨res, h, hI⟩ := intersectLine_isInter a ha hb
    rw [h]
    simp only [Option.some.injEq]
    cases res with
    | none =>
      refine ⟨⟨fun _ => hI, fun _ => rfl⟩, fun z => ?_, fun c d => ?_⟩
      · simp only [reduceCtorEq, false_iff]
        intro h; exact hI z ((h z).2 rfl)
      · simp only [reduceCtorEq, false_iff]
        rintro ⟨-, h⟩; exact hI c ((h c).2 (onSeg_left c d))
    | some g =>
      obtain ⟨hg, hI⟩ := hI
      refine ⟨?_, fun z => ?_, fun c d => ?_⟩
      · simp only [reduceCtorEq, false_iff]
        intro h
        have : On g g.first := by
          cases g with
          | point z => rfl
          | line c d => exact onSeg_left c d
        exact h _ ((hI _).1 this)
      · simp only [Option.some.injEq]
        constructor
        · rintro rfl; exact fun r => (hI r).symm
        · intro h
          exact geom_ext hg trivial fun r => (hI r).trans (h r)
      · simp only [Option.some.injEq]
        constructor
        · rintro rfl; exact ⟨hg, fun r => (hI r).symm⟩
        · rintro ⟨hcd, h⟩
          exact geom_ext hg hcd fun r => (hI r).trans (h r)

/-- Crossing, touching at an end, overlapping, point on line, disjoint. -/
example :
    (LineOrPoint.line (⟨0, 0⟩ : Pt ℚ) ⟨2, 2⟩).intersectLine (.line ⟨0, 2⟩ ⟨2, 0⟩) = some (some (.point ⟨1, 1⟩)) ∧
    (LineOrPoint.line (⟨0, 0⟩ : Pt ℚ) ⟨2, 2⟩).intersectLine (.line ⟨1, 1⟩ ⟨1, 5⟩) = some (some (.point ⟨1, 1⟩)) ∧
    (LineOrPoint.line (⟨0, 0⟩ : Pt ℚ) ⟨2, 2⟩).intersectLine (.line ⟨1, 1⟩ ⟨3, 3⟩) = some (some (.line ⟨1, 1⟩ ⟨2, 2⟩)) ∧
    (LineOrPoint.point (⟨1, 1⟩ : Pt ℚ)).intersectLine (.line ⟨0, 0⟩ ⟨3, 3⟩) = some (some (.point ⟨1, 1⟩)) ∧
    (LineOrPoint.line (⟨0, 0⟩ : Pt ℚ) ⟨2, 2⟩).intersectLine (.line ⟨2, 1⟩ ⟨3, 3⟩) = some none := by
  decide +kernel

theorem on_bounds {g : LineOrPoint K} (hg : g.WF) {r : Pt K} (h : On g r) : g.first ≤ r ∧ r ≤ g.second := by
  cases g with
  | point z => subst h; exact ⟨le_rfl, le_rfl⟩
  | line p q => exact ((onSeg_iff hg).1 h).2

theorem on_first (g : LineOrPoint K) : On g g.first := by
  cases g with
  | point z => rfl
  | line c d => exact onSeg_left c d

theorem on_second (g : LineOrPoint K) : On g g.second := by
  cases g with
  | point z => rfl
  | line c d => exact onSeg_right c d

/-- **C17.** Whatever `next_after` returns, `intersect_line_ordered` equals `intersect_line` in exact arithmetic (the nudge
is never taken, and its assertions hold), and its result starts at or after the start of both inputs and ends at or before the end of both. -/
theorem C17_ordered_eq (nextAfter : K → K) (a b : LineOrPoint K) (ha : a.WF) (hb : b.WF) :
    a.intersectLineOrdered nextAfter b = a.intersectLine b ∧
    ∀ g, a.intersectLineOrdered nextAfter b = some (some g) →
      a.first ≤ g.first ∧ b.first ≤ g.first ∧ g.second ≤ a.second ∧ g.second ≤ b.second := by
  cases b with
  | point z => simp [LineOrPoint.intersectLineOrdered, LineOrPoint.intersectLine, LineOrPoint.isLine]
  | line p q =>
    obtain ⟨res, h, hI⟩ := intersectLine_isInter a ha hb
    have bounds : ∀ g, res = some g →
        a.first ≤ g.first ∧ p ≤ g.first ∧ g.second ≤ a.second ∧ g.second ≤ q := by
      rintro g rfl
      obtain ⟨hg, hI⟩ := hI
      have h1 := (hI _).1 (on_first g)
      have h2 := (hI _).1 (on_second g)
      exact ⟨(on_bounds ha h1.1).1, (on_bounds hb h1.2).1, (on_bounds ha h2.1).2, (on_bounds hb h2.2).2⟩
    have heq : a.intersectLineOrdered nextAfter (.line p q) = a.intersectLine (.line p q) := by
      unfold LineOrPoint.intersectLineOrdered
      rw [h]
      cases res with
      | none => rfl
      | some g =>
        cases g with
        | line c d => rfl
        | point z =>
          have := (bounds _ rfl).1
          simp only [LineOrPoint.first] at this
          have hc : ¬ (z.x = a.first.x ∧ z.y < a.first.y) := by
            rintro ⟨hx, hy⟩
            exact absurd (Pt.y_le_of_le_of_eq this hx.symm) (not_le.2 hy)
          simp only [if_neg hc]
          exact if_pos ⟨(bounds _ rfl).1, (bounds _ rfl).2.1⟩
    refine ⟨heq, fun g hg => ?_⟩
    rw [heq, h, Option.some.injEq] at hg
    exact bounds g hg

/-- A case where the abscissae coincide, so that the comparison guarding the nudge is reached. -/
example : (LineOrPoint.line (⟨0, 0⟩ : Pt ℚ) ⟨0, 4⟩).intersectLineOrdered (· + 1) (.line ⟨-1, 1⟩ ⟨1, 1⟩) =
    some (some (.point ⟨0, 1⟩)) := by decide +kernel

end GeoCrossings
