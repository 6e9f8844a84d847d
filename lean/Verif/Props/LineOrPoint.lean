import Verif.Lemmas.SweepOrder
import Mathlib.Algebra.Order.Ring.Rat

/-! # C11–C15: line normalisation and the comparison of segments -/
set_option linter.unusedSectionVars false
namespace GeoCrossings
open Spec

/-! ## C11 -/

section C11
variable {K : Type _} [LinearOrder K]

/-- **C11.** Conversion yields a point exactly for a degenerate line, otherwise a line with strictly ordered ends;
it does not depend on the direction of the line; it keeps the pair of end points; and converting again is the identity. -/
theorem C11_normalise (l : Line K) :
    ((LineOrPoint.ofLine l).isLine = false ↔ l.start = l.stop) ∧
    (LineOrPoint.ofLine l).WF ∧
    LineOrPoint.ofLine ⟨l.stop, l.start⟩ = LineOrPoint.ofLine l ∧
    ((LineOrPoint.ofLine l).toLine = l ∨ (LineOrPoint.ofLine l).toLine = ⟨l.stop, l.start⟩) ∧
    (LineOrPoint.ofLine l).first = min l.start l.stop ∧
    (LineOrPoint.ofLine l).second = max l.start l.stop ∧
    LineOrPoint.ofLine (LineOrPoint.ofLine l).toLine = LineOrPoint.ofLine l := by
  obtain ⟨a, b⟩ := l
  rcases lt_trichotomy a b with h | h | h
  · have h1 : compare a b = .lt := compare_lt_iff_lt.2 h
    have h2 : compare b a = .gt := compare_gt_iff_gt.2 h
    simp [LineOrPoint.ofLine, h1, h2, LineOrPoint.isLine, LineOrPoint.WF, h, h.ne, LineOrPoint.toLine,
      LineOrPoint.first, LineOrPoint.second, h.le]
  · subst h
    simp [LineOrPoint.ofLine, LineOrPoint.isLine, LineOrPoint.WF, LineOrPoint.toLine,
      LineOrPoint.first, LineOrPoint.second]
  · have h1 : compare a b = .gt := compare_gt_iff_gt.2 h
    have h2 : compare b a = .lt := compare_lt_iff_lt.2 h
    simp [LineOrPoint.ofLine, h1, h2, LineOrPoint.isLine, LineOrPoint.WF, h, h.ne', LineOrPoint.toLine,
      LineOrPoint.first, LineOrPoint.second, h.le]

/-- A reversed line is normalised; its end points share an abscissa. -/
example : LineOrPoint.ofLine (⟨⟨1, 5⟩, ⟨1, 2⟩⟩ : Line Nat) = .line ⟨1, 2⟩ ⟨1, 5⟩ := by decide

end C11

variable {K : Type _} [Field K] [LinearOrder K] [IsStrictOrderedRing K]

/-! ## C12 -/

/-- Two well-formed lines always get an order. -/
theorem pcmp_lines_defined {p1 q1 p2 q2 : Pt K} (h1 : p1 < q1) (h2 : p2 < q2) :
    (LineOrPoint.line p1 q1).pcmp (.line p2 q2) ≠ none := by
  simp only [LineOrPoint.pcmp]
  split_ifs with h
  · rw [pcmpLineLine_some (h.trans h1) h1]; simp
  · rw [pcmpLineLine_some ((not_lt.1 h).trans_lt h2) h2]; simp

theorem compare_zero_neg (a : K) : compare 0 (-a) = (compare 0 a).swap := by
  rcases lt_trichotomy 0 a with h | h | h
  · rw [compare_lt_iff_lt.2 h, compare_gt_iff_gt.2 (neg_neg_of_pos h)]; rfl
  · rw [← h, neg_zero, compare_eq_iff_eq.2 rfl]; rfl
  · rw [compare_gt_iff_gt.2 h, compare_lt_iff_lt.2 (neg_pos.2 h)]; rfl

/-- **C12.** Comparison is dual: swapping the arguments reverses the result, `None` included; and every geometry
compares `Equal` with itself. -/
theorem C12_duality (a b : LineOrPoint K) (ha : a.WF) (hb : b.WF) :
    b.pcmp a = (a.pcmp b).map Ordering.swap ∧ a.pcmp a = some .eq := by
  refine ⟨?_, ?_⟩
  · cases a with
    | point p =>
      cases b with
      | point q =>
        simp only [LineOrPoint.pcmp]
        by_cases h : p = q
        · subst h; simp
        · simp [h, Ne.symm h]
      | line q r => simp [LineOrPoint.pcmp, Function.comp_def]
    | line p q =>
      cases b with
      | point r => simp [LineOrPoint.pcmp]
      | line p' q' =>
        simp only [LineOrPoint.pcmp]
        rcases lt_trichotomy p p' with h | h | h
        · rw [if_pos h, if_neg (not_lt.2 h.le)]
        · subst h
          rw [if_neg (lt_irrefl _), pcmpLineLine_some ha ha, pcmpLineLine_some hb hb]
          simp only [det_left, Option.map_some]
          rw [det_swap p q' q, compare_zero_neg]
          cases compare 0 (det p q' q) <;> simp [Ordering.then]
        · rw [if_neg (not_lt.2 h.le), if_pos h]; simp [Function.comp_def]
  · cases a with
    | point p => simp [LineOrPoint.pcmp]
    | line p q =>
      simp only [LineOrPoint.pcmp]
      rw [if_neg (lt_irrefl _), pcmpLineLine_some ha ha]; simp [Ordering.then]

/-- Two crossing segments, a touching pair, and an incomparable pair. -/
example :
    (LineOrPoint.line (⟨0, 0⟩ : Pt ℚ) ⟨2, 2⟩).pcmp (.line ⟨1, 0⟩ ⟨3, 3⟩) = some .gt ∧
    (LineOrPoint.line (⟨0, 0⟩ : Pt ℚ) ⟨2, 2⟩).pcmp (.line ⟨0, 0⟩ ⟨3, 4⟩) = some .lt ∧
    (LineOrPoint.line (⟨0, 0⟩ : Pt ℚ) ⟨2, 2⟩).pcmp (.point ⟨3, 3⟩) = none ∧
    (LineOrPoint.line (⟨0, 0⟩ : Pt ℚ) ⟨2, 2⟩).pcmp (.point ⟨1, 1⟩) = some .gt := by decide +kernel

/-! ## C13 -/

/-- Both ends of the segment `p q` enclose the sweep position `c`. -/
def Spans (c p q : Pt K) : Prop := p ≤ c ∧ c < q

theorem noMeet_symm {c p1 q1 p2 q2 : Pt K} (hw1 : p1 < q1) (H : NoMeetUpTo c p1 q1 p2 q2) :
    NoMeetUpTo c p2 q2 p1 q1 := by
  intro r h2 h1 hr o2 o1
  have := H r h1 h2 hr o1 o2
  rw [collinear3_iff, collinear3_iff] at this ⊢
  exact collinear_comm hw1 this

/-- **C13.** For two segments that span the sweep position `c` and have not met before it, the comparison is defined, it is
`Less` exactly if the first is cut below the second by the sweep line at `c`, `Greater` exactly if it is cut above, and
`Equal` exactly if they are collinear. -/
theorem C13_order_is_vertical_order {c p1 q1 p2 q2 : Pt K}
    (h1 : Spans c p1 q1) (h2 : Spans c p2 q2) (H : NoMeetUpTo c p1 q1 p2 q2) :
    ((LineOrPoint.line p1 q1).pcmp (.line p2 q2) = some .lt ↔ BelowAt c p1 q1 p2 q2) ∧
    ((LineOrPoint.line p1 q1).pcmp (.line p2 q2) = some .gt ↔ BelowAt c p2 q2 p1 q1) ∧
    ((LineOrPoint.line p1 q1).pcmp (.line p2 q2) = some .eq ↔ Collinear3 p1 q1 p2 ∧ Collinear3 p1 q1 q2) := by
  obtain ⟨a1, b1⟩ := h1
  obtain ⟨a2, b2⟩ := h2
  have w1 := a1.trans_lt b1
  have w2 := a2.trans_lt b2
  by_cases hp : p1 ≤ p2
  · have := order_core w1 w2 hp a2 b1 b2 H
    simp only [LineOrPoint.pcmp, if_neg (not_lt.2 hp)]
    rw [pcmpLineLine_some (a1.trans_lt b2) w2]
    simp only [Option.some.injEq]
    refine ⟨this.1, this.2, ?_⟩
    rw [then_compare_eq, collinear3_iff, collinear3_iff]
  · have hp := not_le.1 hp
    have := order_core w2 w1 hp.le a1 b2 b1 (noMeet_symm w1 H)
    simp only [LineOrPoint.pcmp, if_pos hp]
    rw [pcmpLineLine_some (a2.trans_lt b1) w1]
    simp only [Option.map_some, Option.some.injEq]
    refine ⟨?_, ?_, ?_⟩
    · rw [← this.2]; cases Ordering.then _ _ <;> simp
    · rw [← this.1]; cases Ordering.then _ _ <;> simp
    · have e : ∀ o : Ordering, o.swap = .eq ↔ o = .eq := by decide
      rw [e, then_compare_eq, collinear3_iff, collinear3_iff]
      exact ⟨collinear_comm w2, collinear_comm w1⟩

/-- A sloped and a vertical segment spanning `(1, 1)`: hypotheses hold, and the comparison is `Greater`. -/
example : Spans (⟨1, 1⟩ : Pt ℚ) ⟨0, 0⟩ ⟨3, 6⟩ ∧ Spans (⟨1, 1⟩ : Pt ℚ) ⟨1, 0⟩ ⟨1, 4⟩ ∧
    NoMeetUpTo (⟨1, 1⟩ : Pt ℚ) ⟨0, 0⟩ ⟨3, 6⟩ ⟨1, 0⟩ ⟨1, 4⟩ ∧
    (LineOrPoint.line (⟨0, 0⟩ : Pt ℚ) ⟨3, 6⟩).pcmp (.line ⟨1, 0⟩ ⟨1, 4⟩) = some .gt := by
  refine ⟨by unfold Spans; decide +kernel, by unfold Spans; decide +kernel, ?_, by decide +kernel⟩
  intro r h1 h2 hr ⟨t, ht0, ht1, hx, hy⟩ ⟨s, hs0, hs1, hx', hy'⟩
  exfalso
  simp only [Pt.le_def] at hr
  simp only at *
  have : r.x = 1 := by linarith
  rcases hr with hr | hr <;> linarith

/-- **C13 (points).** A line compared with a point: undefined exactly if the point is not between the ends of the line;
otherwise `Less` if the line passes strictly below the point, and `Greater` if it passes above or through it. The
comparison with the arguments swapped is the reverse. Two points are `Equal` or not comparable. -/
theorem C13_line_point_order {p q : Pt K} (h : p < q) (r r' : Pt K) :
    ((LineOrPoint.line p q).pcmp (.point r) = none ↔ ¬ (p ≤ r ∧ r ≤ q)) ∧
    ((LineOrPoint.line p q).pcmp (.point r) = some .lt ↔ p ≤ r ∧ r ≤ q ∧ heightAt p q r < r.y) ∧
    ((LineOrPoint.line p q).pcmp (.point r) = some .gt ↔ p ≤ r ∧ r ≤ q ∧ r.y ≤ heightAt p q r) ∧
    ((LineOrPoint.point r).pcmp (.line p q) = some .gt ↔ p ≤ r ∧ r ≤ q ∧ heightAt p q r < r.y) ∧
    ((LineOrPoint.point r).pcmp (.line p q) = some .lt ↔ p ≤ r ∧ r ≤ q ∧ r.y ≤ heightAt p q r) ∧
    (LineOrPoint.point r).pcmp (.point r') = if r = r' then some .eq else none := by
  have key : p ≤ r → r ≤ q → (0 < det p q r ↔ heightAt p q r < r.y) := by
    intro h1 h2
    by_cases hv : p.x = q.x
    · have hx : r.x = p.x := le_antisymm (hv ▸ Pt.x_le_of_le h2) (Pt.x_le_of_le h1)
      have : det p q r = 0 := by unfold det; rw [hx, ← hv]; ring
      rw [heightAt_vert hv, this]; simp
    · have hlt := Pt.x_lt_of_lt_of_ne h hv
      rw [heightAt_eq hv, det_hgt hv]
      constructor
      · intro hh
        have := (mul_pos_iff_of_pos_left (by linarith : (0 : K) < q.x - p.x)).1 hh
        linarith
      · intro hh; exact mul_pos (by linarith) (by linarith)
  by_cases hr : p ≤ r ∧ r ≤ q
  · have hn : ¬ (r > q ∨ p > r) := by
      rintro (h' | h')
      exacts [absurd hr.2 (not_le.2 h'), absurd hr.1 (not_le.2 h')]
    have hk := key hr.1 hr.2
    simp only [LineOrPoint.pcmp, pcmpLinePoint, if_neg hn, oao, hr, not_true, true_and, Option.map_some, Option.some.injEq]
    rw [← not_lt, ← hk]
    rcases lt_trichotomy 0 (det p q r) with h' | h' | h'
    · simp [compare_lt_iff_lt.2 h', h', Ordering.then]
    · simp [← h', Ordering.then]
    · simp [compare_gt_iff_gt.2 h', h'.le, Ordering.then]
  · have hn : r > q ∨ p > r := by
      by_contra hc
      push Not at hc
      exact hr ⟨hc.2, hc.1⟩
    simp only [LineOrPoint.pcmp, pcmpLinePoint, if_pos hn, hr, not_false_iff, true_and, Option.map_none]
    have : ∀ a : Prop, (p ≤ r ∧ r ≤ q ∧ a) ↔ False := fun a => by grind
    simp [this]

/-- Points below, on and above a sloped line, and on a vertical one. -/
example :
    (LineOrPoint.line (⟨0, 0⟩ : Pt ℚ) ⟨2, 2⟩).pcmp (.point ⟨1, 0⟩) = some .gt ∧
    (LineOrPoint.line (⟨0, 0⟩ : Pt ℚ) ⟨2, 2⟩).pcmp (.point ⟨1, 1⟩) = some .gt ∧
    (LineOrPoint.line (⟨0, 0⟩ : Pt ℚ) ⟨2, 2⟩).pcmp (.point ⟨1, 3⟩) = some .lt ∧
    (LineOrPoint.line (⟨0, 0⟩ : Pt ℚ) ⟨0, 2⟩).pcmp (.point ⟨0, 1⟩) = some .gt := by decide +kernel

/-! ## C14 -/

/-- Comparison of two stored segments: geometry, then key — sweep.rs:220-226 and monotone/segment.rs:69-76. -/
def segCmp (a b : LineOrPoint K × Nat) : Option Ordering :=
  (a.1.pcmp b.1).map fun o => o.then (compare a.2 b.2)

/-- Position and direction of a segment along the sweep line at `c`, as a lexicographic key: the slope counts negatively
above `c`. -/
theorem belowAt_trans {c p1 q1 p2 q2 p3 q3 : Pt K} (h1 : BelowAt c p1 q1 p2 q2) (h2 : BelowAt c p2 q2 p3 q3) :
    BelowAt c p1 q1 p3 q3 := by
  unfold BelowAt at *
  rcases h1 with h1 | ⟨h1, h1'⟩ <;> rcases h2 with h2 | ⟨h2, h2'⟩
  · exact .inl (h1.trans h2)
  · exact .inl (h2 ▸ h1)
  · exact .inl (h1 ▸ h2)
  · refine .inr ⟨h1.trans h2, ?_⟩
    rw [h1] at h1' ⊢
    split_ifs at h1' h2' ⊢ with h
    · exact h1'.trans h2'
    · exact h2'.trans h1'

theorem belowAt_irrefl {c p q : Pt K} : ¬ BelowAt c p q p q := by
  unfold BelowAt; simp

/-- Neither below: same height and same slope. -/
def SameAt (c p1 q1 p2 q2 : Pt K) : Prop := heightAt p1 q1 c = heightAt p2 q2 c ∧ slope p1 q1 = slope p2 q2

theorem belowAt_trichotomy (c p1 q1 p2 q2 : Pt K) :
    BelowAt c p1 q1 p2 q2 ∨ SameAt c p1 q1 p2 q2 ∨ BelowAt c p2 q2 p1 q1 := by
  unfold BelowAt SameAt
  rcases lt_trichotomy (heightAt p1 q1 c) (heightAt p2 q2 c) with h | h | h
  · exact .inl (.inl h)
  · rcases lt_trichotomy (slope p1 q1) (slope p2 q2) with h' | h' | h'
    · rw [h]; by_cases hc : heightAt p2 q2 c ≤ c.y
      · exact .inl (.inr ⟨rfl, by rw [if_pos hc]; exact h'⟩)
      · exact .inr (.inr (.inr ⟨rfl, by rw [if_neg hc]; exact h'⟩))
    · exact .inr (.inl ⟨h, h'⟩)
    · rw [h]; by_cases hc : heightAt p2 q2 c ≤ c.y
      · exact .inr (.inr (.inr ⟨rfl, by rw [if_pos hc]; exact h'⟩))
      · exact .inl (.inr ⟨rfl, by rw [if_neg hc]; exact h'⟩)
  · exact .inr (.inr (.inl h))

theorem belowAt_sameAt_left {c p1 q1 p2 q2 p3 q3 : Pt K} (h1 : SameAt c p1 q1 p2 q2) (h2 : BelowAt c p2 q2 p3 q3) :
    BelowAt c p1 q1 p3 q3 := by
  unfold BelowAt SameAt at *
  rw [h1.1, h1.2]; exact h2

theorem belowAt_sameAt_right {c p1 q1 p2 q2 p3 q3 : Pt K} (h1 : BelowAt c p1 q1 p2 q2) (h2 : SameAt c p2 q2 p3 q3) :
    BelowAt c p1 q1 p3 q3 := by
  unfold BelowAt SameAt at *
  rw [← h2.1, ← h2.2]; exact h1

/-- A set of stored segments as the active set holds them at sweep position `c`: lines spanning `c`, with distinct keys,
no two of which have met before. -/
structure ActiveAt (c : Pt K) (S : LineOrPoint K × Nat → Prop) : Prop where
  line : ∀ s, S s → ∃ p q, s.1 = .line p q ∧ Spans c p q
  key : ∀ s t, S s → S t → s.2 = t.2 → s = t
  noMeet : ∀ s t p q p' q', S s → S t → s.1 = .line p q → t.1 = .line p' q' → NoMeetUpTo c p q p' q'

theorem sameAt_iff_eq {c p1 q1 p2 q2 : Pt K}
    (h1 : Spans c p1 q1) (h2 : Spans c p2 q2) (H : NoMeetUpTo c p1 q1 p2 q2) :
    (LineOrPoint.line p1 q1).pcmp (.line p2 q2) = some .eq ↔ SameAt c p1 q1 p2 q2 := by
  obtain ⟨e1, e2, e3⟩ := C13_order_is_vertical_order h1 h2 H
  have hdef := pcmp_lines_defined (h1.1.trans_lt h1.2) (h2.1.trans_lt h2.2)
  constructor
  · intro h
    rcases belowAt_trichotomy c p1 q1 p2 q2 with h' | h' | h'
    · rw [e1.2 h'] at h; simp at h
    · exact h'
    · rw [e2.2 h'] at h; simp at h
  · intro h
    rcases hc : (LineOrPoint.line p1 q1).pcmp (.line p2 q2) with _ | (_ | _ | _)
    · exact absurd hc hdef
    · have := belowAt_sameAt_left ⟨h.1.symm, h.2.symm⟩ (e1.1 hc)
      exact absurd this belowAt_irrefl
    · rfl
    · have := belowAt_sameAt_left h (e2.1 hc)
      exact absurd this belowAt_irrefl

/-- **C14.** On such a set the comparison with key tie-break is a strict total order: always defined, `Equal` only on the
same segment, antisymmetric and transitive. -/
theorem C14_active_set_strict_total_order {c : Pt K} {S : LineOrPoint K × Nat → Prop} (h : ActiveAt c S) :
    (∀ s t, S s → S t → segCmp s t = some .lt ∨ s = t ∨ segCmp t s = some .lt) ∧
    (∀ s t, S s → S t → (segCmp s t = some .eq ↔ s = t)) ∧
    (∀ s t, S s → S t → segCmp t s = (segCmp s t).map Ordering.swap) ∧
    (∀ s t u, S s → S t → S u → segCmp s t = some .lt → segCmp t u = some .lt → segCmp s u = some .lt) := by
  have key : ∀ s t, S s → S t → ∃ p q p' q', s.1 = .line p q ∧ t.1 = .line p' q' ∧
      (segCmp s t = some .lt ↔ BelowAt c p q p' q' ∨ (SameAt c p q p' q' ∧ s.2 < t.2)) ∧
      (segCmp s t = some .eq ↔ SameAt c p q p' q' ∧ s.2 = t.2) ∧
      segCmp t s = (segCmp s t).map Ordering.swap := by
    intro s t hs ht
    obtain ⟨p, q, e, hsp⟩ := h.line s hs
    obtain ⟨p', q', e', hsp'⟩ := h.line t ht
    have H := h.noMeet s t p q p' q' hs ht e e'
    obtain ⟨c1, c2, c3⟩ := C13_order_is_vertical_order hsp hsp' H
    have c4 := sameAt_iff_eq hsp hsp' H
    have c5 := (C12_duality (.line p q) (.line p' q') (hsp.1.trans_lt hsp.2) (hsp'.1.trans_lt hsp'.2)).1
    refine ⟨p, q, p', q', e, e', ?_, ?_, ?_⟩
    · unfold segCmp
      rw [e, e', ← c1, ← c4]
      rcases (LineOrPoint.line p q).pcmp (.line p' q') with _ | (_ | _ | _) <;>
        simp [Ordering.then, compare_lt_iff_lt]
    · unfold segCmp
      rw [e, e', ← c4]
      rcases (LineOrPoint.line p q).pcmp (.line p' q') with _ | (_ | _ | _) <;>
        simp [Ordering.then]
    · unfold segCmp
      rw [e, e', c5]
      rcases (LineOrPoint.line p q).pcmp (.line p' q') with _ | (_ | _ | _) <;> simp [Ordering.then]
      exact (Std.OrientedCmp.eq_swap (cmp := compare))
  refine ⟨?_, ?_, fun s t hs ht => ?_, ?_⟩
  · intro s t hs ht
    obtain ⟨p, q, p', q', e, e', k1, k2, k3⟩ := key s t hs ht
    rcases belowAt_trichotomy c p q p' q' with h' | h' | h'
    · exact .inl (k1.2 (.inl h'))
    · rcases lt_trichotomy s.2 t.2 with hk | hk | hk
      · exact .inl (k1.2 (.inr ⟨h', hk⟩))
      · exact .inr (.inl (h.key s t hs ht hk))
      · obtain ⟨_, _, _, _, f, f', k1', -, -⟩ := key t s ht hs
        rw [e] at f'; rw [e'] at f; cases f; cases f'
        exact .inr (.inr (k1'.2 (.inr ⟨⟨h'.1.symm, h'.2.symm⟩, hk⟩)))
    · obtain ⟨_, _, _, _, f, f', k1', -, -⟩ := key t s ht hs
      rw [e] at f'; rw [e'] at f; cases f; cases f'
      exact .inr (.inr (k1'.2 (.inl h')))
  · intro s t hs ht
    obtain ⟨p, q, p', q', e, e', k1, k2, k3⟩ := key s t hs ht
    constructor
    · intro heq; exact h.key s t hs ht (k2.1 heq).2
    · rintro rfl; rw [e] at e'; cases e'; exact k2.2 ⟨⟨rfl, rfl⟩, rfl⟩
  · obtain ⟨p, q, p', q', e, e', k1, k2, k3⟩ := key s t hs ht
    exact k3
  · intro s t u hs ht hu h1 h2
    obtain ⟨p, q, p', q', e, e', k1, -, -⟩ := key s t hs ht
    obtain ⟨_, _, p'', q'', f, f', k2, -, -⟩ := key t u ht hu
    obtain ⟨_, _, _, _, g, g', k3, -, -⟩ := key s u hs hu
    rw [e'] at f; cases f; rw [e] at g; cases g; rw [f'] at g'; cases g'
    rw [k1] at h1; rw [k2] at h2; rw [k3]
    rcases h1 with h1 | ⟨h1, h1'⟩ <;> rcases h2 with h2 | ⟨h2, h2'⟩
    · exact .inl (belowAt_trans h1 h2)
    · exact .inl (belowAt_sameAt_right h1 h2)
    · exact .inl (belowAt_sameAt_left h1 h2)
    · exact .inr ⟨⟨h1.1.trans h2.1, h1.2.trans h2.2⟩, h1'.trans h2'⟩

/-- A three-element active set at `(1, 0)`: two segments leaving a common point and a collinear copy of the first. -/
def demoActive : LineOrPoint ℚ × Nat → Prop := fun s =>
  s = (.line ⟨0, 0⟩ ⟨2, 0⟩, 0) ∨ s = (.line ⟨0, 0⟩ ⟨2, 2⟩, 1) ∨ s = (.line ⟨0, 0⟩ ⟨3, 0⟩, 2)

example : ActiveAt (⟨1, 0⟩ : Pt ℚ) demoActive := by
  refine ⟨?_, ?_, ?_⟩
  · rintro s (rfl | rfl | rfl)
    · exact ⟨_, _, rfl, by unfold Spans; decide +kernel⟩
    · exact ⟨_, _, rfl, by unfold Spans; decide +kernel⟩
    · exact ⟨_, _, rfl, by unfold Spans; decide +kernel⟩
  · rintro s t (rfl | rfl | rfl) (rfl | rfl | rfl) <;> simp
  · have trig : ∀ x t s : ℚ, x = 0 + t * (2 - 0) → x = 0 + s * (2 - 0) → 0 + t * 0 = 0 + s * (2 : ℚ) → 0 < x → False := by
      intro x t s h1 h2 h3 h4; linarith
    rintro s t p q p' q' (rfl | rfl | rfl) (rfl | rfl | rfl) e e' <;> cases e <;> cases e' <;>
      intro r h1 h2 hr ⟨t, ht0, ht1, hx, hy⟩ ⟨s, hs0, hs1, hx', hy'⟩ <;>
      first
        | (unfold Collinear3; constructor <;> norm_num; done)
        | (exfalso
           simp only [Pt.lt_def] at h1
           simp only at *
           rcases h1 with h1 | h1 <;> linarith)

/-! ## C15 -/

/-- The documented precondition on two lines: both left ends strictly before both right ends. -/
def CommonExtent (p1 q1 p2 q2 : Pt K) : Prop := p1 < q1 ∧ p1 < q2 ∧ p2 < q1 ∧ p2 < q2

/-- **C15 (partial).** A point and a line are refused exactly if the point is outside the line's lexicographic extent, two
points exactly if they differ, and two lines satisfying the documented condition are never refused.
Missing for the full claim: two lines violating the condition should be refused. That is false of the code, see
`C15_not_enforced`. -/
theorem C15_refuses_partial :
    (∀ p1 q1 p2 q2 : Pt K, CommonExtent p1 q1 p2 q2 → (LineOrPoint.line p1 q1).pcmp (.line p2 q2) ≠ none) ∧
    (∀ p q r : Pt K, (LineOrPoint.line p q).pcmp (.point r) = none ↔ ¬ (p ≤ r ∧ r ≤ q)) ∧
    (∀ p q r : Pt K, (LineOrPoint.point r).pcmp (.line p q) = none ↔ ¬ (p ≤ r ∧ r ≤ q)) ∧
    (∀ r s : Pt K, (LineOrPoint.point r).pcmp (.point s) = none ↔ r ≠ s) := by
  have hpt : ∀ p q r : Pt K, pcmpLinePoint p q r = none ↔ ¬ (p ≤ r ∧ r ≤ q) := by
    intro p q r
    unfold pcmpLinePoint
    by_cases h : r > q ∨ p > r
    · rw [if_pos h]; simp only [true_iff]
      rintro ⟨h1, h2⟩
      rcases h with h | h
      · exact absurd h (not_lt.2 h2)
      · exact absurd h (not_lt.2 h1)
    · rw [if_neg h]; push Not at h; simp [h]
  refine ⟨?_, ?_, ?_, ?_⟩
  · rintro p1 q1 p2 q2 ⟨h1, h2, h3, h4⟩; exact pcmp_lines_defined h1 h4
  · intro p q r; simp only [LineOrPoint.pcmp]; exact hpt p q r
  · intro p q r; simp only [LineOrPoint.pcmp, Option.map_eq_none_iff]; exact hpt p q r
  · intro r s; simp only [LineOrPoint.pcmp]; split_ifs with h <;> simp [h]

example : CommonExtent (⟨0, 0⟩ : Pt ℚ) ⟨2, 0⟩ ⟨1, 1⟩ ⟨3, 1⟩ := by unfold CommonExtent; decide +kernel

/-- **C15 (refutation for lines).** The documented condition is not enforced: a pair of well-formed lines violating it is
never refused (line 236 tests `p2 >= q2`, not `p2 >= q1`), and such pairs exist. -/
theorem C15_not_enforced :
    (∀ p1 q1 p2 q2 : Pt K, p1 < q1 → p2 < q2 → ¬ CommonExtent p1 q1 p2 q2 →
      (LineOrPoint.line p1 q1).pcmp (.line p2 q2) ≠ none) ∧
    ∃ p1 q1 p2 q2 : Pt ℚ, p1 < q1 ∧ p2 < q2 ∧ ¬ CommonExtent p1 q1 p2 q2 ∧
      (LineOrPoint.line p1 q1).pcmp (.line p2 q2) = some .lt :=
  ⟨fun _ _ _ _ h1 h2 _ => pcmp_lines_defined h1 h2,
   ⟨0, 0⟩, ⟨1, 0⟩, ⟨5, 1⟩, ⟨6, 1⟩, by unfold CommonExtent; decide +kernel⟩

end GeoCrossings
