import Verif.Model.Sweep
import Verif.Props.Intersect

/-! # C18: splitting a segment at an intersection -/
set_option linter.unusedSectionVars false
namespace GeoCrossings
open Spec

variable {K C : Type _} [Field K] [LinearOrder K] [IsStrictOrderedRing K]

namespace Spec
/-- The geometries are consecutive non-degenerate lines leading from `p` to `q`. -/
inductive Tiles : Pt K → Pt K → List (LineOrPoint K) → Prop
  | one {p q} : p < q → Tiles p q [.line p q]
  | cons {p r q gs} : p < r → Tiles r q gs → Tiles p q (.line p r :: gs)
end Spec

theorem onSeg_split {p q r : Pt K} (h : p < q) (hr : OnSeg p q r) (hpr : p < r) (hrq : r < q) (x : Pt K) :
    OnSeg p q x ↔ OnSeg p r x ∨ OnSeg r q x := by
  obtain ⟨d, h1, h2⟩ := (onSeg_iff h).1 hr
  have e1 : det p r x = 0 ↔ det p q x = 0 :=
    ⟨det_trans hpr.ne (det_left _ _) d, det_trans h.ne (det_left _ _) (by rw [det_swap, d, neg_zero])⟩
  have e2 : det r q x = 0 ↔ det p q x = 0 := by
    refine ⟨det_trans hrq.ne d (det_right _ _), det_trans h.ne ?_ (det_right _ _)⟩
    have : det r q p = det p q r * -1 := by unfold det; ring
    rw [this, d, zero_mul]
  rw [onSeg_iff h, onSeg_iff hpr, onSeg_iff hrq, e1, e2]
  constructor
  · rintro ⟨a, b, c⟩
    rcases le_total x r with k | k
    · exact .inl ⟨a, b, k⟩
    · exact .inr ⟨a, k, c⟩
  · rintro (⟨a, b, c⟩ | ⟨a, b, c⟩)
    · exact ⟨a, b, c.trans h2⟩
    · exact ⟨a, h1.trans b, c⟩

/-- The pieces a segment is cut into: the part kept in place, the intersection itself for a double split, the part returned. -/
def piecesOf (kept : LineOrPoint K) (i : LineOrPoint K) : Split K → List (LineOrPoint K)
  | .unchanged _ => [kept]
  | .splitOnce _ r => [kept, r]
  | .splitTwice r => [kept, i, r]

/-- The piece that is the overlap, if the split reports one. -/
def overlapOf (kept : LineOrPoint K) (i : LineOrPoint K) : Split K → Option (LineOrPoint K)
  | .unchanged ov => if ov then some kept else none
  | .splitOnce (some false) _ => some kept
  | .splitOnce (some true) r => some r
  | .splitOnce none _ => none
  | .splitTwice _ => some i

/-- **C18.** For a line segment and an intersection contained in it, the split does not panic; the pieces are consecutive
non-degenerate lines from one end to the other and cover exactly the segment; the piece kept in place starts at the left
end; the overlapping piece, reported exactly if the intersection is a line, is the intersection; nothing is cut exactly if
the intersection is an end point or the whole; and key, crossable and links are untouched. -/
theorem C18_split_tiles (s : Seg K C) {p q : Pt K} (hs : s.geom = .line p q) (hpq : p < q) (i : LineOrPoint K)
    (hi : i.WF) (hin : ∀ r, On i r → OnSeg p q r) :
    ∃ s' out, s.adjust i = some (s', out) ∧
      Tiles p q (piecesOf s'.geom i out) ∧
      (∀ r, OnSeg p q r ↔ ∃ g ∈ piecesOf s'.geom i out, On g r) ∧
      s'.geom.first = p ∧
      overlapOf s'.geom i out = (if i.isLine then some i else none) ∧
      ((∃ b, out = .unchanged b) ↔ i = .point p ∨ i = .point q ∨ i = .line p q) ∧
      (s'.key = s.key ∧ s'.crossable = s.crossable ∧ s'.overlapping = s.overlapping ∧
        s'.isOverlapping = s.isOverlapping ∧ s'.leftEventDone = s.leftEventDone) := by
  cases i with
  | point r =>
    have hr := hin r rfl
    obtain ⟨d, h1, h2⟩ := (onSeg_iff hpq).1 hr
    by_cases hc : p = r ∨ q = r
    · refine ⟨s, .unchanged false, by simp [Seg.adjust, hs, hc, not_lt.2 h1], ?_, ?_, ?_, ?_, ?_, ?_⟩
      · rw [hs]; exact .one hpq
      · intro x; simp [piecesOf, hs, On]
      · rw [hs]; rfl
      · simp [overlapOf, LineOrPoint.isLine]
      · simp only [LineOrPoint.point.injEq, reduceCtorEq, or_false]
        exact ⟨fun _ => hc.imp Eq.symm Eq.symm, fun _ => ⟨_, rfl⟩⟩
      · simp
    · push Not at hc
      have hpr : p < r := lt_of_le_of_ne h1 hc.1
      have hrq : r < q := lt_of_le_of_ne h2 (Ne.symm hc.2)
      refine ⟨_, _, by simp only [Seg.adjust, hs]; rw [if_neg (not_not.2 h1), if_neg (by simp [hc.1, hc.2]), if_pos hrq], ?_, ?_, ?_, ?_, ?_, ?_⟩
      · exact .cons hpr (.one hrq)
      · intro x; rw [onSeg_split hpq hr hpr hrq]; simp [piecesOf, On]
      · rfl
      · simp [overlapOf, LineOrPoint.isLine]
      · simp [Ne.symm hc.1, Ne.symm hc.2]
      · simp
  | line r1 r2 =>
    have hr1 := hin r1 (onSeg_left _ _)
    have hr2 := hin r2 (onSeg_right _ _)
    obtain ⟨d1, a1, b1⟩ := (onSeg_iff hpq).1 hr1
    obtain ⟨d2, a2, b2⟩ := (onSeg_iff hpq).1 hr2
    have hi : r1 < r2 := hi
    by_cases hc1 : p = r1
    · subst hc1
      by_cases hc2 : r2 = q
      · subst hc2
        refine ⟨s, .unchanged true, by simp [Seg.adjust, hs], ?_, ?_, ?_, ?_, ?_, ?_⟩
        · rw [hs]; exact .one hpq
        · intro x; simp [piecesOf, hs, On]
        · rw [hs]; rfl
        · simp [overlapOf, LineOrPoint.isLine, hs]
        · simp
        · simp
      · have h2 : r2 < q := lt_of_le_of_ne b2 hc2
        refine ⟨_, _, by simp only [Seg.adjust, hs]; rw [if_neg (not_not.2 ⟨le_refl _, b2⟩), if_pos trivial, if_neg hc2], ?_, ?_, ?_, ?_, ?_, ?_⟩
        · exact .cons hi (.one h2)
        · intro x; rw [onSeg_split hpq hr2 hi h2]; simp [piecesOf, On]
        · rfl
        · simp [overlapOf, LineOrPoint.isLine]
        · simp [hc2]
        · simp
    · have h1 : p < r1 := lt_of_le_of_ne a1 hc1
      by_cases hc2 : r2 = q
      · subst hc2
        refine ⟨_, _, by simp only [Seg.adjust, hs]; rw [if_neg (not_not.2 ⟨a1, le_refl _⟩), if_neg hc1, if_pos trivial], ?_, ?_, ?_, ?_, ?_, ?_⟩
        · exact .cons h1 (.one hi)
        · intro x; rw [onSeg_split hpq hr1 h1 hi]; simp [piecesOf, On]
        · rfl
        · simp [overlapOf, LineOrPoint.isLine]
        · simp [Ne.symm hc1]
        · simp
      · have h2 : r2 < q := lt_of_le_of_ne b2 hc2
        refine ⟨_, _, by simp only [Seg.adjust, hs]; rw [if_neg (not_not.2 ⟨a1, b2⟩), if_neg hc1, if_neg hc2], ?_, ?_, ?_, ?_, ?_, ?_⟩
        · exact .cons h1 (.cons hi (.one h2))
        · intro x
          have h1q : r1 < q := hi.trans h2
          have hr2' : OnSeg r1 q r2 := by
            have := (onSeg_split hpq hr1 h1 h1q r2).1 hr2
            rcases this with h | h
            · exact absurd ((onSeg_iff h1).1 h).2.2 (not_le.2 hi)
            · exact h
          rw [onSeg_split hpq hr1 h1 h1q, onSeg_split h1q hr2' hi h2]
          simp [piecesOf, On]
        · rfl
        · simp [overlapOf, LineOrPoint.isLine]
        · simp [Ne.symm hc1]
        · simp

/-- A double split: the overlap `(1,1)-(2,2)` lies strictly inside `(0,0)-(3,3)`. -/
example :
    let s : Seg ℚ Unit := ⟨.line ⟨0, 0⟩ ⟨3, 3⟩, 0, (), true, false, none, false⟩
    ((s.adjust (.line ⟨1, 1⟩ ⟨2, 2⟩)).map fun r => (r.1.geom, r.2)) =
      some (.line ⟨0, 0⟩ ⟨1, 1⟩, .splitTwice (.line ⟨2, 2⟩ ⟨3, 3⟩)) ∧
    (∀ r, On (.line (⟨1, 1⟩ : Pt ℚ) ⟨2, 2⟩) r → OnSeg ⟨0, 0⟩ ⟨3, 3⟩ r) := by
  refine ⟨by decide +kernel, ?_⟩
  rintro r ⟨t, h0, h1, hx, hy⟩
  refine ⟨(1 + t) / 3, by linarith, by linarith, ?_, ?_⟩
  · simp only at hx ⊢; rw [hx]; ring
  · simp only at hy ⊢; rw [hy]; ring

end GeoCrossings
