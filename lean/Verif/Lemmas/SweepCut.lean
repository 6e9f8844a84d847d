import Verif.Lemmas.SweepAbs
import Mathlib.Algebra.Order.Group.Multiset
import Mathlib.Tactic.Abel

/-! # Cutting segments: the code and the invariant -/
set_option linter.unusedSectionVars false
namespace GeoCrossings
open Spec

/-- Proves that two lists put together from the same parts are permutations of each other. -/
macro "list_perm" : tactic => `(tactic| (
  rw [← Multiset.coe_eq_coe]
  simp only [← Multiset.coe_add, ← Multiset.cons_coe, ← Multiset.singleton_add, Multiset.coe_nil, add_zero, zero_add]
  try abel))

variable {K C : Type} [Field K] [LinearOrder K]
variable {org : C → Pt K} {allow : Prop}

section adjust
variable {p q r r1 r2 : Pt K} {s : Seg K C}

theorem adjust_inside (h1 : p < r) (h2 : r < q) (s : Seg K C) (hs : s.geom = .line p q) :
    s.adjust (.point r) = some ({ s with geom := .line p r, firstSegment := false }, .splitOnce none (.line r q)) := by
  simp only [Seg.adjust, hs]
  rw [if_neg (not_not.2 h1.le), if_neg (by rintro (e | e); exacts [h1.ne e, h2.ne e.symm]), if_pos h2]

theorem adjust_end (hpq : p ≤ q) (h : r = p ∨ r = q) (s : Seg K C) (hs : s.geom = .line p q) :
    s.adjust (.point r) = some (s, .unchanged false) := by
  simp only [Seg.adjust, hs]
  rw [if_neg (not_not.2 (by rcases h with rfl | rfl; exacts [le_refl _, hpq])), if_pos (by rcases h with rfl | rfl <;> simp)]

theorem adjust_whole (s : Seg K C) (hs : s.geom = .line p q) : s.adjust (.line p q) = some (s, .unchanged true) := by
  simp [Seg.adjust, hs]

theorem adjust_front (h2 : r2 < q) (s : Seg K C) (hs : s.geom = .line p q) :
    s.adjust (.line p r2) = some ({ s with geom := .line p r2, firstSegment := false }, .splitOnce (some false) (.line r2 q)) := by
  simp only [Seg.adjust, hs, if_true]
  rw [if_neg (not_not.2 ⟨le_refl _, h2.le⟩), if_neg h2.ne]

theorem adjust_back (h1 : p < r1) (s : Seg K C) (hs : s.geom = .line p q) :
    s.adjust (.line r1 q) = some ({ s with geom := .line p r1, firstSegment := false }, .splitOnce (some true) (.line r1 q)) := by
  simp only [Seg.adjust, hs, if_true]
  rw [if_neg (not_not.2 ⟨h1.le, le_refl _⟩), if_neg h1.ne]

theorem adjust_mid (h1 : p < r1) (h2 : r2 < q) (s : Seg K C) (hs : s.geom = .line p q) :
    s.adjust (.line r1 r2) = some ({ s with geom := .line p r1, firstSegment := false }, .splitTwice (.line r2 q)) := by
  simp only [Seg.adjust, hs]
  rw [if_neg (not_not.2 ⟨h1.le, h2.le⟩), if_neg h1.ne, if_neg h2.ne]
end adjust

section conc
variable {st : Sweep K C} {X : Abs K C} {L R : List (Grp K C)} {g : Grp K C} {r : Pt K}

/-- The key of the overlapping part, by the outcome of a single split. -/
def ovKey (o : Option Bool) (k k2 : Nat) : Option Nat :=
  match o with
  | some false => some k
  | some true => some k2
  | none => none

theorem Conc.cutA (h : Conc org st X) (lineOf : C → Line K) (hA : X.A = L ++ g :: R) (hl : g.IsLine)
    {i : LineOrPoint K} {o : Option Bool}
    (hi : ∀ s : Seg K C, s.geom = .line g.p g.q →
      s.adjust i = some ({ s with geom := .line g.p r, firstSegment := false }, .splitOnce o (.line r g.q))) :
    ∃ st' g2, st.adjustOne lineOf g.root i = some (st', ovKey o g.root g2.root) ∧ Piece g g2 r g.q ∧
      Conc org st' { X with
        A := L ++ g.cut r :: R, P := g2 :: X.P, E := g2.rightEv :: g2.leftEv :: (g.cut r).rightEv :: X.E } := by
  have hR : Rep org st.segments (g :: (L ++ R ++ X.P ++ X.S ++ X.Q)) := h.rep.perm (by
    unfold Abs.live; rw [hA]; list_perm)
  obtain ⟨st', g2, a1, a2, a3, a4, a5, a6, a7, a8, a9⟩ := Sweep.adjustOne_once lineOf hR hl.1 hi
  have hP : Piece g g2 r g.q := ⟨a3, a4, a5, a6⟩
  refine ⟨st', g2, ?_, hP, ?_, ?_, ?_, ?_⟩
  · rw [a1]; rfl
  · refine a2.perm ?_
    show List.Perm (g.cut r :: g2 :: (L ++ R ++ X.P ++ X.S ++ X.Q)) ((L ++ g.cut r :: R) ++ (g2 :: X.P) ++ X.S ++ X.Q)
    list_perm
  · rw [a8, h.act, hA]; simp
  · rw [a8, h.size, hA]; simp
  · rw [a7, h.ev]
    simp [Grp.rightEv, Grp.leftEv, hP.p, hP.q]

theorem Conc.keepA (h : Conc org st X) (lineOf : C → Line K) (hg : g ∈ X.live) (hl : g.IsLine)
    {i : LineOrPoint K} {b : Bool} (hi : ∀ s : Seg K C, s.geom = .line g.p g.q → s.adjust i = some (s, .unchanged b)) :
    ∃ st', st.adjustOne lineOf g.root i = some (st', if b then some g.root else none) ∧ Conc org st' X := by
  obtain ⟨l1, l2, e⟩ := List.append_of_mem hg
  have hR : Rep org st.segments (g :: (l1 ++ l2)) := h.rep.perm (by rw [e]; list_perm)
  obtain ⟨st', a1, a2, a3, a4, a5⟩ := Sweep.adjustOne_unchanged lineOf hR hl.1 hi
  refine ⟨st', a1, a2.perm ?_, ?_, ?_, ?_⟩
  · rw [e]; list_perm
  · rw [a4, h.act]
  · rw [a4, h.size]
  · rw [a3, h.ev]

theorem Conc.cutA2 (h : Conc org st X) (lineOf : C → Line K) (hA : X.A = L ++ g :: R) (hl : g.IsLine) {r1 r2 : Pt K}
    (h1 : g.p < r1) (h2 : r2 < g.q) :
    ∃ st' g2 g3, st.adjustOne lineOf g.root (.line r1 r2) = some (st', some g3.root) ∧ Piece g g2 r2 g.q ∧ Piece g g3 r1 r2 ∧
      Conc org st' { X with
        A := L ++ g.cut r1 :: R, P := g2 :: g3 :: X.P,
        E := g3.rightEv :: g3.leftEv :: g2.rightEv :: g2.leftEv :: (g.cut r1).rightEv :: X.E } := by
  have hR : Rep org st.segments (g :: (L ++ R ++ X.P ++ X.S ++ X.Q)) := h.rep.perm (by
    unfold Abs.live; rw [hA]; list_perm)
  obtain ⟨st', g2, g3, a1, a2, b1, b2, b3, b4, c1, c2, c3, c4, a7, a8, a9⟩ :=
    Sweep.adjustOne_twice lineOf hR hl.1 (adjust_mid h1 h2)
  have hP : Piece g g2 r2 g.q := ⟨b1, b2, b3, b4⟩
  have hP' : Piece g g3 r1 r2 := ⟨c1, c2, c3, c4⟩
  refine ⟨st', g2, g3, a1, hP, hP', ?_, ?_, ?_, ?_⟩
  · refine a2.perm ?_
    show List.Perm (g.cut r1 :: g2 :: g3 :: (L ++ R ++ X.P ++ X.S ++ X.Q))
      ((L ++ g.cut r1 :: R) ++ (g2 :: g3 :: X.P) ++ X.S ++ X.Q)
    list_perm
  · rw [a8, h.act, hA]; simp
  · rw [a8, h.size, hA]; simp
  · rw [a7, h.ev]
    simp [Grp.rightEv, Grp.leftEv, hP.p, hP.q, hP'.p, hP'.q]

theorem Conc.cutS (h : Conc org st X) (lineOf : C → Line K) {s : Grp K C} (hS : X.S = [s]) (hl : s.IsLine)
    {i : LineOrPoint K} {o : Option Bool}
    (hi : ∀ s' : Seg K C, s'.geom = .line s.p s.q →
      s'.adjust i = some ({ s' with geom := .line s.p r, firstSegment := false }, .splitOnce o (.line r s.q))) :
    ∃ st' g2, st.adjustOne lineOf s.root i = some (st', ovKey o s.root g2.root) ∧ Piece s g2 r s.q ∧
      Conc org st' { X with
        S := [s.cut r], P := g2 :: X.P, E := g2.rightEv :: g2.leftEv :: (s.cut r).rightEv :: X.E } := by
  have hR : Rep org st.segments (s :: (X.A ++ X.P ++ X.Q)) := h.rep.perm (by
    unfold Abs.live; rw [hS]; list_perm)
  obtain ⟨st', g2, a1, a2, a3, a4, a5, a6, a7, a8, a9⟩ := Sweep.adjustOne_once lineOf hR hl.1 hi
  have hP : Piece s g2 r s.q := ⟨a3, a4, a5, a6⟩
  refine ⟨st', g2, ?_, hP, ?_, ?_, ?_, ?_⟩
  · rw [a1]; rfl
  · refine a2.perm ?_
    show List.Perm (s.cut r :: g2 :: (X.A ++ X.P ++ X.Q)) (X.A ++ (g2 :: X.P) ++ [s.cut r] ++ X.Q)
    list_perm
  · rw [a8, h.act]
  · rw [a8, h.size]
  · rw [a7, h.ev]
    simp [Grp.rightEv, Grp.leftEv, hP.p, hP.q]
end conc

section core
variable [IsStrictOrderedRing K] {pos : Pt K} {X : Abs K C} {L R : List (Grp K C)} {g g2 : Grp K C} {r : Pt K}

/-- The effect of a cut on the list of active segments. -/
theorem shrs_cut (L R : List (Grp K C)) (g : Grp K C) {r : Pt K} (hr : Inside g.p g.q r) :
    Sg.Shrs ((L ++ g :: R).map Grp.sg) ((L ++ g.cut r :: R).map Grp.sg) := by
  rw [List.map_append, List.map_append, List.map_cons, List.map_cons]
  refine List.rel_append (Sg.Shrs.refl _) (.cons ⟨rfl, .inr hr⟩ (Sg.Shrs.refl _))

theorem filter_left_cons {e : Event K} {E : List (Event K)} (h : e.ty ≠ .lineLeft) :
    (e :: E).filter (fun e => e.ty = .lineLeft) = E.filter (fun e => e.ty = .lineLeft) := by
  rw [List.filter_cons_of_neg]; simpa using h

theorem Core.cutA (h : Core pos X) (hA : X.A = L ++ g :: R) (hr : Inside g.p g.q r) (hpos : pos ≤ r) (hP : Piece g g2 r g.q) :
    Core pos { X with
      A := L ++ g.cut r :: R, P := g2 :: X.P, E := g2.rightEv :: g2.leftEv :: (g.cut r).rightEv :: X.E } := by
  have hg := h.lineA g (by rw [hA]; simp)
  have hl2 := hP.isLine hr.2.1
  refine ⟨?_, ?_, h.lineS, h.ptQ, ?_, ?_, ?_, ?_, ?_, ?_, ?_⟩
  · intro x hx
    simp only [List.mem_append, List.mem_cons] at hx
    rcases hx with hx | rfl | hx
    · exact h.lineA x (by rw [hA]; simp [hx])
    · exact ⟨g.cut_isLine hr.1, hg.2.1, hg.2.2.1, hpos⟩
    · exact h.lineA x (by rw [hA]; simp [hx])
  · intro x hx
    rcases List.mem_cons.1 hx with rfl | hx
    · exact ⟨hl2, hP.done, by rw [hP.p]; exact hpos⟩
    · exact h.lineP x hx
  · have := h.order
    unfold Abs.sgs at this ⊢
    rw [hA] at this
    exact (shrs_cut L R g hr).pairwise this
  · intro x hx
    have old : x ∈ X.A ++ X.P ++ X.S → x.rightEv ∈ X.E := h.evR x
    rw [hA] at old
    simp only [List.mem_append, List.mem_cons] at hx old ⊢
    rcases hx with ((hx | rfl | hx) | (rfl | hx)) | hx
    · exact .inr (.inr (.inr (old (by simp [hx]))))
    · exact .inr (.inr (.inl rfl))
    · exact .inr (.inr (.inr (old (by simp [hx]))))
    · exact .inl rfl
    · exact .inr (.inr (.inr (old (by simp [hx]))))
    · exact .inr (.inr (.inr (old (by simp [hx]))))
  · show List.Perm ((g2.rightEv :: g2.leftEv :: (g.cut r).rightEv :: X.E).filter fun e => e.ty = .lineLeft) _
    rw [filter_left_cons (by simp [Grp.rightEv]), List.filter_cons_of_pos (by simp [Grp.leftEv]),
      filter_left_cons (by simp [Grp.rightEv])]
    exact h.evL.cons _
  · intro e he ht
    simp only [List.mem_cons] at he
    rcases he with rfl | rfl | rfl | he
    · simp [Grp.rightEv] at ht
    · simp [Grp.leftEv] at ht
    · simp [Grp.rightEv] at ht
    · exact h.evQ e he ht
  · intro e he
    simp only [List.mem_cons] at he
    rcases he with rfl | rfl | rfl | he
    · simp only [Grp.rightEv, hP.q]; exact hpos.trans hr.2.1.le
    · simp only [Grp.leftEv, hP.p]; exact hpos
    · exact hpos
    · exact h.evpos e he
  · intro e he ht hp
    simp only [List.mem_cons] at he
    rcases he with rfl | rfl | rfl | he
    · exact ⟨g2, by simp, rfl⟩
    · simp [Grp.leftEv] at ht
    · exact ⟨g.cut r, by simp, rfl⟩
    · obtain ⟨x, hx, hq⟩ := h.prodR e he ht hp
      rw [hA] at hx
      simp only [List.mem_append, List.mem_cons] at hx
      rcases hx with ((hx | rfl | hx) | hx) | hx
      · exact ⟨x, by simp [hx], hq⟩
      · exact ⟨g2, by simp, by rw [hP.q]; exact hq⟩
      · exact ⟨x, by simp [hx], hq⟩
      · exact ⟨x, by simp [hx], hq⟩
      · exact ⟨x, by simp [hx], hq⟩
  · intro e he ht hp
    simp only [List.mem_cons] at he ⊢
    rcases he with rfl | rfl | rfl | he
    · simp [Grp.rightEv] at ht
    · simp [Grp.leftEv] at ht
    · simp [Grp.rightEv] at ht
    · exact .inr (.inr (.inr (h.prodP e he ht hp)))

theorem Core.cutS (h : Core pos X) {s : Grp K C} (hS : X.S = [s]) (hr : Inside s.p s.q r) (hpos : pos ≤ r) (hP : Piece s g2 r s.q) :
    Core pos { X with
      S := [s.cut r], P := g2 :: X.P, E := g2.rightEv :: g2.leftEv :: (s.cut r).rightEv :: X.E } := by
  have hg := h.lineS s (by rw [hS]; simp)
  have hl2 := hP.isLine hr.2.1
  refine ⟨h.lineA, ?_, ?_, h.ptQ, h.order, ?_, ?_, ?_, ?_, ?_, ?_⟩
  · intro x hx
    rcases List.mem_cons.1 hx with rfl | hx
    · exact ⟨hl2, hP.done, by rw [hP.p]; exact hpos⟩
    · exact h.lineP x hx
  · intro x hx
    simp only [List.mem_singleton] at hx
    subst hx
    exact ⟨s.cut_isLine hr.1, hg.2.1, hg.2.2⟩
  · intro x hx
    have old : x ∈ X.A ++ X.P ++ X.S → x.rightEv ∈ X.E := h.evR x
    rw [hS] at old
    simp only [List.mem_append, List.mem_cons, List.not_mem_nil, or_false] at hx old ⊢
    rcases hx with (hx | (rfl | hx)) | rfl
    · exact .inr (.inr (.inr (old (by simp [hx]))))
    · exact .inl rfl
    · exact .inr (.inr (.inr (old (by simp [hx]))))
    · exact .inr (.inr (.inl rfl))
  · show List.Perm ((g2.rightEv :: g2.leftEv :: (s.cut r).rightEv :: X.E).filter fun e => e.ty = .lineLeft) _
    rw [filter_left_cons (by simp [Grp.rightEv]), List.filter_cons_of_pos (by simp [Grp.leftEv]),
      filter_left_cons (by simp [Grp.rightEv])]
    exact h.evL.cons _
  · intro e he ht
    simp only [List.mem_cons] at he
    rcases he with rfl | rfl | rfl | he
    · simp [Grp.rightEv] at ht
    · simp [Grp.leftEv] at ht
    · simp [Grp.rightEv] at ht
    · exact h.evQ e he ht
  · intro e he
    simp only [List.mem_cons] at he
    rcases he with rfl | rfl | rfl | he
    · simp only [Grp.rightEv, hP.q]; exact hpos.trans hr.2.1.le
    · simp only [Grp.leftEv, hP.p]; exact hpos
    · exact hpos
    · exact h.evpos e he
  · intro e he ht hp
    simp only [List.mem_cons] at he
    rcases he with rfl | rfl | rfl | he
    · exact ⟨g2, by simp, rfl⟩
    · simp [Grp.leftEv] at ht
    · exact ⟨s.cut r, by simp, rfl⟩
    · obtain ⟨x, hx, hq⟩ := h.prodR e he ht hp
      rw [hS] at hx
      simp only [List.mem_append, List.mem_cons, List.not_mem_nil, or_false] at hx
      rcases hx with (hx | hx) | rfl
      · exact ⟨x, by simp [hx], hq⟩
      · exact ⟨x, by simp [hx], hq⟩
      · exact ⟨g2, by simp, by rw [hP.q]; exact hq⟩
  · intro e he ht hp
    simp only [List.mem_cons] at he ⊢
    rcases he with rfl | rfl | rfl | he
    · simp [Grp.rightEv] at ht
    · simp [Grp.leftEv] at ht
    · simp [Grp.rightEv] at ht
    · exact .inr (.inr (.inr (h.prodP e he ht hp)))

theorem Core.cutA2 (h : Core pos X) {g3 : Grp K C} {r1 r2 : Pt K} (hA : X.A = L ++ g :: R) (h1 : Inside g.p g.q r1)
    (h2 : Inside g.p g.q r2) (h12 : r1 < r2) (hpos : pos ≤ r1) (hP : Piece g g2 r2 g.q) (hP3 : Piece g g3 r1 r2) :
    Core pos { X with
      A := L ++ g.cut r1 :: R, P := g2 :: g3 :: X.P,
      E := g3.rightEv :: g3.leftEv :: g2.rightEv :: g2.leftEv :: (g.cut r1).rightEv :: X.E } := by
  have hg := h.lineA g (by rw [hA]; simp)
  have hl2 := hP.isLine h2.2.1
  have hl3 := hP3.isLine h12
  refine ⟨?_, ?_, h.lineS, h.ptQ, ?_, ?_, ?_, ?_, ?_, ?_, ?_⟩
  · intro x hx
    simp only [List.mem_append, List.mem_cons] at hx
    rcases hx with hx | rfl | hx
    · exact h.lineA x (by rw [hA]; simp [hx])
    · exact ⟨g.cut_isLine h1.1, hg.2.1, hg.2.2.1, hpos⟩
    · exact h.lineA x (by rw [hA]; simp [hx])
  · intro x hx
    simp only [List.mem_cons] at hx
    rcases hx with rfl | rfl | hx
    · exact ⟨hl2, hP.done, by rw [hP.p]; exact hpos.trans h12.le⟩
    · exact ⟨hl3, hP3.done, by rw [hP3.p]; exact hpos⟩
    · exact h.lineP x hx
  · have := h.order
    unfold Abs.sgs at this ⊢
    rw [hA] at this
    exact (shrs_cut L R g h1).pairwise this
  · intro x hx
    have old : x ∈ X.A ++ X.P ++ X.S → x.rightEv ∈ X.E := h.evR x
    rw [hA] at old
    simp only [List.mem_append, List.mem_cons] at hx old ⊢
    rcases hx with ((hx | rfl | hx) | (rfl | rfl | hx)) | hx
    · simp [old (by simp [hx])]
    · simp
    · simp [old (by simp [hx])]
    · simp
    · simp
    · simp [old (by simp [hx])]
    · simp [old (by simp [hx])]
  · show List.Perm ((g3.rightEv :: g3.leftEv :: g2.rightEv :: g2.leftEv :: (g.cut r1).rightEv :: X.E).filter
      fun e => e.ty = .lineLeft) _
    rw [filter_left_cons (by simp [Grp.rightEv]), List.filter_cons_of_pos (by simp [Grp.leftEv]),
      filter_left_cons (by simp [Grp.rightEv]), List.filter_cons_of_pos (by simp [Grp.leftEv]),
      filter_left_cons (by simp [Grp.rightEv])]
    exact (List.Perm.swap _ _ _).trans ((h.evL.cons _).cons _)
  · intro e he ht
    simp only [List.mem_cons] at he
    rcases he with rfl | rfl | rfl | rfl | rfl | he
    · simp [Grp.rightEv] at ht
    · simp [Grp.leftEv] at ht
    · simp [Grp.rightEv] at ht
    · simp [Grp.leftEv] at ht
    · simp [Grp.rightEv] at ht
    · exact h.evQ e he ht
  · intro e he
    simp only [List.mem_cons] at he
    rcases he with rfl | rfl | rfl | rfl | rfl | he
    · simp only [Grp.rightEv, hP3.q]; exact hpos.trans h12.le
    · simp only [Grp.leftEv, hP3.p]; exact hpos
    · simp only [Grp.rightEv, hP.q]; exact hpos.trans h1.2.1.le
    · simp only [Grp.leftEv, hP.p]; exact hpos.trans h12.le
    · exact hpos
    · exact h.evpos e he
  · intro e he ht hp
    simp only [List.mem_cons] at he
    rcases he with rfl | rfl | rfl | rfl | rfl | he
    · exact ⟨g3, by simp, rfl⟩
    · simp [Grp.leftEv] at ht
    · exact ⟨g2, by simp, rfl⟩
    · simp [Grp.leftEv] at ht
    · exact ⟨g.cut r1, by simp, rfl⟩
    · obtain ⟨x, hx, hq⟩ := h.prodR e he ht hp
      rw [hA] at hx
      simp only [List.mem_append, List.mem_cons] at hx
      rcases hx with ((hx | rfl | hx) | hx) | hx
      · exact ⟨x, by simp [hx], hq⟩
      · exact ⟨g2, by simp, by rw [hP.q]; exact hq⟩
      · exact ⟨x, by simp [hx], hq⟩
      · exact ⟨x, by simp [hx], hq⟩
      · exact ⟨x, by simp [hx], hq⟩
  · intro e he ht hp
    simp only [List.mem_cons] at he ⊢
    rcases he with rfl | rfl | rfl | rfl | rfl | he
    · simp [Grp.rightEv] at ht
    · simp [Grp.leftEv] at ht
    · simp [Grp.rightEv] at ht
    · simp [Grp.leftEv] at ht
    · simp [Grp.rightEv] at ht
    · simp [h.prodP e he ht hp]

/-- Moving on to the next event point. -/
theorem Core.advance (h : Core pos X) (hc : X.Chain pos) (hS : X.S = []) {pos' : Pt K} (hpos : pos ≤ pos')
    (hE : ∀ e ∈ X.E, pos' ≤ e.point) : Core pos' X ∧ X.Chain pos' := by
  rcases hpos.eq_or_lt with rfl | hlt
  · exact ⟨h, hc⟩
  have hq : ∀ g ∈ X.A, pos' ≤ g.q := fun g hg => hE _ (h.evR g (by simp [hg]))
  have hp : ∀ g ∈ X.P, pos' ≤ g.p := fun g hg => by
    have : g.leftEv ∈ X.E.filter fun e => e.ty = .lineLeft := h.evL.mem_iff.2 (List.mem_map_of_mem hg)
    exact hE _ (List.mem_of_mem_filter this)
  have ht : X.sgs.IsChain (fun a b => a.Tidy pos b) := by
    refine List.IsChain.imp ?_ hc
    rintro a b (h1 | ⟨c, h1, h2, -, -⟩)
    · exact h1
    · exfalso
      obtain ⟨g, hg, rfl⟩ := List.mem_map.1 h1
      have := hp g hg
      rw [show g.p = pos from h2] at this
      exact absurd hlt (not_lt.2 this)
  constructor
  · refine ⟨?_, ?_, ?_, h.ptQ, ?_, h.evR, h.evL, h.evQ, hE, ?_, ?_⟩
    · intro g hg
      obtain ⟨h1, h2, h3, h4⟩ := h.lineA g hg
      exact ⟨h1, h2, h3.trans hlt.le, hq g hg⟩
    · intro g hg
      obtain ⟨h1, h2, h3⟩ := h.lineP g hg
      exact ⟨h1, h2, hp g hg⟩
    · intro g hg; rw [hS] at hg; cases hg
    · refine GeoCrossings.advance hlt _ ?_ h.order ht
      intro x hx
      obtain ⟨g, hg, rfl⟩ := List.mem_map.1 hx
      obtain ⟨h1, h2, h3, h4⟩ := h.lineA g hg
      exact ⟨h1.2, h3, hq g hg⟩
    · intro e he ht hp'
      exact h.prodR e he ht (hlt.trans hp')
    · intro e he ht hp'
      exact h.prodP e he ht (hlt.trans hp')
  · refine List.IsChain.imp ?_ ht
    intro a b h1
    exact .inl fun r hr => h1 r (hlt.trans hr)

end core
end GeoCrossings
