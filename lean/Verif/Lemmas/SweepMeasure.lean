import Verif.Lemmas.SweepHist
import Verif.Lemmas.SweepStep
import Mathlib.Algebra.Order.BigOperators.Group.List

/-! # The sweep makes progress -/
set_option linter.unusedSectionVars false
namespace GeoCrossings
open Spec

variable {K C : Type} [Field K] [LinearOrder K] [IsStrictOrderedRing K]
variable {org : C → Pt K} {allow : Prop}
variable {lineOf : C → Line K} {input : List C} {pos : Pt K} {X X' : Abs K C}

/-- Only finitely many points matter. -/
theorem critical_finite (ls : List (Line K)) : ∃ cl : List (Pt K), ∀ r, Critical ls r → r ∈ cl := by
  classical
  refine ⟨ls.map (·.start) ++ ls.map (·.stop) ++
    (ls.flatMap fun l1 => ls.filterMap fun l2 => if h : ∃ r, MeetAt l1 l2 r then some h.choose else none), ?_⟩
  rintro r (⟨l, hl, rfl | rfl⟩ | ⟨l1, h1, l2, h2, hr⟩)
  · simp only [List.mem_append, List.mem_map]; exact .inl (.inl ⟨l, hl, rfl⟩)
  · simp only [List.mem_append, List.mem_map]; exact .inl (.inr ⟨l, hl, rfl⟩)
  · refine List.mem_append_right _ (List.mem_flatMap.2 ⟨l1, h1, List.mem_filterMap.2 ⟨l2, h2, ?_⟩⟩)
    have h : ∃ r, MeetAt l1 l2 r := ⟨r, hr⟩
    rw [dif_pos h, Option.some.injEq]
    exact ((hr _).1 ((h.choose_spec _).2 rfl))

open Classical in
/-- How many of the points `cl` lie within the piece. -/
noncomputable def weight (cl : List (Pt K)) (p q : Pt K) : Nat := cl.countP fun r => decide (Inside p q r)

theorem inside_cases {p q r x : Pt K} (hr : Inside p q r) : (Inside p r x → Inside p q x) ∧ (Inside r q x → Inside p q x) := by
  refine ⟨hr.of_cut, fun h => ⟨hr.1.trans h.1, h.2.1, ?_⟩⟩
  exact ((onSeg_iff hr.lt).1 (hr.on_right h.onSeg)).1

theorem weight_cut {cl : List (Pt K)} {p q r : Pt K} (hr : Inside p q r) (hm : r ∈ cl) :
    weight cl p r + weight cl r q + 1 ≤ weight cl p q := by
  classical
  have key : weight cl p r + weight cl r q + cl.countP (fun x => decide (x = r)) ≤ weight cl p q := by
    unfold weight
    clear hm
    induction cl with
    | nil => simp
    | cons x l ih =>
      simp only [List.countP_cons, decide_eq_true_eq]
      obtain ⟨i1, i2⟩ := inside_cases (x := x) hr
      have e1 : Inside p r x → x ≠ r := fun h => h.2.1.ne
      have e2 : Inside r q x → x ≠ r := fun h => h.1.ne'
      have e3 : Inside p r x → ¬ Inside r q x := fun h h' => _root_.lt_asymm h.2.1 h'.1
      have e4 : x = r → Inside p q x := fun h => h ▸ hr
      by_cases h1 : Inside p r x
      · rw [if_pos h1, if_neg (e3 h1), if_neg (e1 h1), if_pos (i1 h1)]; omega
      · rw [if_neg h1]
        by_cases h2 : Inside r q x
        · rw [if_pos h2, if_neg (e2 h2), if_pos (i2 h2)]; omega
        · rw [if_neg h2]
          by_cases h3 : x = r
          · rw [if_pos h3, if_pos (e4 h3)]; omega
          · rw [if_neg h3]
            split <;> omega
  have : 0 < cl.countP (fun x => decide (x = r)) := List.countP_pos_iff.2 ⟨r, hm, by simp⟩
  omega

noncomputable def wsum (cl : List (Pt K)) (l : List (Grp K C)) : Nat := (l.map fun g => weight cl g.p g.q).sum

noncomputable def Abs.measure (cl : List (Pt K)) (X : Abs K C) : Nat := X.E.length + 3 * wsum cl X.pieces

theorem wsum_perm {cl : List (Pt K)} {l l' : List (Grp K C)} (h : l.Perm l') : wsum cl l = wsum cl l' :=
  (h.map _).sum_eq

theorem wsum_cons {cl : List (Pt K)} {g : Grp K C} {l : List (Grp K C)} : wsum cl (g :: l) = weight cl g.p g.q + wsum cl l := by
  simp [wsum]

theorem Prim.measure {cl : List (Pt K)} (hcl : ∀ r, Critical (input.map lineOf) r → r ∈ cl) (hP : Pieces lineOf input X)
    (h : Prim org allow pos X X') : X'.measure cl ≤ X.measure cl := by
  unfold Abs.measure Abs.pieces
  cases h with
  | @cutA L g R r g2 hA hg hr hX hpos hp =>
    have e1 : wsum cl (X.D ++ X.A ++ X.P ++ X.S) = wsum cl (g :: (X.D ++ (L ++ R) ++ X.P ++ X.S)) := wsum_perm (by rw [hA]; list_perm)
    have e2 : wsum cl (X.D ++ (L ++ g.cut r :: R) ++ (g2 :: X.P) ++ X.S) = wsum cl (g.cut r :: g2 :: (X.D ++ (L ++ R) ++ X.P ++ X.S)) :=
      wsum_perm (by list_perm)
    have := weight_cut (cl := cl) hr (hcl r (hP.cross hX))
    simp only [e1, e2, wsum_cons, hp.p, hp.q, Grp.cut_p, Grp.cut_q, List.length_cons]
    omega
  | @cutA2 L g R r1 r2 g2 g3 hA hg h1 h2 h12 hX1 hX2 hpos hp2 hp3 =>
    have e1 : wsum cl (X.D ++ X.A ++ X.P ++ X.S) = wsum cl (g :: (X.D ++ (L ++ R) ++ X.P ++ X.S)) := wsum_perm (by rw [hA]; list_perm)
    have e2 : wsum cl (X.D ++ (L ++ g.cut r1 :: R) ++ (g2 :: g3 :: X.P) ++ X.S) =
      wsum cl (g.cut r1 :: g2 :: g3 :: (X.D ++ (L ++ R) ++ X.P ++ X.S)) := wsum_perm (by list_perm)
    have a1 := weight_cut (cl := cl) h2 (hcl r2 (hP.cross hX2))
    have hin : Inside g.p r2 r1 := ⟨h1.1, h12,
      det_trans hg.2.ne (det_left _ _) (by rw [det_swap, h2.2.2, neg_zero]) h1.2.2⟩
    have a2 := weight_cut (cl := cl) hin (hcl r1 (hP.cross hX1))
    simp only [e1, e2, wsum_cons, hp2.p, hp2.q, hp3.p, hp3.q, Grp.cut_p, Grp.cut_q, List.length_cons]
    omega
  | @cutS s r g2 hS hg hr hX hpos hp =>
    have e1 : wsum cl (X.D ++ X.A ++ X.P ++ X.S) = wsum cl (s :: (X.D ++ X.A ++ X.P)) := wsum_perm (by rw [hS]; list_perm)
    have e2 : wsum cl (X.D ++ X.A ++ (g2 :: X.P) ++ [s.cut r]) = wsum cl (s.cut r :: g2 :: (X.D ++ X.A ++ X.P)) :=
      wsum_perm (by list_perm)
    have := weight_cut (cl := cl) hr (hcl r (hP.cross hX))
    simp only [e1, e2, wsum_cons, hp.p, hp.q, Grp.cut_p, Grp.cut_q, List.length_cons]
    omega
  | @drop e E' he =>
    have := he.length_eq
    simp only [List.length_cons] at this
    simp only
    omega
  | @take L g R hP' hS hp =>
    have e1 : wsum cl (X.D ++ X.A ++ (L ++ R) ++ [g]) = wsum cl (X.D ++ X.A ++ X.P ++ X.S) := wsum_perm (by rw [hP', hS]; list_perm)
    simp only [e1]; omega
  | @mergeA L g R s out hA hS hge sp hl hl2 hem =>
    have e1 : wsum cl (X.D ++ X.A ++ X.P ++ X.S) = wsum cl (g :: s :: (X.D ++ (L ++ R) ++ X.P)) :=
      wsum_perm (by rw [hA, hS]; list_perm)
    have e2 : wsum cl (X.D ++ (L ++ { g with mem := g.mem ++ s.mem } :: R) ++ X.P ++ []) =
      wsum cl ({ g with mem := g.mem ++ s.mem } :: (X.D ++ (L ++ R) ++ X.P)) := wsum_perm (by list_perm)
    simp only [e1, e2, wsum_cons, Grp.p, Grp.q]
    omega
  | @mergeP L g R s hP' hS hge =>
    have e1 : wsum cl (X.D ++ X.A ++ X.P ++ X.S) = wsum cl (g :: s :: (X.D ++ X.A ++ (L ++ R))) :=
      wsum_perm (by rw [hP', hS]; list_perm)
    have e2 : wsum cl (X.D ++ X.A ++ (L ++ { g with mem := g.mem ++ s.mem } :: R) ++ []) =
      wsum cl ({ g with mem := g.mem ++ s.mem } :: (X.D ++ X.A ++ (L ++ R))) := wsum_perm (by list_perm)
    simp only [e1, e2, wsum_cons, Grp.p, Grp.q]
    omega
  | @activate L R s out hA hS sp hl hl2 hem =>
    have e1 : wsum cl (X.D ++ X.A ++ X.P ++ X.S) = wsum cl (s :: (X.D ++ (L ++ R) ++ X.P)) := wsum_perm (by rw [hA, hS]; list_perm)
    have e2 : wsum cl (X.D ++ (L ++ { s with done := true } :: R) ++ X.P ++ []) =
      wsum cl ({ s with done := true } :: (X.D ++ (L ++ R) ++ X.P)) := wsum_perm (by list_perm)
    simp only [e1, e2, wsum_cons, Grp.p, Grp.q]
    omega
  | @finish L g R out hA hq hap hem =>
    have e1 : wsum cl (X.D ++ [g] ++ (L ++ R) ++ X.P ++ X.S) = wsum cl (X.D ++ X.A ++ X.P ++ X.S) :=
      wsum_perm (by rw [hA]; list_perm)
    simp only [e1]; omega
  | point => exact le_rfl

/-- What the elementary changes keep. -/
structure Kept (allow : Prop) (X X' : Abs K C) : Prop where
  Q : X'.Q = X.Q
  log : X.log <+: X'.log
  pl : ∀ e ∈ X.E, e.ty = .pointLeft → e ∈ X'.E
  plE : (X'.E.filter fun e => e.ty = .pointLeft).Perm (X.E.filter fun e => e.ty = .pointLeft)
  plog : ¬ allow → X'.log.filter (fun e => e.2.2 = .pointLeft) = X.log.filter fun e => e.2.2 = .pointLeft

theorem Prim.kept (h : Prim org allow pos X X') : Kept allow X X' := by
  cases h
  case drop e E' he ht =>
    refine ⟨rfl, List.prefix_refl _, ?_, ?_, fun _ => rfl⟩
    · intro e' he' ht'
      rcases List.mem_cons.1 (he.mem_iff.1 he') with rfl | h
      · rw [ht] at ht'; cases ht'
      · exact h
    · have := he.filter fun e => e.ty = .pointLeft
      rw [List.filter_cons_of_neg (by rw [ht]; simp)] at this
      exact this.symm
  case mergeA hem =>
    exact ⟨rfl, by simp, fun e he _ => by simp [he], .refl _, fun _ => by simp [List.filter_append, hem.filter]⟩
  case activate hem =>
    exact ⟨rfl, by simp, fun e he _ => by simp [he], .refl _, fun _ => by simp [List.filter_append, hem.filter]⟩
  case finish hem =>
    exact ⟨rfl, by simp, fun e he _ => by simp [he], .refl _, fun _ => by simp [List.filter_append, hem.filter]⟩
  case point ha _ _ _ _ =>
    exact ⟨rfl, by simp, fun e he _ => by simp [he], .refl _, fun h => absurd ha h⟩
  all_goals exact ⟨rfl, by simp, fun e he _ => by simp [he], by simp [Grp.rightEv, Grp.leftEv], fun _ => rfl⟩

end GeoCrossings
