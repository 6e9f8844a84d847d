import Verif.Lemmas.BatchShape
import Verif.Lemmas.SortBlocks

/-! # The sorted batch of `Op::sweep` -/
set_option linter.unusedSectionVars false
namespace GeoCrossings
open Spec BoolOp

variable {K C : Type} [Field K] [LinearOrder K] [IsStrictOrderedRing K] [DecidableEq C]
variable {pt : Pt K} {X X' : Abs K C}

/-- What is reported for a group that ends. -/
structure EBlk (g : Grp K C) (t : List (Crossing K C)) : Prop where
  cs : (t.map (·.crossable)).Perm g.cs
  all : ∀ c ∈ t, c.atLeft = false ∧ c.line = g.geom

/-- What is reported for a group that starts at `pt`. -/
structure SBlk (pt : Pt K) (g : Grp K C) (t : List (Crossing K C)) : Prop where
  cs : (t.map (·.crossable)).Perm g.cs
  all : ∀ c ∈ t, c.atLeft = true ∧ ∃ b, c.line = .line pt b ∧ pt < b ∧ Sg.Shr (pt, b) g.sg

theorem EBlk.perm {g : Grp K C} {t t' : List (Crossing K C)} (h : EBlk g t) (hp : t'.Perm t) : EBlk g t' :=
  ⟨(hp.map _).trans h.cs, fun c hc => h.all c (hp.mem_iff.1 hc)⟩

theorem SBlk.perm {g : Grp K C} {t t' : List (Crossing K C)} (h : SBlk pt g t) (hp : t'.Perm t) : SBlk pt g t' :=
  ⟨(hp.map _).trans h.cs, fun c hc => h.all c (hp.mem_iff.1 hc)⟩

theorem flatMap_blocks {α β γ : Type _} (f : α → β) (h : γ → List β) : ∀ {D : List γ} {l : List α}, l.map f = D.flatMap h →
    ∃ Bl, l = Bl.flatten ∧ List.Forall₂ (fun g t => t.map f = h g) D Bl := by
  intro D
  induction D with
  | nil => intro l hl; exact ⟨[], by simpa using hl, .nil⟩
  | cons g D ih =>
    intro l hl
    rw [List.flatMap_cons, List.map_eq_append_iff] at hl
    obtain ⟨l1, l2, rfl, h1, h2⟩ := hl
    obtain ⟨Bl, rfl, h3⟩ := ih h2
    exact ⟨l1 :: Bl, by simp, .cons h1 h3⟩

theorem forall₂_imp_mem {α β : Type _} {R S : α → β → Prop} {l : List α} {l' : List β} (h : List.Forall₂ R l l')
    (hi : ∀ a ∈ l, ∀ b ∈ l', R a b → S a b) : List.Forall₂ S l l' := by
  induction h with
  | nil => exact .nil
  | cons h1 _ ih => exact .cons (hi _ (by simp) _ (by simp) h1) (ih fun a ha b hb => hi a (by simp [ha]) b (by simp [hb]))

/-- The batch consists of blocks, one for each group that ends or starts. -/
theorem batch_blocks {out : Out K C} {L0 E0 U0 L E U S D1 : List (Grp K C)} {T : List (Out K C)}
    (h : Shape pt X X' out L0 E0 U0 L E U S D1 T) (hty : ∀ o ∈ out, o.2 = .lineLeft ∨ o.2 = .lineRight) :
    ∃ RE RS, (batchOf out).Perm (RE ++ RS).flatten ∧ List.Forall₂ EBlk E.reverse RE ∧ List.Forall₂ (SBlk pt) S RS ∧
      (∀ t ∈ RS, t.Sublist (batchOf out)) ∧ List.Forall₂ (fun g t => t.map (fun c => (c.key, c.crossable)) = g.mem) S RS := by
  have hsplit : out.Perm (out.filter (fun o => decide (o.2 = .lineRight)) ++ out.filter isLeft) := by
    refine (List.filter_append_perm (fun o => decide (o.2 = .lineRight)) out).symm.trans ?_
    refine List.Perm.append_left _ (List.Perm.of_eq ?_)
    refine List.filter_congr fun o ho => ?_
    rcases hty o ho with e | e <;> simp [isLeft, e]
  obtain ⟨Bl, e1, e2⟩ := flatMap_blocks _ _ h.right
  have hp : E.reverse.Perm D1 := (List.reverse_perm E).trans h.en.symm
  obtain ⟨RE, f1, f2⟩ := List.perm_comp_forall₂ hp e2
  refine ⟨RE.map batchOf, T.map batchOf, ?_, ?_, ?_, ?_, ?_⟩
  · have fl : ∀ M : List (Out K C), (M.map batchOf).flatten = batchOf M.flatten := by
      intro M; unfold batchOf; rw [List.map_flatten]
    rw [List.flatten_append, fl, fl]
    unfold batchOf
    refine (hsplit.map _).trans ?_
    rw [List.map_append]
    refine List.Perm.append ?_ (h.perm.map _)
    rw [e1]
    exact (f2.flatten.symm.map _)
  · rw [List.forall₂_map_right_iff]
    refine forall₂_imp_mem f1 ?_
    intro g hg t ht hgt
    have hr : ∀ o ∈ t, o.2 = .lineRight := by
      intro o ho
      have : o ∈ out.filter (fun o => decide (o.2 = .lineRight)) := by
        rw [e1]; exact List.mem_flatten.2 ⟨t, f2.mem_iff.1 ht, ho⟩
      simpa using (List.mem_filter.1 this).2
    refine ⟨?_, ?_⟩
    · have := congrArg (List.map Prod.fst) hgt
      simp only [List.map_map] at this
      unfold batchOf
      rw [List.map_map]
      refine List.Perm.of_eq ?_
      refine Eq.trans ?_ (this.trans ?_)
      · rfl
      · exact List.map_id _
    · intro c hc
      obtain ⟨o, ho, rfl⟩ := List.mem_map.1 hc
      refine ⟨by simp [Crossing.ofSeg, hr o ho], ?_⟩
      have : (o.1.crossable, o.1.geom) ∈ g.cs.map fun c => (c, g.geom) := by
        rw [← hgt]; exact List.mem_map_of_mem (f := fun o : Seg K C × EventType => (o.1.crossable, o.1.geom)) ho
      obtain ⟨x, -, hx⟩ := List.mem_map.1 this
      exact (congrArg Prod.snd hx).symm
  · rw [List.forall₂_map_right_iff]
    refine forall₂_imp_mem h.new ?_
    intro g hg t ht hgt
    refine ⟨?_, ?_⟩
    · have := congrArg (List.map Prod.snd) hgt.1
      simp only [List.map_map] at this
      unfold batchOf
      rw [List.map_map]
      exact List.Perm.of_eq this
    · intro c hc
      obtain ⟨o, ho, rfl⟩ := List.mem_map.1 hc
      obtain ⟨k1, b, k2, k3, k4⟩ := hgt.2 o ho
      exact ⟨by simp [Crossing.ofSeg, k1], b, k2, k3, k4⟩
  · intro t ht
    obtain ⟨t, ht', rfl⟩ := List.mem_map.1 ht
    exact ((h.sub t ht').trans List.filter_sublist).map _
  · rw [List.forall₂_map_right_iff]
    refine h.new.imp fun g t hgt => ?_
    rw [← hgt.1]; unfold batchOf; rw [List.map_map]; rfl

/-! ## Comparing the reports -/

theorem shr_det {a b q : Pt K} (h : Sg.Shr (a, b) (a, q)) : ∃ t : K, 0 < t ∧
    (∀ x, det a q x = t * det a b x) ∧ (∀ x, det a x q = t * det a x b) := by
  rcases h.2 with e | e
  · have e : q = b := e
    subst e; exact ⟨1, one_pos, by simp, by simp⟩
  · obtain ⟨t, t0, -, e1, e2, e3⟩ := Inside.param e
    exact ⟨t, t0, e1, fun x => by rw [e3]; simp⟩

theorem start_cmp_eq {b b' q : Pt K} (h1 : pt < b) (h2 : pt < b') (s1 : Sg.Shr (pt, b) (pt, q)) (s2 : Sg.Shr (pt, b') (pt, q)) :
    (LineOrPoint.line pt b).pcmp (.line pt b') = some .eq := by
  rw [pcmp_eq_iff h1 h2]
  obtain ⟨t, t0, e1, e2⟩ := shr_det s1
  obtain ⟨t', t0', e1', e2'⟩ := shr_det s2
  refine ⟨det_left _ _, ?_⟩
  have h : det pt b q = 0 := by
    rw [e2, det_right, mul_zero]
  rw [e2'] at h
  rcases mul_eq_zero.1 h with h | h
  · exact absurd h t0'.ne'
  · exact h

theorem start_cmp_lt {b b' q q' : Pt K} (h1 : pt < b) (h2 : pt < b') (s1 : Sg.Shr (pt, b) (pt, q)) (s2 : Sg.Shr (pt, b') (pt, q'))
    (hl : Lt pt q pt q') : (LineOrPoint.line pt b).pcmp (.line pt b') = some .lt ∧ (LineOrPoint.line pt b').pcmp (.line pt b) = some .gt := by
  have : Lt pt b pt b' := by
    rw [lt_right_iff le_rfl, det_left] at hl ⊢
    obtain ⟨t, t0, e1, -⟩ := shr_det s1
    obtain ⟨t', t0', -, e2'⟩ := shr_det s2
    rw [e1, e2'] at hl
    rcases hl with hl | hl
    · exact absurd hl (lt_irrefl _)
    · refine .inr ⟨rfl, ?_⟩
      have := hl.2
      rw [← mul_assoc] at this
      exact (pos_iff_pos_of_mul_pos this).1 (mul_pos t0 t0')
  exact ⟨(pcmp_lt_iff h1 h2).2 this, (pcmp_gt_iff h2 h1).2 this⟩

theorem sg_eq {g : Grp K C} : g.sg = (g.p, g.q) := rfl

theorem blocks_cmp {E S : List (Grp K C)} {RE RS : List (List (Crossing K C))} (hE : List.Forall₂ EBlk E.reverse RE)
    (hS : List.Forall₂ (SBlk pt) S RS) (endE : ∀ g ∈ E, g.IsLine) (startS : ∀ g ∈ S, g.IsLine ∧ g.p = pt)
    (ordE : E.Pairwise fun a b => a.sg.Lt b.sg) (ordS : S.Pairwise fun a b => a.sg.Lt b.sg) :
    (∀ s ∈ RE ++ RS, ∀ a ∈ s, ∀ b ∈ s, compareCrossings a b = some .eq) ∧
    (RE ++ RS).Pairwise (fun s r => ∀ a ∈ s, ∀ b ∈ r, compareCrossings a b = some .lt ∧ compareCrossings b a = some .gt) := by
  constructor
  · intro s hs a ha b hb
    rcases List.mem_append.1 hs with hs | hs
    · obtain ⟨g, hg, hgs⟩ := forall₂_mem_right' hE hs
      have hl := endE g (List.mem_reverse.1 hg)
      obtain ⟨a1, a2⟩ := hgs.all a ha
      obtain ⟨b1, b2⟩ := hgs.all b hb
      unfold compareCrossings
      rw [a1, b1, a2, b2, hl.1]
      simp only
      rw [(pcmp_eq_iff hl.2 hl.2).2 ⟨det_left _ _, det_right _ _⟩]; rfl
    · obtain ⟨g, hg, hgs⟩ := forall₂_mem_right' hS hs
      obtain ⟨hl, hp⟩ := startS g hg
      obtain ⟨a1, u, a2, a3, a4⟩ := hgs.all a ha
      obtain ⟨b1, v, b2, b3, b4⟩ := hgs.all b hb
      unfold compareCrossings
      rw [a1, b1, a2, b2]
      rw [sg_eq, hp] at a4 b4
      exact start_cmp_eq a3 b3 a4 b4
  · rw [List.pairwise_append]
    refine ⟨?_, ?_, ?_⟩
    · have ord : E.reverse.Pairwise fun a b => b.sg.Lt a.sg ∧ a.IsLine ∧ b.IsLine := by
        rw [List.pairwise_reverse]
        exact ordE.imp_of_mem fun ha hb h => ⟨h, endE _ hb, endE _ ha⟩
      clear ordE endE hS startS ordS
      generalize E.reverse = Er at hE ord
      induction hE with
      | nil => exact .nil
      | @cons g t gs ts h1 h2 ih =>
        rw [List.pairwise_cons] at ord ⊢
        refine ⟨?_, ih ord.2⟩
        intro t' ht' a ha b hb
        obtain ⟨g', hg', hgt'⟩ := forall₂_mem_right' h2 ht'
        obtain ⟨o1, o2, o3⟩ := ord.1 g' hg'
        obtain ⟨a1, a2⟩ := h1.all a ha
        obtain ⟨b1, b2⟩ := hgt'.all b hb
        unfold compareCrossings
        rw [a1, b1, a2, b2, o2.1, o3.1]
        simp only
        rw [(pcmp_gt_iff o2.2 o3.2).2 o1, (pcmp_lt_iff o3.2 o2.2).2 o1]
        exact ⟨rfl, rfl⟩
    · have ord : S.Pairwise fun a b => a.sg.Lt b.sg ∧ a.p = pt ∧ b.p = pt :=
        ordS.imp_of_mem fun ha hb h => ⟨h, (startS _ ha).2, (startS _ hb).2⟩
      clear ordE endE hE startS ordS
      induction hS with
      | nil => exact .nil
      | @cons g t gs ts h1 h2 ih =>
        rw [List.pairwise_cons] at ord ⊢
        refine ⟨?_, ih ord.2⟩
        intro t' ht' a ha b hb
        obtain ⟨g', hg', hgt'⟩ := forall₂_mem_right' h2 ht'
        obtain ⟨o1, o2, o3⟩ := ord.1 g' hg'
        obtain ⟨a1, u, a2, a3, a4⟩ := h1.all a ha
        obtain ⟨b1, v, b2, b3, b4⟩ := hgt'.all b hb
        rw [sg_eq, sg_eq, o2, o3] at o1
        rw [sg_eq, o2] at a4
        rw [sg_eq, o3] at b4
        unfold compareCrossings
        rw [a1, b1, a2, b2]
        exact start_cmp_lt a3 b3 a4 b4 o1
    · intro s hs r hr a ha b hb
      obtain ⟨g, hg, hgs⟩ := forall₂_mem_right' hE hs
      obtain ⟨g', hg', hgs'⟩ := forall₂_mem_right' hS hr
      unfold compareCrossings
      rw [(hgs.all a ha).1, (hgs'.all b hb).1]
      exact ⟨rfl, rfl⟩

/-- The sorted batch. The sort has to be stable, unless the edges that start do not overlap. -/
theorem sorted_batch {out : Out K C} {L0 E0 U0 L E U S D1 : List (Grp K C)} {T : List (Out K C)}
    (h : Shape pt X X' out L0 E0 U0 L E U S D1 T) (hty : ∀ o ∈ out, o.2 = .lineLeft ∨ o.2 = .lineRight)
    {srt : List (Crossing K C) → List (Crossing K C)} (hst : Stable compareCrossings srt ∨ ∀ g ∈ S, g.mem.length ≤ 1) :
    ∃ RE RS, sortBy compareCrossings srt (batchOf out) = some (RE ++ RS).flatten ∧ List.Forall₂ EBlk E.reverse RE ∧
      List.Forall₂ (SBlk pt) S RS ∧ List.Forall₂ (fun g t => t.map (fun c => (c.key, c.crossable)) = g.mem) S RS := by
  obtain ⟨RE, RS, h1, h2, h3, h4, h5⟩ := batch_blocks h hty
  obtain ⟨c1, c2⟩ := blocks_cmp h2 h3 (fun g hg => (h.endE g hg).1) h.startS h.ordE h.ordS
  obtain ⟨idx, hidx⟩ := blocks_idx c1 c2
  have hidx' : ∀ x ∈ batchOf out, ∀ y ∈ batchOf out, compareCrossings x y = some (compare (idx x) (idx y)) :=
    fun x hx y hy => hidx x (h1.mem_iff.1 hx) y (h1.mem_iff.1 hy)
  obtain ⟨l', s1, s2, s3, s4⟩ := sortBy_spec (srt := srt) hidx'
  obtain ⟨Bl', rfl, hB⟩ := sorted_blocks (s2.trans h1) s3 (c2.imp fun hab a ha b hb => by
    rw [(hab a ha b hb).2]; simp)
  obtain ⟨RE', RS', rfl, hE', hS'⟩ := forall₂_split_append hB
  refine ⟨RE', RS', s1, ?_, ?_, ?_⟩
  · exact forall₂_comp (fun a b c h1 h2 => h1.perm h2) h2 hE'
  · exact forall₂_comp (fun a b c h1 h2 => h1.perm h2) h3 hS'
  rcases hst with hst | hst
  rotate_left
  · -- a permutation of one element
    have h5' : List.Forall₂ (fun g t => t.map (fun c => (c.key, c.crossable)) = g.mem ∧ g.mem.length ≤ 1) S RS :=
      forall₂_imp_mem h5 fun g hg t ht e => ⟨e, hst g hg⟩
    refine forall₂_comp (fun g t t' e hp => ?_) h5' hS'
    have hl : t.length ≤ 1 := by
      have := congrArg List.length e.1
      rw [List.length_map] at this
      exact this ▸ e.2
    rw [← e.1]
    match t, hl with
    | [], _ => rw [hp.eq_nil]
    | [x], _ => rw [List.perm_singleton.1 hp]
  · -- stability
    have hstab := s4 hst
    have key : ∀ t ∈ RE ++ RS, ∀ t' ∈ RE' ++ RS', t'.Perm t → t ≠ [] → t.Sublist (batchOf out) → t' = t := by
      intro t ht t' ht' hp hne hsub
      obtain ⟨a, ha⟩ := List.exists_mem_of_ne_nil _ hne
      have haf : ∀ (Q Q' : List (List (Crossing K C))), List.Forall₂ (fun s s' => s'.Perm s) Q Q' →
          (∀ s ∈ Q, ∀ a ∈ s, ∀ b ∈ s, compareCrossings a b = some .eq) →
          Q.Pairwise (fun s r => ∀ a ∈ s, ∀ b ∈ r, compareCrossings a b = some .lt ∧ compareCrossings b a = some .gt) →
          t ∈ Q → t' ∈ Q' → Q'.flatten.filter (fun b => decide (compareCrossings a b = some .eq)) = t' := by
        intro Q Q' hQ
        induction hQ with
        | nil => intro _ _ h; simp at h
        | @cons s s' Q Q' hs hQ ih =>
          intro e1 e2 m m'
          rw [List.pairwise_cons] at e2
          rw [List.flatten_cons, List.filter_append]
          rcases List.mem_cons.1 m with rfl | m
          · have k1 : s'.filter (fun b => decide (compareCrossings a b = some .eq)) = s' :=
              List.filter_eq_self.2 fun b hb => by simpa using e1 t (by simp) a ha b (hs.mem_iff.1 hb)
            have k2 : Q'.flatten.filter (fun b => decide (compareCrossings a b = some .eq)) = [] := by
              rw [List.filter_eq_nil_iff]
              intro b hb
              obtain ⟨r', hr', hb⟩ := List.mem_flatten.1 hb
              obtain ⟨r, hr, hrr⟩ := forall₂_mem_right' hQ hr'
              rw [(e2.1 r hr a ha b (hrr.mem_iff.1 hb)).1]; simp
            rw [k1, k2, List.append_nil]
            rcases List.mem_cons.1 m' with e | m'
            · exact e.symm
            · exfalso
              obtain ⟨r, hr, hrr⟩ := forall₂_mem_right' hQ m'
              have hm : a ∈ r := hrr.mem_iff.1 (hp.mem_iff.2 ha)
              have := (e2.1 r hr a ha a hm).1
              rw [e1 t (by simp) a ha a ha] at this
              cases this
          · have k1 : s'.filter (fun b => decide (compareCrossings a b = some .eq)) = [] := by
              rw [List.filter_eq_nil_iff]
              intro b hb
              rw [(e2.1 t m b (hs.mem_iff.1 hb) a ha).2]; simp
            rw [k1, List.nil_append]
            refine ih (fun r hr => e1 r (by simp [hr])) e2.2 m ?_
            rcases List.mem_cons.1 m' with e | m'
            · exfalso
              subst e
              have hm : a ∈ s := hs.mem_iff.1 (hp.mem_iff.2 ha)
              have := (e2.1 t m a hm a ha).1
              rw [e1 s (by simp) a hm a hm] at this
              cases this
            · exact m'
      have g1 := haf _ _ hB c1 c2 ht ht'
      have haB : a ∈ batchOf out := hsub.mem ha
      rw [hstab a haB] at g1
      have g2 : t.Sublist t' := by
        rw [← g1]
        have : t.filter (fun b => decide (compareCrossings a b = some .eq)) = t :=
          List.filter_eq_self.2 fun b hb => by simpa using c1 t ht a ha b hb
        rw [← this]; exact hsub.filter _
      exact (g2.eq_of_length hp.length_eq.symm).symm
    have h6 : List.Forall₂ (fun t t' => t' = t) RS RS' :=
      forall₂_imp_mem hS' fun t ht t' ht' hp => by
        by_cases hne : t = []
        · subst hne; exact hp.eq_nil
        · exact key t (by simp [ht]) t' (by simp [ht']) hp hne (h4 t ht)
    exact forall₂_comp (fun a b c h1 h2 => by rw [h2]; exact h1) h5 h6

end GeoCrossings
