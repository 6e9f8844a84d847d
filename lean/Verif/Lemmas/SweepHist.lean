import Verif.Lemmas.SweepPieces

/-! # What has been reported so far -/
set_option linter.unusedSectionVars false
namespace GeoCrossings
open Spec

variable {K C : Type} [Field K] [LinearOrder K] [IsStrictOrderedRing K]
variable {org : C → Pt K} {allow : Prop}
variable {lineOf : C → Line K} {input : List C} {pos : Pt K} {X X' : Abs K C}

/-- The pieces share no point that lies within one of them. -/
def Meet (g h : Grp K C) : Prop :=
  ∀ x, OnSeg g.p g.q x → OnSeg h.p h.q x → ¬ Inside g.p g.q x ∧ ¬ Inside h.p h.q x

/-- A report that makes sense. -/
structure Reported (lineOf : C → Line K) (input : List C) (e : Pt K × Seg K C × EventType) : Prop where
  crit : Critical (input.map lineOf) e.1
  mem : e.2.1.crossable ∈ input
  geom : (e.2.2 = .lineLeft ∧ ∃ b, e.2.1.geom = .line e.1 b ∧ e.1 < b ∧ SubOf lineOf input e.2.1.crossable e.1 b) ∨
    (e.2.2 = .lineRight ∧ ∃ a, e.2.1.geom = .line a e.1 ∧ a < e.1 ∧ SubOf lineOf input e.2.1.crossable a e.1) ∨
    (e.2.2 = .pointLeft ∧ e.2.1.geom = .point e.1 ∧ (lineOf e.2.1.crossable).start = e.1 ∧ (lineOf e.2.1.crossable).stop = e.1)

/-- A report that is flagged as overlapping is followed by one of the same kind, at the same point and for the same segment. -/
def Blk (log : List (Pt K × Seg K C × EventType)) : Prop :=
  log.IsChain (fun x y => x.2.1.overlapping ≠ none → x.1 = y.1 ∧ x.2.2 = y.2.2 ∧ x.2.1.geom = y.2.1.geom) ∧
    ∀ e ∈ log.getLast?, e.2.1.overlapping = none

structure Hist (org : C → Pt K) (lineOf : C → Line K) (input : List C) (pos : Pt K) (X : Abs K C) : Prop where
  Dq : ∀ d ∈ X.D, d.q ≤ pos
  meetD : X.D.Pairwise Meet
  meetDA : ∀ d ∈ X.D, ∀ a ∈ X.A, Meet d a
  le : ∀ e ∈ X.log, e.1 ≤ pos
  free : ∀ e ∈ X.log, ∀ g ∈ X.A ++ X.D, ¬ Inside g.p g.q e.1
  sound : ∀ e ∈ X.log, Reported lineOf input e
  left : ((X.log.filter fun e => e.2.2 = .lineLeft).map fun e => (e.2.1.crossable, e.1)).Perm
    ((X.A ++ X.D).flatMap fun g => g.cs.map fun c => (c, g.p))
  right : ((X.log.filter fun e => e.2.2 = .lineRight).map fun e => (e.2.1.crossable, e.2.1.geom, e.1)) =
    X.D.flatMap fun g => g.cs.map fun c => (c, g.geom, g.q)
  sorted : X.log.Pairwise fun x y => x.1 ≤ y.1 ∧ (x.1 = y.1 → x.2.2 = .lineLeft → y.2.2 ≠ .lineRight)
  first : ∀ e ∈ X.log, e.2.1.firstSegment = true → e.2.1.geom.first = org e.2.1.crossable
  blk : Blk X.log
  after : (∃ e ∈ X.log, e.1 = pos ∧ e.2.2 = .lineLeft) → ∀ a ∈ X.A, pos < a.q ∧ ¬ Inside a.p a.q pos

theorem Hist.congr (h : Hist org lineOf input pos X) (hA : X'.A = X.A) (hD : X'.D = X.D) (hl : X'.log = X.log) :
    Hist org lineOf input pos X' := by
  cases X; cases X'
  simp only at hA hD hl
  subst hA hD hl
  exact ⟨h.Dq, h.meetD, h.meetDA, h.le, h.free, h.sound, h.left, h.right, h.sorted, h.first, h.blk, h.after⟩

theorem Hist.advance (h : Hist org lineOf input pos X) {pos' : Pt K} (hp : pos ≤ pos') : Hist org lineOf input pos' X := by
  rcases hp.eq_or_lt with rfl | hlt
  · exact h
  · refine ⟨fun d hd => (h.Dq d hd).trans hp, h.meetD, h.meetDA, fun e he => (h.le e he).trans hp, h.free, h.sound, h.left, h.right,
      h.sorted, h.first, h.blk, ?_⟩
    rintro ⟨e, he, h1, -⟩
    have := h.le e he
    rw [h1] at this
    exact absurd this (not_le.2 hlt)

section emits
variable {g : Grp K C} {mem : List (Nat × C)} {ty : EventType} {out : Out K C}

theorem mem_stamp {e : Pt K × Seg K C × EventType} (he : e ∈ stamp pos out) : ∃ o ∈ out, e = (pos, o) := by
  obtain ⟨o, ho, rfl⟩ := List.mem_map.1 he
  exact ⟨o, ho, rfl⟩

theorem Emits.filter (h : Emits org g mem ty out) (ty' : EventType) :
    (stamp pos out).filter (fun e => e.2.2 = ty') = if ty = ty' then stamp pos out else [] := by
  by_cases hty : ty = ty'
  · rw [if_pos hty, List.filter_eq_self]
    intro e he
    obtain ⟨o, ho, rfl⟩ := mem_stamp he
    simp [(h.2 o ho).2.1, hty]
  · rw [if_neg hty, List.filter_eq_nil_iff]
    intro e he
    obtain ⟨o, ho, rfl⟩ := mem_stamp he
    simp [(h.2 o ho).2.1, hty]

theorem Emits.cs (h : Emits org g g.mem ty out) : out.map (fun o => o.1.crossable) = g.cs := by
  have := congrArg (List.map Prod.snd) h.1
  simpa [Grp.cs, Function.comp_def] using this

theorem Emits.mem_cs (h : Emits org g g.mem ty out) {o : Seg K C × EventType} (ho : o ∈ out) : o.1.crossable ∈ g.cs := by
  rw [← h.cs]; exact List.mem_map_of_mem ho

theorem Emits.lefts (h : Emits org g g.mem ty out) :
    (stamp pos out).map (fun e => (e.2.1.crossable, e.1)) = g.cs.map fun c => (c, pos) := by
  rw [← h.cs]; simp [stamp, Function.comp_def]

theorem Emits.rights (h : Emits org g g.mem ty out) :
    (stamp pos out).map (fun e => (e.2.1.crossable, e.2.1.geom, e.1)) = g.cs.map fun c => (c, g.geom, pos) := by
  rw [← h.cs]
  simp only [stamp, List.map_map]
  refine List.map_congr_left ?_
  intro o ho
  simp [(h.2 o ho).1]

theorem Emits.first_log (h : Emits org g mem ty out) (hl : X'.log = X.log ++ stamp pos out)
    (hf : ∀ e ∈ X.log, e.2.1.firstSegment = true → e.2.1.geom.first = org e.2.1.crossable) :
    ∀ e ∈ X'.log, e.2.1.firstSegment = true → e.2.1.geom.first = org e.2.1.crossable := by
  rw [hl]
  intro e he
  rcases List.mem_append.1 he with he | he
  · exact hf e he
  · obtain ⟨o, ho, rfl⟩ := mem_stamp he
    obtain ⟨h1, -, h2, -⟩ := h.2 o ho
    intro h3
    show o.1.geom.first = _
    rw [h1]; exact h2 h3

theorem Emits.blk_log (h : Emits org g mem ty out) (hl : X'.log = X.log ++ stamp pos out) (hb : Blk X.log) : Blk X'.log := by
  obtain ⟨h1, h2⟩ := hb
  rw [hl]
  refine ⟨List.isChain_append.2 ⟨h1, ?_, ?_⟩, ?_⟩
  · refine List.Pairwise.isChain (List.pairwise_of_forall_mem_list ?_)
    intro x hx y hy _
    obtain ⟨o, ho, rfl⟩ := mem_stamp hx
    obtain ⟨o', ho', rfl⟩ := mem_stamp hy
    exact ⟨rfl, (h.2 o ho).2.1.trans (h.2 o' ho').2.1.symm, (h.2 o ho).1.trans (h.2 o' ho').1.symm⟩
  · intro x hx y _ hn
    exact absurd (h2 x hx) hn
  · intro e he
    rw [Option.mem_def, List.getLast?_append] at he
    cases hs : (stamp pos out).getLast? with
    | none => rw [hs] at he; exact h2 e he
    | some e' =>
      rw [hs] at he
      simp only [Option.some_or, Option.some.injEq] at he
      subst he
      unfold stamp at hs
      rw [List.getLast?_map] at hs
      obtain ⟨o, ho, rfl⟩ := Option.map_eq_some_iff.1 hs
      exact (h.2 o (List.mem_of_getLast? ho)).2.2.2 ho
end emits

theorem Meet.cut {d g : Grp K C} {r : Pt K} (h : Meet d g) (hr : Inside g.p g.q r) : Meet d (g.cut r) := by
  intro x h1 h2
  have := h x h1 (hr.on_left h2)
  exact ⟨this.1, fun hi => this.2 (hr.of_cut hi)⟩

section
variable (h : Hist org lineOf input pos X) {L R : List (Grp K C)} {g : Grp K C} {r : Pt K}
include h

/-- Cutting an active piece. -/
theorem Hist.cutA (hA : X.A = L ++ g :: R) (hr : Inside g.p g.q r) (hpos : pos ≤ r) (hA' : X'.A = L ++ g.cut r :: R) (hD : X'.D = X.D)
    (hl : X'.log = X.log) : Hist org lineOf input pos X' := by
  have hg : g ∈ X.A := by rw [hA]; simp
  have key : ∀ a ∈ X'.A, a ∈ X.A ∨ a = g.cut r := by
    intro a ha
    rw [hA'] at ha
    rw [hA]
    simp only [List.mem_append, List.mem_cons] at ha ⊢
    tauto
  refine ⟨by rw [hD]; exact h.Dq, by rw [hD]; exact h.meetD, ?_, by rw [hl]; exact h.le, ?_, by rw [hl]; exact h.sound, ?_,
    by rw [hl, hD]; exact h.right, by rw [hl]; exact h.sorted, by rw [hl]; exact h.first, by rw [hl]; exact h.blk, ?_⟩
  · rw [hD]
    intro d hd a ha
    rcases key a ha with ha | rfl
    · exact h.meetDA d hd a ha
    · exact (h.meetDA d hd g hg).cut hr
  · rw [hl, hD]
    intro e he a ha
    rcases List.mem_append.1 ha with ha | ha
    · rcases key a ha with ha | rfl
      · exact h.free e he a (by simp [ha])
      · exact fun hi => h.free e he g (by simp [hg]) (hr.of_cut hi)
    · exact h.free e he a (by simp [ha])
  · rw [hl, hD, hA']
    have := h.left
    rw [hA] at this
    simpa [List.flatMap_append, List.flatMap_cons] using this
  · rw [hl]
    intro he a ha
    rcases key a ha with ha | rfl
    · exact h.after he a ha
    · obtain ⟨h1, h2⟩ := h.after he g hg
      refine ⟨?_, fun hi => h2 (hr.of_cut hi)⟩
      show pos < r
      refine lt_of_le_of_ne hpos ?_
      rintro rfl
      exact h2 hr

/-- Reporting something at the sweep position that is not the end of a piece. -/
theorem Hist.emit {s : Grp K C} {ty : EventType} {out : Out K C} (hem : Emits org s s.mem ty out) (hty : ty = .lineLeft ∨ ty = .pointLeft)
    (hni : ∀ a ∈ X.A, ¬ Inside a.p a.q pos) (hq : ty = .lineLeft → ∀ a ∈ X.A, pos < a.q)
    (hs : ∀ e ∈ stamp pos out, Reported lineOf input e)
    (hA : ∀ a ∈ X'.A, (∃ b ∈ X.A, a.p = b.p ∧ a.q = b.q) ∨ a.p = pos ∧ pos < a.q) (hD : X'.D = X.D)
    (hl : X'.log = X.log ++ stamp pos out) (hDl : ∀ d ∈ X.D, d.p < d.q)
    (hleft : (((stamp pos out).filter fun e => e.2.2 = .lineLeft).map (fun e => (e.2.1.crossable, e.1)) ++
        (X.A.flatMap fun g => g.cs.map fun c => (c, g.p))).Perm (X'.A.flatMap fun g => g.cs.map fun c => (c, g.p))) :
    Hist org lineOf input pos X' := by
  have hend : ∀ a ∈ X'.A, a.p = pos → ∀ x, x ≤ pos → ¬ Inside a.p a.q x := by
    intro a _ hp x hx hi
    exact absurd (hi.1.trans_le hx) (by rw [hp]; exact lt_irrefl _)
  refine ⟨by rw [hD]; exact h.Dq, by rw [hD]; exact h.meetD, ?_, ?_, ?_, ?_, ?_, ?_, ?_, hem.first_log hl h.first, hem.blk_log hl h.blk, ?_⟩
  · rw [hD]
    intro d hd a ha
    rcases hA a ha with ⟨b, hb, e1, e2⟩ | ⟨hp, hpq⟩
    · intro x h1 h2
      rw [e1, e2] at h2 ⊢
      exact h.meetDA d hd b hb x h1 h2
    · intro x h1 h2
      have hx1 := ((onSeg_iff (hDl d hd)).1 h1).2.2.trans (h.Dq d hd)
      have hx2 := ((onSeg_iff (by rw [hp]; exact hpq)).1 h2).2.1
      rw [hp] at hx2
      refine ⟨fun hi => ?_, fun hi => ?_⟩
      · exact absurd (hi.2.1.trans_le ((h.Dq d hd).trans hx2)) (lt_irrefl _)
      · rw [hp] at hi
        exact absurd (hi.1.trans_le hx1) (lt_irrefl _)
  · rw [hl]
    intro e he
    rcases List.mem_append.1 he with he | he
    · exact h.le e he
    · obtain ⟨o, -, rfl⟩ := mem_stamp he; exact le_rfl
  · rw [hl, hD]
    intro e he g hg
    rcases List.mem_append.1 he with he | he
    · rcases List.mem_append.1 hg with hg | hg
      · rcases hA g hg with ⟨b, hb, e1, e2⟩ | ⟨hp, hpq⟩
        · rw [e1, e2]; exact h.free e he b (by simp [hb])
        · exact hend g hg hp _ (h.le e he)
      · exact h.free e he g (by simp [hg])
    · obtain ⟨o, -, rfl⟩ := mem_stamp he
      rcases List.mem_append.1 hg with hg | hg
      · rcases hA g hg with ⟨b, hb, e1, e2⟩ | ⟨hp, hpq⟩
        · rw [e1, e2]; exact hni b hb
        · exact hend g hg hp _ le_rfl
      · exact fun hi => absurd (hi.2.1.trans_le (h.Dq g hg)) (lt_irrefl _)
  · rw [hl]
    intro e he
    rcases List.mem_append.1 he with he | he
    · exact h.sound e he
    · exact hs e he
  · rw [hl, hD, List.filter_append, List.map_append, List.flatMap_append]
    have h1 := h.left
    rw [List.flatMap_append] at h1
    refine (h1.append_right _).trans (List.Perm.trans ?_ (hleft.append_right _))
    list_perm
  · rw [hl, hD, List.filter_append, List.map_append, h.right, hem.filter, if_neg (by rcases hty with rfl | rfl <;> simp)]
    simp
  · rw [hl, List.pairwise_append]
    refine ⟨h.sorted, ?_, ?_⟩
    · refine List.pairwise_of_forall_mem_list ?_
      intro x hx y hy
      obtain ⟨o, ho, rfl⟩ := mem_stamp hx
      obtain ⟨o', ho', rfl⟩ := mem_stamp hy
      refine ⟨le_rfl, fun _ _ => ?_⟩
      rw [(hem.2 o' ho').2.1]
      rcases hty with rfl | rfl <;> simp
    · intro x hx y hy
      obtain ⟨o', ho', rfl⟩ := mem_stamp hy
      refine ⟨h.le x hx, fun _ _ => ?_⟩
      rw [(hem.2 o' ho').2.1]
      rcases hty with rfl | rfl <;> simp
  · rw [hl]
    rintro ⟨e, he, hep, hel⟩
    have hq' : ∀ a ∈ X.A, pos < a.q := by
      rcases List.mem_append.1 he with he | he
      · exact fun a ha => (h.after ⟨e, he, hep, hel⟩ a ha).1
      · obtain ⟨o, ho, rfl⟩ := mem_stamp he
        refine hq ?_
        rw [← (hem.2 o ho).2.1]; exact hel
    intro a ha
    rcases hA a ha with ⟨b, hb, e1, e2⟩ | ⟨hp, hpq⟩
    · rw [e1, e2]; exact ⟨hq' b hb, hni b hb⟩
    · exact ⟨hpq, hend a ha hp _ le_rfl⟩

/-- Reporting the end of an active piece. -/
theorem Hist.finish {out : Out K C} (hA : X.A = L ++ g :: R) (hq : g.q = pos)
    (hap : ∀ a ∈ L ++ R, Apart pos g.p g.q a.p a.q) (hem : Emits org g g.mem .lineRight out)
    (hs : ∀ e ∈ stamp pos out, Reported lineOf input e) (hgl : g.p < g.q)
    (hA' : X'.A = L ++ R) (hD : X'.D = X.D ++ [g]) (hl : X'.log = X.log ++ stamp pos out) : Hist org lineOf input pos X' := by
  have hgA : g ∈ X.A := by rw [hA]; simp
  have sub : ∀ a ∈ L ++ R, a ∈ X.A := by
    intro a ha
    rw [hA]
    rcases List.mem_append.1 ha with ha | ha <;> simp [ha]
  have hno : ¬ ∃ e ∈ X.log, e.1 = pos ∧ e.2.2 = .lineLeft := by
    intro he
    have := (h.after he g hgA).1
    rw [hq] at this
    exact lt_irrefl _ this
  refine ⟨?_, ?_, ?_, ?_, ?_, ?_, ?_, ?_, ?_, hem.first_log hl h.first, hem.blk_log hl h.blk, ?_⟩
  · rw [hD]
    intro d hd
    rcases List.mem_append.1 hd with hd | hd
    · exact h.Dq d hd
    · rw [List.mem_singleton] at hd; rw [hd, hq]
  · rw [hD, List.pairwise_append]
    refine ⟨h.meetD, List.pairwise_singleton _ _, ?_⟩
    intro d hd y hy
    rw [List.mem_singleton] at hy
    subst hy
    exact h.meetDA d hd y hgA
  · rw [hD, hA']
    intro d hd a ha
    rcases List.mem_append.1 hd with hd | hd
    · exact h.meetDA d hd a (sub a ha)
    · rw [List.mem_singleton] at hd
      subst hd
      intro x h1 h2
      have hx := ((onSeg_iff hgl).1 h1).2.2
      rcases hap a ha x (by rw [← hq]; exact hx) h1 h2 with ⟨e1, e2⟩ | ⟨-, e1, e2⟩
      · exact ⟨fun hi => hi.1.ne e1.symm, fun hi => hi.1.ne e2.symm⟩
      · exact ⟨fun hi => hi.2.1.ne e1, fun hi => hi.2.1.ne e2⟩
  · rw [hl]
    intro e he
    rcases List.mem_append.1 he with he | he
    · exact h.le e he
    · obtain ⟨o, -, rfl⟩ := mem_stamp he; exact le_rfl
  · rw [hl, hD, hA']
    intro e he a ha
    rcases List.mem_append.1 he with he | he
    · refine h.free e he a ?_
      simp only [List.mem_append, List.mem_singleton] at ha ⊢
      rcases ha with ha | ha | rfl
      · exact .inl (sub a (by simpa using ha))
      · exact .inr ha
      · exact .inl hgA
    · obtain ⟨o, -, rfl⟩ := mem_stamp he
      rcases List.mem_append.1 ha with ha | ha
      · intro hi
        rcases hap a ha pos le_rfl (by rw [← hq]; exact onSeg_right _ _) hi.onSeg with ⟨-, e2⟩ | ⟨-, -, e2⟩
        · exact hi.1.ne e2.symm
        · exact hi.2.1.ne e2
      · intro hi
        rcases List.mem_append.1 ha with ha | ha
        · exact absurd (hi.2.1.trans_le (h.Dq a ha)) (lt_irrefl _)
        · rw [List.mem_singleton] at ha
          subst ha
          exact hi.2.1.ne hq.symm
  · rw [hl]
    intro e he
    rcases List.mem_append.1 he with he | he
    · exact h.sound e he
    · exact hs e he
  · rw [hl, hD, hA', List.filter_append, hem.filter, if_neg (by simp), List.append_nil]
    refine h.left.trans ?_
    rw [hA]
    refine List.Perm.flatMap_right _ ?_
    list_perm
  · rw [hl, hD, List.filter_append, List.map_append, h.right, hem.filter, if_pos rfl, hem.rights]
    simp [hq]
  · rw [hl, List.pairwise_append]
    refine ⟨h.sorted, ?_, ?_⟩
    · refine List.pairwise_of_forall_mem_list ?_
      intro x hx y hy
      obtain ⟨o, ho, rfl⟩ := mem_stamp hx
      obtain ⟨o', ho', rfl⟩ := mem_stamp hy
      refine ⟨le_rfl, fun _ h2 => ?_⟩
      rw [(hem.2 o ho).2.1] at h2
      cases h2
    · intro x hx y hy
      obtain ⟨o', ho', rfl⟩ := mem_stamp hy
      exact ⟨h.le x hx, fun h1 h2 => absurd ⟨x, hx, h1, h2⟩ hno⟩
  · rw [hl]
    rintro ⟨e, he, hep, hel⟩
    rcases List.mem_append.1 he with he | he
    · exact absurd ⟨e, he, hep, hel⟩ hno
    · obtain ⟨o, ho, rfl⟩ := mem_stamp he
      rw [(hem.2 o ho).2.1] at hel
      cases hel

theorem Hist.prim (hP : Pieces lineOf input X) (hp : Prim org allow pos X X') : Hist org lineOf input pos X' := by
  have hmem : ∀ g, g ∈ X.D ∨ g ∈ X.A ∨ g ∈ X.P ∨ g ∈ X.S → PieceOk lineOf input g := by
    intro g hg
    refine hP.ok g ?_
    unfold Abs.pieces
    simp only [List.mem_append]
    tauto
  have hDl : ∀ d ∈ X.D, d.p < d.q := fun d hd => (hmem d (.inl hd)).line.2
  -- reports of a starting piece
  have hsL : ∀ {s : Grp K C} {out : Out K C}, PieceOk lineOf input s → s.p = pos → Emits org s s.mem .lineLeft out →
      ∀ e ∈ stamp pos out, Reported lineOf input e := by
    intro s out hs hsp hem e he
    obtain ⟨o, ho, rfl⟩ := mem_stamp he
    have hc := hem.mem_cs ho
    have hsub := hs.sub _ hc
    rw [hsp] at hsub
    refine ⟨hsp ▸ hs.cp, hsub.mem, .inl ⟨(hem.2 o ho).2.1, s.q, ?_, ?_, hsub⟩⟩
    · rw [(hem.2 o ho).1, hs.line.1, hsp]
    · show pos < s.q
      rw [← hsp]; exact hs.line.2
  cases hp with
  | @cutA L g R r g2 hA hg hr hX hpos hp => exact h.cutA hA hr hpos rfl rfl rfl
  | @cutA2 L g R r1 r2 g2 g3 hA hg h1 h2 h12 hX1 hX2 hpos hp2 hp3 => exact h.cutA hA h1 hpos rfl rfl rfl
  | cutS => exact h.congr rfl rfl rfl
  | drop => exact h.congr rfl rfl rfl
  | take => exact h.congr rfl rfl rfl
  | mergeP => exact h.congr rfl rfl rfl
  | @mergeA L g R s out hA hS hge sp hl hl2 hem =>
    have hso := hmem s (by simp [hS])
    refine h.emit hem (.inl rfl) hl (fun _ => hl2) (hsL hso sp hem) ?_ rfl rfl hDl ?_
    · intro a ha
      left
      simp only [List.mem_append, List.mem_cons] at ha
      rcases ha with ha | rfl | ha
      · exact ⟨a, by rw [hA]; simp [ha], rfl, rfl⟩
      · exact ⟨g, by rw [hA]; simp, rfl, rfl⟩
      · exact ⟨a, by rw [hA]; simp [ha], rfl, rfl⟩
    · rw [hem.filter, if_pos rfl, hem.lefts, hA]
      have hcs : ({ g with mem := g.mem ++ s.mem } : Grp K C).cs = g.cs ++ s.cs := by simp [Grp.cs]
      have hp' : ({ g with mem := g.mem ++ s.mem } : Grp K C).p = g.p := rfl
      have hgp : g.p = pos := by rw [← sp, Grp.p, Grp.p, hge]
      simp only [List.flatMap_append, List.flatMap_cons, hcs, hp', List.map_append, hgp]
      list_perm
  | @activate L R s out hA hS sp hl hl2 hem =>
    have hso := hmem s (by simp [hS])
    refine h.emit hem (.inl rfl) hl (fun _ => hl2) (hsL hso sp hem) ?_ rfl rfl hDl ?_
    · intro a ha
      simp only [List.mem_append, List.mem_cons] at ha
      rcases ha with ha | rfl | ha
      · exact .inl ⟨a, by rw [hA]; simp [ha], rfl, rfl⟩
      · exact .inr ⟨sp, by rw [← sp]; exact hso.line.2⟩
      · exact .inl ⟨a, by rw [hA]; simp [ha], rfl, rfl⟩
    · rw [hem.filter, if_pos rfl, hem.lefts, hA]
      have hcs : ({ s with done := true } : Grp K C).cs = s.cs := rfl
      have hp' : ({ s with done := true } : Grp K C).p = pos := sp
      simp only [List.flatMap_append, List.flatMap_cons, hcs, hp']
      list_perm
  | @finish L g R out hA hq hap hem =>
    have hgo := hmem g (by simp [hA])
    refine h.finish hA hq hap hem ?_ hgo.line.2 rfl rfl rfl
    intro e he
    obtain ⟨o, ho, rfl⟩ := mem_stamp he
    have hsub := hgo.sub _ (hem.mem_cs ho)
    rw [hq] at hsub
    refine ⟨hq ▸ hgo.cq, hsub.mem, .inr (.inl ⟨(hem.2 o ho).2.1, g.p, ?_, ?_, hsub⟩)⟩
    · rw [(hem.2 o ho).1, hgo.line.1, hq]
    · show g.p < pos
      rw [← hq]; exact hgo.line.2
  | @point g out _ hg hgp hl hem =>
    have hgo := hP.pt g hg
    refine h.emit hem (.inr rfl) hl (by simp) ?_ (fun a ha => .inl ⟨a, ha, rfl, rfl⟩) rfl rfl hDl ?_
    · intro e he
      obtain ⟨o, ho, rfl⟩ := mem_stamp he
      obtain ⟨s1, s2, s3⟩ := hgo.sub _ (hem.mem_cs ho)
      refine ⟨hgp ▸ hgo.crit, s1, .inr (.inr ⟨(hem.2 o ho).2.1, ?_, s2.trans hgp, s3.trans hgp⟩)⟩
      rw [(hem.2 o ho).1, hgo.geom, hgp]
    · rw [hem.filter, if_neg (by simp)]
      simp
end

end GeoCrossings
