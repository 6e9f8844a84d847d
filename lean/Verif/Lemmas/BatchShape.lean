import Verif.Lemmas.SweepRun

/-! # What a batch does to the active groups -/
set_option linter.unusedSectionVars false
namespace GeoCrossings
open Spec

variable {K C : Type} [Field K] [LinearOrder K] [IsStrictOrderedRing K]
variable {org : C → Pt K} {allow : Prop}
variable {lineOf : C → Line K} {input : List C} {pt : Pt K} {X0 X X' : Abs K C}

/-- The same group, possibly cut. -/
def Same (g g' : Grp K C) : Prop := g'.mem = g.mem ∧ g.sg.Shr g'.sg

theorem Same.refl (g : Grp K C) : Same g g := ⟨rfl, .refl _⟩
theorem Same.trans {g g' g'' : Grp K C} (h : Same g g') (h' : Same g' g'') : Same g g'' := ⟨h'.1.trans h.1, h.2.trans h'.2⟩
theorem Same.p {g g' : Grp K C} (h : Same g g') : g'.p = g.p := h.2.1
theorem Same.cut {g : Grp K C} {r : Pt K} (h : Inside g.p g.q r) : Same g (g.cut r) := ⟨rfl, rfl, .inr h⟩
theorem Same.cs {g g' : Grp K C} (h : Same g g') : g'.cs = g.cs := by unfold Grp.cs; rw [h.1]
theorem Same.root {g g' : Grp K C} (h : Same g g') : g'.root = g.root := by unfold Grp.root; rw [h.1]

theorem same_refl (l : List (Grp K C)) : List.Forall₂ Same l l := by
  induction l with
  | nil => exact .nil
  | cons a l ih => exact .cons (.refl a) ih

theorem same_append {a b c d : List (Grp K C)} (h : List.Forall₂ Same a b) (h' : List.Forall₂ Same c d) :
    List.Forall₂ Same (a ++ c) (b ++ d) := List.rel_append h h'

def isLeft (o : Seg K C × EventType) : Bool := decide (o.2 = .lineLeft)

/-- What is reported for a group that starts at `pt`. -/
def Start (pt : Pt K) (g : Grp K C) (t : Out K C) : Prop :=
  t.map (fun o => (o.1.key, o.1.crossable)) = g.mem ∧
    ∀ o ∈ t, o.2 = .lineLeft ∧ ∃ b, o.1.geom = .line pt b ∧ pt < b ∧ Sg.Shr (pt, b) g.sg

def unended (B : List (Grp K C × Bool)) : List (Grp K C) := (B.filter fun b => !b.2).map Prod.fst
def ended (B : List (Grp K C × Bool)) : List (Grp K C) := (B.filter fun b => b.2).map Prod.fst

/-- The groups active before the batch, each possibly cut and marked if it has ended, and the groups that have started. -/
structure Aged (pt : Pt K) (X0 X : Abs K C) (B : List (Grp K C × Bool)) (D1 : List (Grp K C)) (out : Out K C) (T : List (Out K C)) :
    Prop where
  b : List.Forall₂ (fun g b => Same g b.1) X0.A B
  old : X.A.filter (fun g => decide (g.p < pt)) = unended B
  dn : X.D = X0.D ++ D1
  en : D1.Perm (ended B)
  q : ∀ b ∈ B, b.2 = true → b.1.q = pt ∧ b.1.IsLine
  log : X.log = X0.log ++ stamp pt out
  new : List.Forall₂ (Start pt) (X.A.filter fun g => decide (g.p = pt)) T
  perm : (out.filter isLeft).Perm T.flatten
  sub : ∀ t ∈ T, t.Sublist (out.filter isLeft)

theorem unended_update {B : List (Grp K C × Bool)} : ∀ {l : List (Grp K C)}, List.Forall₂ Same (unended B) l →
    ∃ B', unended B' = l ∧ ended B' = ended B ∧ List.Forall₂ (fun b b' => Same b.1 b'.1 ∧ (b.2 = true → b' = b) ∧ b'.2 = b.2) B B' := by
  induction B with
  | nil => intro l h; cases h; exact ⟨[], rfl, rfl, .nil⟩
  | cons b B ih =>
    intro l h
    obtain ⟨g, e⟩ := b
    cases e with
    | true =>
      obtain ⟨B', h1, h2, h3⟩ := ih (l := l) (by simpa [unended] using h)
      exact ⟨(g, true) :: B', by simpa [unended] using h1, by simpa [ended] using h2, .cons ⟨.refl _, fun _ => rfl, rfl⟩ h3⟩
    | false =>
      have : unended ((g, false) :: B) = g :: unended B := by simp [unended]
      rw [this] at h
      cases h with
      | @cons _ g' _ l hg hl =>
        obtain ⟨B', h1, h2, h3⟩ := ih hl
        exact ⟨(g', false) :: B', by simpa [unended] using h1, by simpa [ended] using h2, .cons ⟨hg, by simp, rfl⟩ h3⟩

theorem forall₂_mem_right' {α β : Type _} {R : α → β → Prop} {l : List α} {l' : List β} (h : List.Forall₂ R l l') {b} (hb : b ∈ l') :
    ∃ a ∈ l, R a b := by
  induction h with
  | nil => simp at hb
  | @cons x y xs ys hxy _ ih =>
    rcases List.mem_cons.1 hb with rfl | hb
    · exact ⟨x, by simp, hxy⟩
    · obtain ⟨a, h1, h2⟩ := ih hb; exact ⟨a, by simp [h1], h2⟩

theorem forall₂_mem_left' {α β : Type _} {R : α → β → Prop} {l : List α} {l' : List β} (h : List.Forall₂ R l l') {a} (ha : a ∈ l) :
    ∃ b ∈ l', R a b := by
  induction h with
  | nil => simp at ha
  | @cons x y xs ys hxy _ ih =>
    rcases List.mem_cons.1 ha with rfl | ha
    · exact ⟨y, by simp, hxy⟩
    · obtain ⟨b, h1, h2⟩ := ih ha; exact ⟨b, by simp [h1], h2⟩

theorem forall₂_comp {α β γ : Type _} {R : α → β → Prop} {S : β → γ → Prop} {T : α → γ → Prop} (hT : ∀ a b c, R a b → S b c → T a c)
    {l : List α} {l' : List β} (h : List.Forall₂ R l l') : ∀ {l'' : List γ}, List.Forall₂ S l' l'' → List.Forall₂ T l l'' := by
  induction h with
  | nil => intro l'' h; cases h; exact .nil
  | cons h1 _ ih => intro l'' h; cases h with | cons h2 h3 => exact .cons (hT _ _ _ h1 h2) (ih h3)

/-- Filtering by the start. -/
theorem same_filter {l l' : List (Grp K C)} (P : Pt K → Bool) (h : List.Forall₂ Same l l') :
    List.Forall₂ Same (l.filter fun g => P g.p) (l'.filter fun g => P g.p) := by
  induction h with
  | nil => exact .nil
  | @cons a b l l' hab _ ih =>
    rw [List.filter_cons, List.filter_cons, hab.p]
    split
    · exact .cons hab ih
    · exact ih

theorem Start.same {g g' : Grp K C} {t : Out K C} (h : Start pt g t) (hs : Same g g') : Start pt g' t := by
  refine ⟨h.1.trans hs.1.symm, fun o ho => ?_⟩
  obtain ⟨h1, b, h2, h3, h4⟩ := h.2 o ho
  exact ⟨h1, b, h2, h3, h4.trans hs.2⟩

section
variable {B : List (Grp K C × Bool)} {D1 : List (Grp K C)} {out : Out K C} {T : List (Out K C)}

/-- Cutting active groups. -/
theorem Aged.cut (h : Aged pt X0 X B D1 out T) (hA : List.Forall₂ Same X.A X'.A) (hD : X'.D = X.D) (hl : X'.log = X.log) :
    ∃ B', Aged pt X0 X' B' D1 out T := by
  have h1 := same_filter (fun p => decide (p < pt)) hA
  rw [h.old] at h1
  obtain ⟨B', e1, e2, e3⟩ := unended_update h1
  refine ⟨B', ⟨?_, e1.symm, hD.trans h.dn, by rw [e2]; exact h.en, ?_, hl.trans h.log, ?_, h.perm, h.sub⟩⟩
  · exact forall₂_comp (fun a b c h1 h2 => h1.trans h2.1) h.b e3
  · intro b' hb' he
    obtain ⟨b, hb, -, k1, k2⟩ := forall₂_mem_right' e3 hb'
    rw [k1 (k2 ▸ he)]
    exact h.q b hb (k2 ▸ he)
  · refine forall₂_comp (R := fun g' g => Same g g') (fun a b c h1 h2 => h2.same h1) ?_ h.new
    exact (same_filter (fun p => decide (p = pt)) hA).flip

theorem filter_isLeft {g : Grp K C} {mem ty} {o : Out K C} (h : Emits org g mem ty o) : o.filter isLeft = if ty = .lineLeft then o else [] := by
  split
  · rename_i hty
    rw [List.filter_eq_self]
    intro x hx
    simp [isLeft, (h.2 x hx).2.1, hty]
  · rename_i hty
    rw [List.filter_eq_nil_iff]
    intro x hx
    simp [isLeft, (h.2 x hx).2.1, hty]

theorem Aged.congr (h : Aged pt X0 X B D1 out T) (hA : X'.A = X.A) (hD : X'.D = X.D) {o2 : Out K C} (hl : X'.log = X.log ++ stamp pt o2)
    (ho : o2.filter isLeft = []) : Aged pt X0 X' B D1 (out ++ o2) T := by
  have e : (out ++ o2).filter isLeft = out.filter isLeft := by simp [ho]
  refine ⟨h.b, by rw [hA]; exact h.old, hD.trans h.dn, h.en, h.q, ?_, by rw [hA]; exact h.new, by rw [e]; exact h.perm, by rw [e]; exact h.sub⟩
  rw [hl, h.log]; simp [stamp]

theorem filter_mid {P : Grp K C → Bool} {L R : List (Grp K C)} {g : Grp K C} :
    (L ++ g :: R).filter P = L.filter P ++ (if P g then g :: R.filter P else R.filter P) := by
  rw [List.filter_append, List.filter_cons]

theorem forall₂_split {α β : Type _} {R : α → β → Prop} {l1 l2 : List α} {a : α} {l : List β} (h : List.Forall₂ R (l1 ++ a :: l2) l) :
    ∃ m1 b m2, l = m1 ++ b :: m2 ∧ List.Forall₂ R l1 m1 ∧ R a b ∧ List.Forall₂ R l2 m2 := by
  induction l1 generalizing l with
  | nil => cases h with | cons h1 h2 => exact ⟨[], _, _, rfl, .nil, h1, h2⟩
  | cons x l1 ih =>
    cases h with
    | cons h1 h2 =>
      obtain ⟨m1, b, m2, rfl, k1, k2, k3⟩ := ih h2
      exact ⟨_ :: m1, b, m2, rfl, .cons h1 k1, k2, k3⟩

theorem forall₂_split_append {α β : Type _} {R : α → β → Prop} {l1 l2 : List α} {l : List β} (h : List.Forall₂ R (l1 ++ l2) l) :
    ∃ m1 m2, l = m1 ++ m2 ∧ List.Forall₂ R l1 m1 ∧ List.Forall₂ R l2 m2 := by
  induction l1 generalizing l with
  | nil => exact ⟨[], l, rfl, .nil, h⟩
  | cons x l1 ih =>
    cases h with
    | cons h1 h2 =>
      obtain ⟨m1, m2, rfl, k1, k3⟩ := ih h2
      exact ⟨_ :: m1, m2, rfl, .cons h1 k1, k3⟩

theorem unended_split {L R : List (Grp K C)} {g : Grp K C} : ∀ {B : List (Grp K C × Bool)}, unended B = L ++ g :: R →
    ∃ B1 B2, B = B1 ++ (g, false) :: B2 ∧ unended B1 = L ∧ unended B2 = R := by
  intro B
  induction B generalizing L with
  | nil => intro h; simp [unended] at h
  | cons b B ih =>
    intro h
    obtain ⟨x, e⟩ := b
    cases e with
    | true =>
      obtain ⟨B1, B2, rfl, h1, h2⟩ := ih (L := L) (by simpa [unended] using h)
      exact ⟨(x, true) :: B1, B2, rfl, by simpa [unended] using h1, h2⟩
    | false =>
      have e : unended ((x, false) :: B) = x :: unended B := by simp [unended]
      rw [e] at h
      cases L with
      | nil =>
        simp only [List.nil_append, List.cons.injEq] at h
        obtain ⟨rfl, h⟩ := h
        exact ⟨[], B, rfl, rfl, h⟩
      | cons y L =>
        simp only [List.cons_append, List.cons.injEq] at h
        obtain ⟨rfl, h⟩ := h
        obtain ⟨B1, B2, rfl, h1, h2⟩ := ih h
        exact ⟨(x, false) :: B1, B2, rfl, by simp [unended] at h1 ⊢; exact h1, h2⟩

theorem unended_append (B1 B2 : List (Grp K C × Bool)) : unended (B1 ++ B2) = unended B1 ++ unended B2 := by simp [unended]
theorem ended_append (B1 B2 : List (Grp K C × Bool)) : ended (B1 ++ B2) = ended B1 ++ ended B2 := by simp [ended]

theorem Emits.start {s : Grp K C} {o : Out K C} (h : Emits org s s.mem .lineLeft o) (hs : s.IsLine) (hp : s.p = pt) :
    ∀ x ∈ o, x.2 = .lineLeft ∧ ∃ b, x.1.geom = .line pt b ∧ pt < b ∧ Sg.Shr (pt, b) s.sg := by
  intro x hx
  refine ⟨(h.2 x hx).2.1, s.q, by rw [(h.2 x hx).1, hs.1, hp], hp ▸ hs.2, ?_⟩
  rw [← hp]; exact .refl _

theorem Aged.prim (h : Aged pt X0 X B D1 out T) (hX : Pieces lineOf input X) (hp : Prim org allow pt X X') :
    ∃ B' D1' out' T', Aged pt X0 X' B' D1' out' T' := by
  have keep : ∀ {Y : Abs K C}, Y.A = X.A → Y.D = X.D → Y.log = X.log → ∃ B' D1' out' T', Aged pt X0 Y B' D1' out' T' :=
    fun h1 h2 h3 => ⟨_, _, _, _, h.congr (o2 := []) h1 h2 (by simpa [stamp] using h3) rfl⟩
  cases hp with
  | @cutA L g R r g2 hA hg hr hX hpos hp =>
    obtain ⟨B', h'⟩ := h.cut (X' := { X with
      A := L ++ g.cut r :: R, P := g2 :: X.P, E := g2.rightEv :: g2.leftEv :: (g.cut r).rightEv :: X.E })
      (by rw [hA]; exact same_append (same_refl L) (.cons (.cut hr) (same_refl R))) rfl rfl
    exact ⟨_, _, _, _, h'⟩
  | @cutA2 L g R r1 r2 g2 g3 hA hg h1 h2 h3 h4 h5 h6 h7 h8 =>
    obtain ⟨B', h'⟩ := h.cut (X' := { X with
      A := L ++ g.cut r1 :: R, P := g2 :: g3 :: X.P,
      E := g3.rightEv :: g3.leftEv :: g2.rightEv :: g2.leftEv :: (g.cut r1).rightEv :: X.E })
      (by rw [hA]; exact same_append (same_refl L) (.cons (.cut h1) (same_refl R))) rfl rfl
    exact ⟨_, _, _, _, h'⟩
  | cutS => exact keep rfl rfl rfl
  | drop => exact keep rfl rfl rfl
  | take => exact keep rfl rfl rfl
  | mergeP => exact keep rfl rfl rfl
  | @mergeA L g R s o hA hS hg hs h1 h2 ho =>
    have hgp : g.p = pt := by rw [← hs]; unfold Grp.p; rw [hg]
    have hsl : s.IsLine := (hX.ok s (by unfold Abs.pieces; simp [hS])).line
    have hnew := h.new
    rw [hA, filter_mid, if_pos (by simpa using hgp)] at hnew
    obtain ⟨T1, t, T2, rfl, k1, k2, k3⟩ := forall₂_split hnew
    have hf : (out ++ o).filter isLeft = out.filter isLeft ++ o := by
      rw [List.filter_append, filter_isLeft ho, if_pos rfl]
    refine ⟨B, D1, out ++ o, T1 ++ (t ++ o) :: T2, ⟨h.b, ?_, h.dn, h.en, h.q, ?_, ?_, ?_, ?_⟩⟩
    · show List.filter _ (L ++ { g with mem := g.mem ++ s.mem } :: R) = _
      rw [← h.old, hA, filter_mid, filter_mid]
      have e : decide (({ g with mem := g.mem ++ s.mem } : Grp K C).p < pt) = decide (g.p < pt) := rfl
      rw [e, hgp]; simp
    · show X.log ++ stamp pt o = _
      rw [h.log]; simp [stamp]
    · show List.Forall₂ _ (List.filter _ (L ++ { g with mem := g.mem ++ s.mem } :: R)) _
      rw [filter_mid, if_pos (decide_eq_true (show ({ g with mem := g.mem ++ s.mem } : Grp K C).p = pt from hgp))]
      refine List.rel_append k1 (.cons ⟨?_, ?_⟩ k3)
      · rw [List.map_append, k2.1, ho.1]
      · intro x hx
        rcases List.mem_append.1 hx with hx | hx
        · exact k2.2 x hx
        · have := ho.start hsl hs x hx
          have e : s.sg = ({ g with mem := g.mem ++ s.mem } : Grp K C).sg := by
            unfold Grp.sg Grp.p Grp.q; rw [hg]
          rw [← e]; exact this
    · rw [hf]
      refine (h.perm.append_right o).trans ?_
      simp only [List.flatten_append, List.flatten_cons]
      list_perm
    · rw [hf]
      intro t' ht'
      have := h.sub
      rcases List.mem_append.1 ht' with hm | hm
      · exact (this t' (by simp [hm])).trans (List.sublist_append_left _ _)
      · rcases List.mem_cons.1 hm with rfl | hm
        · exact (this t (by simp)).append (List.Sublist.refl _)
        · exact (this t' (by simp [hm])).trans (List.sublist_append_left _ _)
  | @activate L R s o hA hS hs h1 h2 ho =>
    have hsl : s.IsLine := (hX.ok s (by unfold Abs.pieces; simp [hS])).line
    have hsp : ({ s with done := true } : Grp K C).p = pt := hs
    have hnew := h.new
    rw [hA, List.filter_append] at hnew
    obtain ⟨T1, T2, rfl, k1, k3⟩ := forall₂_split_append hnew
    have hf : (out ++ o).filter isLeft = out.filter isLeft ++ o := by
      rw [List.filter_append, filter_isLeft ho, if_pos rfl]
    refine ⟨B, D1, out ++ o, T1 ++ o :: T2, ⟨h.b, ?_, h.dn, h.en, h.q, ?_, ?_, ?_, ?_⟩⟩
    · show List.filter _ (L ++ { s with done := true } :: R) = _
      rw [← h.old, hA, filter_mid, hsp]; simp
    · show X.log ++ stamp pt o = _
      rw [h.log]; simp [stamp]
    · show List.Forall₂ _ (List.filter _ (L ++ { s with done := true } :: R)) _
      rw [filter_mid, if_pos (by simpa using hsp)]
      exact List.rel_append k1 (.cons ⟨ho.1, ho.start hsl hs⟩ k3)
    · rw [hf]
      refine (h.perm.append_right o).trans ?_
      simp only [List.flatten_append, List.flatten_cons]
      list_perm
    · rw [hf]
      intro t' ht'
      have := h.sub
      rcases List.mem_append.1 ht' with hm | hm
      · exact (this t' (by simp [hm])).trans (List.sublist_append_left _ _)
      · rcases List.mem_cons.1 hm with rfl | hm
        · exact List.sublist_append_right _ _
        · exact (this t' (by simp [hm])).trans (List.sublist_append_left _ _)
  | @finish L g R o hA hq h1 ho =>
    have hgl : g.IsLine := (hX.ok g (by unfold Abs.pieces; simp [hA])).line
    have hgp : g.p < pt := hq ▸ hgl.2
    have hold := h.old
    rw [hA, filter_mid, if_pos (by simpa using hgp)] at hold
    obtain ⟨B1, B2, rfl, k1, k2⟩ := unended_split hold.symm
    have hf : (out ++ o).filter isLeft = out.filter isLeft := by
      rw [List.filter_append, filter_isLeft ho, if_neg (by simp), List.append_nil]
    refine ⟨B1 ++ (g, true) :: B2, D1 ++ [g], out ++ o, T, ⟨?_, ?_, ?_, ?_, ?_, ?_, ?_, ?_, ?_⟩⟩
    · have hb := h.b.flip
      obtain ⟨m1, b, m2, e, j1, j2, j3⟩ := forall₂_split hb
      rw [e]
      exact List.rel_append j1.flip (.cons j2 j3.flip)
    · show List.filter _ (L ++ R) = _
      rw [List.filter_append, unended_append]
      have : unended ((g, true) :: B2) = unended B2 := by simp [unended]
      rw [this, k1, k2]
    · show X.D ++ [g] = _
      rw [h.dn]; simp
    · have e1 := h.en
      rw [ended_append] at e1 ⊢
      have e2 : ended ((g, true) :: B2) = g :: ended B2 := by simp [ended]
      have e3 : ended ((g, false) :: B2) = ended B2 := by simp [ended]
      rw [e3] at e1
      rw [e2]
      refine (e1.append_right [g]).trans ?_
      list_perm
    · intro b hb he
      rcases List.mem_append.1 hb with hb | hb
      · exact h.q b (by simp [hb]) he
      · rcases List.mem_cons.1 hb with rfl | hb
        · exact ⟨hq, hgl⟩
        · exact h.q b (by simp [hb]) he
    · show X.log ++ stamp pt o = _
      rw [h.log]; simp [stamp]
    · show List.Forall₂ _ (List.filter _ (L ++ R)) _
      have := h.new
      rw [hA, filter_mid, if_neg (by simpa using hgp.ne)] at this
      rw [List.filter_append]; exact this
    · rw [hf]; exact h.perm
    · rw [hf]; exact h.sub
  | @point g o ha hg hgp h1 ho =>
    exact ⟨_, _, _, _, h.congr (X' := { X with log := X.log ++ stamp pt o }) (o2 := o) rfl rfl rfl (by rw [filter_isLeft ho, if_neg (by simp)])⟩

theorem Aged.prims (h : Aged pt X0 X B D1 out T) (hX : Pieces lineOf input X) (hp : Prims org allow pt X X') :
    Pieces lineOf input X' ∧ ∃ B' D1' out' T', Aged pt X0 X' B' D1' out' T' := by
  induction hp with
  | refl => exact ⟨hX, _, _, _, _, h⟩
  | tail _ hp ih =>
    obtain ⟨h1, B', D', o', T', h2⟩ := ih
    exact ⟨h1.prim hp, h2.prim h1 hp⟩

theorem Aged.rounds (hp : Rounds org pt X X') : ∀ {B : List (Grp K C × Bool)} {D1 : List (Grp K C)} {out : Out K C} {T : List (Out K C)},
    Aged pt X0 X B D1 out T → Pieces lineOf input X → ∃ B' D1' out' T', Aged pt X0 X' B' D1' out' T' := by
  induction hp with
  | refl => intro B D1 out T h _; exact ⟨_, _, _, _, h⟩
  | @head Y Z W E' al h1 _ ih =>
    intro B D1 out T h hX
    have h' : Aged pt X0 { Y with E := E' } B D1 out T := ⟨h.b, h.old, h.dn, h.en, h.q, h.log, h.new, h.perm, h.sub⟩
    obtain ⟨k1, B', D', o', T', k2⟩ := h'.prims (⟨hX.ok, hX.pt⟩ : Pieces lineOf input { Y with E := E' }) h1
    exact ih k2 k1

/-- At the beginning nothing has ended or started. -/
theorem Aged.init (X : Abs K C) (h : ∀ g ∈ X.A, g.p < pt) : Aged pt X X (X.A.map (·, false)) [] [] [] := by
  have e1 : X.A.filter (fun g => decide (g.p = pt)) = [] := by
    rw [List.filter_eq_nil_iff]; intro g hg; simpa using (h g hg).ne
  refine ⟨?_, ?_, by simp, by simp [ended], by simp, by simp [stamp], by rw [e1]; exact .nil, by simp, by simp⟩
  · rw [List.forall₂_map_right_iff]
    exact List.forall₂_same.2 fun g _ => Same.refl g
  · rw [List.filter_eq_self.2 (by intro g hg; simpa using h g hg)]
    simp [unended, List.filter_map, Function.comp_def]
end

/-! ## The order of the groups around the point of a batch -/

theorem split3 {α : Type _} (cls : α → Nat) : ∀ (l : List α), l.Pairwise (fun a b => cls a ≤ cls b) → (∀ a ∈ l, cls a ≤ 2) →
    ∃ a b c, l = a ++ b ++ c ∧ (∀ x ∈ a, cls x = 0) ∧ (∀ x ∈ b, cls x = 1) ∧ (∀ x ∈ c, cls x = 2) := by
  intro l
  induction l with
  | nil => intro _ _; exact ⟨[], [], [], by simp⟩
  | cons x l ih =>
    intro h hb
    rw [List.pairwise_cons] at h
    obtain ⟨a, b, c, rfl, h1, h2, h3⟩ := ih h.2 fun y hy => hb y (by simp [hy])
    have hx := hb x (by simp)
    by_cases x0 : cls x = 0
    · exact ⟨x :: a, b, c, by simp, by simpa [x0] using h1, h2, h3⟩
    have ha : a = [] := by
      cases a with
      | nil => rfl
      | cons y a => have := h.1 y (by simp); rw [h1 y (by simp)] at this; omega
    subst ha
    by_cases x1 : cls x = 1
    · exact ⟨[], x :: b, c, by simp, by simp, by simpa [x1] using h2, h3⟩
    have hb' : b = [] := by
      cases b with
      | nil => rfl
      | cons y a => have := h.1 y (by simp); rw [h2 y (by simp)] at this; omega
    subst hb'
    exact ⟨[], [], x :: c, by simp, by simp, by simp, by simpa [show cls x = 2 by omega] using h3⟩

/-- What a batch does. `L` and `U` stay, below and above the point, `E` ends and `S` starts there. -/
structure Shape (pt : Pt K) (X X' : Abs K C) (out : Out K C) (L0 E0 U0 L E U S D1 : List (Grp K C)) (T : List (Out K C)) : Prop where
  before : X.A = L0 ++ E0 ++ U0
  after : X'.A = L ++ S ++ U
  sL : List.Forall₂ Same L0 L
  sE : List.Forall₂ Same E0 E
  sU : List.Forall₂ Same U0 U
  low : ∀ g ∈ L, g.p < pt ∧ pt < g.q ∧ 0 < det g.p g.q pt
  up : ∀ g ∈ U, g.p < pt ∧ pt < g.q ∧ det g.p g.q pt < 0
  endE : ∀ g ∈ E, g.IsLine ∧ g.q = pt
  startS : ∀ g ∈ S, g.IsLine ∧ g.p = pt
  ordE : E.Pairwise fun a b => a.sg.Lt b.sg
  ordS : S.Pairwise fun a b => a.sg.Lt b.sg
  dn : X'.D = X.D ++ D1
  en : D1.Perm E
  new : List.Forall₂ (Start pt) S T
  perm : (out.filter isLeft).Perm T.flatten
  sub : ∀ t ∈ T, t.Sublist (out.filter isLeft)
  right : ((out.filter fun o => decide (o.2 = .lineRight)).map fun o => (o.1.crossable, o.1.geom)) =
    D1.flatMap fun g => g.cs.map fun c => (c, g.geom)

theorem shrs_of_same {l : List (Grp K C)} {l' : List (Grp K C)} (h : List.Forall₂ Same l l') :
    Sg.Shrs (l.map Grp.sg) (l'.map Grp.sg) := by
  induction h with
  | nil => exact .nil
  | cons h1 _ ih => exact .cons h1.2 ih

theorem shape {pos : Pt K} {st st' : Sweep K C} {out : Out K C} (h : Full org lineOf input pos st X)
    (hpt : pos < pt) (hmin : ∀ e ∈ X.E, pt ≤ e.point) (h' : Full org lineOf input pt st' X') (hgt' : ∀ e ∈ X'.E, pt < e.point)
    (hlog : X'.log = X.log ++ stamp pt out) (hne : out ≠ []) (hr : Rounds org pt X X') :
    ∃ L0 E0 U0 L E U S D1 T, Shape pt X X' out L0 E0 U0 L E U S D1 T := by
  have hXp : ∀ g ∈ X.A, g.p < pt := fun g hg => lt_of_le_of_lt (h.inv.core.lineA g hg).2.2.1 hpt
  obtain ⟨B, D1, out', T, ag⟩ := (Aged.rounds (X0 := X) hr (Aged.init X hXp) h.pieces)
  have eout : out' = out := by
    have := ag.log.symm.trans hlog
    have := List.append_cancel_left this
    exact List.map_injective_iff.2 (fun a b h => by simpa using h) this
  subst eout
  -- every old group, at the end of the batch
  have hBs : List.Forall₂ Same X.A (B.map Prod.fst) := by
    rw [List.forall₂_map_right_iff]; exact ag.b
  have hadv := (h.inv.core.advance h.inv.chain h.inv.S hpt.le hmin).1
  have hord := (shrs_of_same hBs).pairwise hadv.order
  rw [List.map_map, List.pairwise_map] at hord
  have hmemU : ∀ b ∈ B, b.2 = false → b.1 ∈ X'.A ∧ b.1.p < pt := by
    intro b hb he
    have : b.1 ∈ unended B := by
      unfold unended
      exact List.mem_map_of_mem (List.mem_filter.2 ⟨hb, by simp [he]⟩)
    rw [← ag.old] at this
    obtain ⟨h1, h2⟩ := List.mem_filter.1 this
    exact ⟨h1, by simpa using h2⟩
  have hA' : ∀ g ∈ X'.A, g.IsLine ∧ g.p ≤ pt ∧ pt < g.q := fun g hg =>
    ⟨(h'.inv.core.lineA g hg).1, (h'.inv.core.lineA g hg).2.2.1, hgt' _ (h'.inv.core.evR g (by simp [hg]))⟩
  have hfree : ∀ g ∈ X'.A, ¬ Inside g.p g.q pt := by
    obtain ⟨o, ho⟩ := List.exists_mem_of_ne_nil _ hne
    intro g hg
    exact h'.hist.free (pt, o) (by rw [hlog]; exact List.mem_append_right _ (List.mem_map_of_mem ho)) g (by simp [hg])
  have hdet : ∀ g ∈ X'.A, g.p < pt → det g.p g.q pt ≠ 0 := fun g hg hp e => hfree g hg ⟨hp, (hA' g hg).2.2, e⟩
  have hB : ∀ b ∈ B, b.1.IsLine ∧ b.1.p < pt ∧ pt ≤ b.1.q ∧ (b.2 = true ↔ det b.1.p b.1.q pt = 0) ∧
      (b.2 = true → b.1.q = pt) ∧ (b.2 = false → pt < b.1.q) := by
    intro b hb
    cases he : b.2 with
    | true =>
      obtain ⟨e1, e2⟩ := ag.q b hb he
      refine ⟨e2, e1 ▸ e2.2, e1.ge, by simp [← e1], fun _ => e1, by simp⟩
    | false =>
      obtain ⟨e1, e2⟩ := hmemU b hb he
      exact ⟨(hA' _ e1).1, e2, (hA' _ e1).2.2.le, by simpa using hdet _ e1 e2, by simp, fun _ => (hA' _ e1).2.2⟩
  obtain ⟨B1, B2, B3, hBe, c1, c2, c3⟩ := split3 (fun b : Grp K C × Bool =>
      if 0 < det b.1.p b.1.q pt then 0 else if det b.1.p b.1.q pt = 0 then 1 else 2) B (by
    refine List.Pairwise.imp_of_mem ?_ hord
    intro a b ha hb hab
    obtain ⟨a1, a2, a3, -⟩ := hB a ha
    obtain ⟨b1, b2, b3, -⟩ := hB b hb
    obtain ⟨m1, m2⟩ := mono a1.2 b1.2 hab.1 hab.2 a2.le a3 b2.le b3
    by_cases k1 : 0 < det a.1.p a.1.q pt
    · simp [k1]
    rw [if_neg k1]
    by_cases k2 : det a.1.p a.1.q pt = 0
    · rw [if_pos k2, if_neg (not_lt.2 (m2 k2))]; split <;> simp
    · have := m1 (lt_of_le_of_ne (not_lt.1 k1) k2)
      rw [if_neg k2, if_neg (not_lt.2 this.le), if_neg this.ne]) (by intro a _; split <;> [simp; (split <;> simp)])
  have d1 : ∀ b ∈ B1, 0 < det b.1.p b.1.q pt := by
    intro b hb; have := c1 b hb; by_contra k; rw [if_neg k] at this; split at this <;> simp at this
  have d2 : ∀ b ∈ B2, det b.1.p b.1.q pt = 0 := by
    intro b hb; have := c2 b hb; by_contra k; rw [if_neg k] at this; split at this <;> simp at this
  have d3 : ∀ b ∈ B3, det b.1.p b.1.q pt < 0 := by
    intro b hb; have := c3 b hb
    by_cases k : 0 < det b.1.p b.1.q pt
    · simp [k] at this
    · rw [if_neg k] at this
      by_cases k' : det b.1.p b.1.q pt = 0
      · simp [k'] at this
      · exact lt_of_le_of_ne (not_lt.1 k) k'
  subst hBe
  have f1 : ∀ b ∈ B1, b.2 = false := fun b hb => by
    have := ((hB b (by simp [hb])).2.2.2.1).not.2 (d1 b hb).ne'; simpa using this
  have f2 : ∀ b ∈ B2, b.2 = true := fun b hb => ((hB b (by simp [hb])).2.2.2.1).2 (d2 b hb)
  have f3 : ∀ b ∈ B3, b.2 = false := fun b hb => by
    have := ((hB b (by simp [hb])).2.2.2.1).not.2 (d3 b hb).ne; simpa using this
  have un : unended (B1 ++ B2 ++ B3) = B1.map Prod.fst ++ B3.map Prod.fst := by
    unfold unended
    rw [List.filter_append, List.filter_append, List.filter_eq_self.2 (by intro b hb; simp [f1 b hb]),
      List.filter_eq_nil_iff.2 (by intro b hb; simp [f2 b hb]), List.filter_eq_self.2 (by intro b hb; simp [f3 b hb])]
    simp
  have en : ended (B1 ++ B2 ++ B3) = B2.map Prod.fst := by
    unfold ended
    rw [List.filter_append, List.filter_append, List.filter_eq_nil_iff.2 (by intro b hb; simp [f1 b hb]),
      List.filter_eq_self.2 (by intro b hb; simp [f2 b hb]), List.filter_eq_nil_iff.2 (by intro b hb; simp [f3 b hb])]
    simp
  -- the new list
  have hord' := h'.inv.core.order
  unfold Abs.sgs at hord'
  rw [List.pairwise_map] at hord'
  obtain ⟨L, S, U, hAe, k1, k2, k3⟩ := split3 (fun g : Grp K C =>
      if g.p = pt then 1 else if 0 < det g.p g.q pt then 0 else 2) X'.A (by
    refine List.Pairwise.imp_of_mem ?_ hord'
    intro a b ha hb hab
    obtain ⟨a1, a2, a3⟩ := hA' a ha
    obtain ⟨b1, b2, b3⟩ := hA' b hb
    have has := GeoCrossings.lt_asymm a1.2 b1.2 hab.1
    by_cases ea : a.p = pt
    · by_cases eb : b.p = pt
      · simp [ea, eb]
      · by_cases k : 0 < det b.p b.q pt
        · exfalso; apply has; rw [ea, lt_right_iff b2]; exact .inl k
        · rw [if_pos ea, if_neg eb, if_neg k]; simp
    · by_cases k : 0 < det a.p a.q pt
      · simp [ea, k]
      · have k' : det a.p a.q pt < 0 := lt_of_le_of_ne (not_lt.1 k) (hdet a ha (lt_of_le_of_ne a2 ea))
        by_cases eb : b.p = pt
        · exfalso; apply has; rw [eb, lt_left_iff a2]; exact .inl k'
        · have := (mono a1.2 b1.2 hab.1 hab.2 a2 a3.le b2 b3.le).1 k'
          rw [if_neg ea, if_neg k, if_neg eb, if_neg (not_lt.2 this.le)]) (by intro a _; split <;> [simp; (split <;> simp)])
  have e1 : ∀ g ∈ L, g.p ≠ pt ∧ 0 < det g.p g.q pt := by
    intro g hg; have := k1 g hg
    by_cases k : g.p = pt
    · simp [k] at this
    · refine ⟨k, ?_⟩; by_contra k'; rw [if_neg k, if_neg k'] at this; simp at this
  have e2 : ∀ g ∈ S, g.p = pt := by
    intro g hg; have := k2 g hg
    by_contra k; rw [if_neg k] at this; split at this <;> simp at this
  have e3 : ∀ g ∈ U, g.p ≠ pt ∧ ¬ 0 < det g.p g.q pt := by
    intro g hg; have := k3 g hg
    by_cases k : g.p = pt
    · simp [k] at this
    · refine ⟨k, ?_⟩; intro k'; rw [if_neg k, if_pos k'] at this; simp at this
  have fold : X'.A.filter (fun g => decide (g.p < pt)) = L ++ U := by
    have hm : ∀ g ∈ L ++ S ++ U, g ∈ X'.A := by rw [hAe]; exact fun g hg => hg
    rw [hAe, List.filter_append, List.filter_append, List.filter_eq_self.2, List.filter_eq_nil_iff.2, List.filter_eq_self.2]
    · simp
    · intro g hg; simpa using lt_of_le_of_ne (hA' g (hm g (by simp [hg]))).2.1 (e3 g hg).1
    · intro g hg; simp [e2 g hg]
    · intro g hg; simpa using lt_of_le_of_ne (hA' g (hm g (by simp [hg]))).2.1 (e1 g hg).1
  have fnew : X'.A.filter (fun g => decide (g.p = pt)) = S := by
    rw [hAe, List.filter_append, List.filter_append, List.filter_eq_nil_iff.2, List.filter_eq_self.2, List.filter_eq_nil_iff.2]
    · simp
    · intro g hg; simpa using (e3 g hg).1
    · intro g hg; simp [e2 g hg]
    · intro g hg; simpa using (e1 g hg).1
  have hLU : L ++ U = B1.map Prod.fst ++ B3.map Prod.fst := by rw [← fold, ag.old, un]
  have hL : L = B1.map Prod.fst ∧ U = B3.map Prod.fst := by
    have t1 := congrArg (List.filter fun g => decide (0 < det g.p g.q pt)) hLU
    have t2 := congrArg (List.filter fun g => !decide (0 < det g.p g.q pt)) hLU
    rw [List.filter_append, List.filter_append, List.filter_eq_self.2, List.filter_eq_nil_iff.2, List.filter_eq_self.2,
      List.filter_eq_nil_iff.2] at t1
    · rw [List.filter_append, List.filter_append, List.filter_eq_nil_iff.2, List.filter_eq_self.2, List.filter_eq_nil_iff.2,
        List.filter_eq_self.2] at t2
      · exact ⟨by simpa using t1, by simpa using t2⟩
      · intro g hg; obtain ⟨b, hb, rfl⟩ := List.mem_map.1 hg; simpa using (d3 b hb).le
      · intro g hg; obtain ⟨b, hb, rfl⟩ := List.mem_map.1 hg; simpa using d1 b hb
      · intro g hg; simpa using (e3 g hg).2
      · intro g hg; simpa using (e1 g hg).2
    · intro g hg; obtain ⟨b, hb, rfl⟩ := List.mem_map.1 hg; simpa using (d3 b hb).le
    · intro g hg; obtain ⟨b, hb, rfl⟩ := List.mem_map.1 hg; simpa using d1 b hb
    · intro g hg; simpa using (e3 g hg).2
    · intro g hg; simpa using (e1 g hg).2
  have hb := ag.b.flip
  obtain ⟨XE, U0, eX, hb12, hb3⟩ := forall₂_split_append hb
  obtain ⟨L0, E0, rfl, hb1, hb2⟩ := forall₂_split_append hb12
  have hA : ∀ g ∈ L ++ S ++ U, g ∈ X'.A := by rw [hAe]; exact fun g hg => hg
  refine ⟨L0, E0, U0, L, B2.map Prod.fst, U, S, D1, T, ⟨eX, hAe, ?_, ?_, ?_, ?_, ?_, ?_, ?_, ?_, ?_, ag.dn, en ▸ ag.en, fnew ▸ ag.new,
    ag.perm, ag.sub, ?_⟩⟩
  · rw [hL.1, List.forall₂_map_right_iff]; exact hb1.flip
  · rw [List.forall₂_map_right_iff]; exact hb2.flip
  · rw [hL.2, List.forall₂_map_right_iff]; exact hb3.flip
  · intro g hg
    have := hA' g (hA g (by simp [hg]))
    exact ⟨lt_of_le_of_ne this.2.1 (e1 g hg).1, this.2.2, (e1 g hg).2⟩
  · intro g hg
    rw [hL.2] at hg
    obtain ⟨b, hb, rfl⟩ := List.mem_map.1 hg
    have := hB b (by simp [hb])
    exact ⟨this.2.1, this.2.2.2.2.2 (f3 b hb), d3 b hb⟩
  · intro g hg
    obtain ⟨b, hb, rfl⟩ := List.mem_map.1 hg
    have := hB b (by simp [hb])
    exact ⟨this.1, this.2.2.2.2.1 (f2 b hb)⟩
  · intro g hg; exact ⟨(hA' g (hA g (by simp [hg]))).1, e2 g hg⟩
  · rw [List.pairwise_map]
    rw [List.pairwise_append, List.pairwise_append] at hord
    exact hord.1.2.1.imp fun h => h.1
  · rw [hAe, List.pairwise_append, List.pairwise_append] at hord'
    exact hord'.1.2.1.imp fun h => h.1
  · have r' := h'.hist.right
    have r := h.hist.right
    rw [hlog, ag.dn, List.filter_append, List.map_append, r, List.flatMap_append] at r'
    have r' := List.append_cancel_left r'
    have r2 := congrArg (List.map fun x : C × LineOrPoint K × Pt K => (x.1, x.2.1)) r'
    rw [List.map_map, List.map_flatMap] at r2
    have ef : (stamp pt out').filter (fun e => decide (e.2.2 = EventType.lineRight)) =
        (out'.filter fun o => decide (o.2 = .lineRight)).map (pt, ·) := by
      rw [stamp, List.filter_map]; rfl
    rw [ef, List.map_map] at r2
    have es : ∀ g : Grp K C, (g.cs.map fun c => (c, g.geom, g.q)).map (fun x : C × LineOrPoint K × Pt K => (x.1, x.2.1)) =
        g.cs.map fun c => (c, g.geom) := by
      intro g; rw [List.map_map]; rfl
    simp only [es] at r2
    exact r2

end GeoCrossings
