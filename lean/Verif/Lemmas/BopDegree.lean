import Verif.Lemmas.BopTrace

/-! # The added edges of a run of `Op::sweep`: even degrees, and no two that overlap -/
set_option linter.unusedSectionVars false
namespace GeoCrossings
open Spec BoolOp

variable {K : Type} [Field K] [LinearOrder K] [IsStrictOrderedRing K]
variable {ty : OpType} {geom : Nat → LineOrPoint K} {isFirst : Nat → Bool} {org : Nat → Pt K} {input : List Nat}

theorem emits_app (a b : List (Grp K Nat)) : ∀ R, emits ty isFirst R (a ++ b) =
    emits ty isFirst (crossAll isFirst R (a.flatMap Grp.cs)) b ++ emits ty isFirst R a := by
  induction a with
  | nil => intro R; simp [emits, crossAll]
  | cons g a ih =>
    intro R
    simp only [List.cons_append, emits, List.flatMap_cons, crossAll_append]
    rw [ih]; simp

theorem mem_emits {l : List (Grp K Nat)} {e : LineOrPoint K × Winding} : ∀ {R}, e ∈ emits ty isFirst R l → ∃ g ∈ l, e.1 = g.geom := by
  induction l with
  | nil => intro R h; cases h
  | cons g l ih =>
    intro R h
    simp only [emits, List.mem_append] at h
    rcases h with h | h
    · obtain ⟨g', h1, h2⟩ := ih h
      exact ⟨g', by simp [h1], h2⟩
    · unfold emit at h
      split at h
      · simp only [List.mem_singleton] at h
        exact ⟨g, by simp, by rw [h]⟩
      · cases h

theorem emits_sub (l : List (Grp K Nat)) : ∀ R, ((emits ty isFirst R l).map (·.1)).Subperm (l.map Grp.geom) := by
  induction l with
  | nil => intro R; exact List.Subperm.refl _
  | cons g l ih =>
    intro R
    simp only [emits, List.map_append, List.map_cons]
    have h1 : ((emit ty R (crossAll isFirst R g.cs) g.geom).map (·.1)).Subperm [g.geom] := by
      unfold emit
      split
      · exact List.Subperm.refl _
      · exact List.nil_subperm
    exact (List.Subperm.append (ih _) h1).trans (List.perm_append_comm.subperm)

/-- The parity of the changes on the way up. -/
theorem emits_len (l : List (Grp K Nat)) : ∀ R : Region,
    (emits ty isFirst R l).length % 2 = 1 ↔ (R.isTy ty ^^ (crossAll isFirst R (l.flatMap Grp.cs)).isTy ty) = true := by
  induction l with
  | nil => intro R; simp [emits, crossAll]
  | cons g l ih =>
    intro R
    have ih := ih (crossAll isFirst R g.cs)
    simp only [emits, List.length_append, List.flatMap_cons, crossAll_append]
    have e : (emit ty R (crossAll isFirst R g.cs) g.geom).length =
        if ((crossAll isFirst R g.cs).isTy ty ^^ R.isTy ty) = true then 1 else 0 := by
      unfold emit
      split <;> simp
    rw [e]
    generalize (crossAll isFirst (crossAll isFirst R g.cs) (l.flatMap Grp.cs)).isTy ty = z at ih ⊢
    generalize (crossAll isFirst R g.cs).isTy ty = y at ih ⊢
    generalize R.isTy ty = x
    generalize (emits ty isFirst (crossAll isFirst R g.cs) l).length = n at ih ⊢
    cases x <;> cases y <;> cases z <;> simp at ih ⊢ <;> omega

theorem emits_first (v : Pt K) {l l' : List (Grp K Nat)} (h : List.Forall₂ Same l l') :
    ∀ R, (emits ty isFirst R l).countP (fun e => e.1.first = v) = (emits ty isFirst R l').countP fun e => e.1.first = v := by
  induction h with
  | nil => intro R; rfl
  | @cons g g' _ _ h1 _ ih =>
    intro R
    simp only [emits, List.countP_append]
    rw [ih, h1.cs]
    congr 1
    unfold emit
    have h2 : g.geom.first = g'.geom.first := h1.p.symm
    split
    · simp only [List.countP_singleton, h2]
    · rfl

theorem Trace.second_gt {pos : Pt K} {st X es} (h : Trace ty geom isFirst org input pos st X es) :
    ∀ e ∈ es, (∃ a b, e.1 = .line a b ∧ a < b) ∧ pos < e.1.second := by
  induction h with
  | done => intro e he; cases he
  | @step pos pt st st' X X' out L0 E0 U0 L E U S D1 T es hF hgt hpt hmin hne h' hgt' hs ht ih =>
    intro e he
    rcases List.mem_append.1 he with he | he
    · obtain ⟨g, hg, e1⟩ := mem_emits he
      obtain ⟨k1, k2⟩ := hs.endE g hg
      refine ⟨⟨g.p, g.q, e1.trans k1.1, k1.2⟩, ?_⟩
      rw [e1]
      show pos < g.q
      rw [k2]; exact hpt
    · exact ⟨(ih e he).1, hpt.trans (ih e he).2⟩

theorem countP_zero {α : Type _} {l : List α} {P : α → Bool} (h : ∀ a ∈ l, ¬ P a = true) : l.countP P = 0 := List.countP_eq_zero.2 h

theorem Trace.first_active {pos : Pt K} {st X es} (he : EdgesOk geom isFirst input) (h : Trace ty geom isFirst org input pos st X es) (v : Pt K) :
    v ≤ pos → es.countP (fun e => e.1.first = v) = (emits ty isFirst (Region.infinity ty) X.A).countP fun e => e.1.first = v := by
  induction h with
  | @done pos st X hF hE =>
    intro _
    have hA : X.A = [] := by
      rw [List.eq_nil_iff_forall_not_mem]
      intro g hg
      have := hF.inv.core.evR g (by simp [hg])
      rw [hE] at this; cases this
    rw [hA]; rfl
  | @step pos pt st st' X X' out L0 E0 U0 L E U S D1 T es hF hgt hpt hmin hne h' hgt' hs ht ih =>
    intro hv
    rw [List.countP_append, ih (hv.trans hpt.le), hs.after, hs.before]
    simp only [emits_app, List.flatMap_append, crossAll_append, List.countP_append]
    rw [countP_zero (l := emits ty isFirst _ S), ← emits_first v hs.sL, ← emits_first v hs.sE, ← emits_first v hs.sU, same_cs hs.sL]
    · have := shape_even he hF hpt h' hgt' hs
      rw [← same_cs hs.sE, ← crossAll_even _ this]
      omega
    · intro e he k
      obtain ⟨g, hg, e1⟩ := mem_emits he
      have k := of_decide_eq_true k
      rw [e1] at k
      have k : g.p = v := k
      rw [(hs.startS g hg).2] at k
      exact absurd (hv.trans_lt hpt) (by rw [k]; exact lt_irrefl _)

/-- The edges that end and start at `v`: those that separate the groups `E` that end there and the groups `S` that start there, both from the bottom up,
above the region `R`. -/
def AtVertex (ty : OpType) (geom : Nat → LineOrPoint K) (isFirst : Nat → Bool) (input : List Nat) (v : Pt K) (nl nr : Nat) : Prop :=
  ∃ (R : Region) (E S : List (Grp K Nat)), nl = (emits ty isFirst R E).length ∧ nr = (emits ty isFirst R S).length ∧
    crossAll isFirst R (E.flatMap Grp.cs) = crossAll isFirst R (S.flatMap Grp.cs) ∧
    (E.Pairwise fun a b => a.sg.Lt b.sg) ∧ (S.Pairwise fun a b => a.sg.Lt b.sg) ∧
    (∀ g ∈ E, PieceOk (fun i => (geom i).toLine) input g ∧ g.q = v) ∧ ∀ g ∈ S, PieceOk (fun i => (geom i).toLine) input g ∧ g.p = v

theorem AtVertex.zero (v : Pt K) : AtVertex ty geom isFirst input v 0 0 :=
  ⟨Region.infinity ty, [], [], rfl, rfl, rfl, .nil, .nil, by simp, by simp⟩

/-- Where the added edges that end or start at a point come from. -/
theorem Trace.degree {pos : Pt K} {st X es} (he : EdgesOk geom isFirst input) (h : Trace ty geom isFirst org input pos st X es) (v : Pt K) :
    (pos < v ∨ X.A = []) → AtVertex ty geom isFirst input v (es.countP fun e => e.1.second = v) (es.countP fun e => e.1.first = v) := by
  induction h with
  | done => intro _; exact .zero v
  | @step pos pt st st' X X' out L0 E0 U0 L E U S D1 T es hF hgt hpt hmin hne h' hgt' hs ht ih =>
    intro h0
    have hT := Trace.step (ty := ty) (isFirst := isFirst) hF hgt hpt hmin hne h' hgt' hs ht
    by_cases hv : v ≤ pos
    · have hA : X.A = [] := by
        rcases h0 with h0 | h0
        · exact absurd h0 (not_lt.2 hv)
        · exact h0
      rw [hT.first_active he v hv, hA, countP_zero (P := fun e : LineOrPoint K × Winding => decide (e.1.second = v))]
      · simp only [emits]; exact .zero v
      · intro e he k
        have := (hT.second_gt e he).2
        rw [of_decide_eq_true k] at this
        exact absurd this (not_lt.2 hv)
    rw [not_le] at hv
    have hAp : ∀ g ∈ X.A, g.p < v := fun g hg => (hF.inv.core.lineA g hg).2.2.1.trans_lt hv
    have hEp : ∀ g ∈ E, g.p < v := by
      intro g hg
      obtain ⟨g0, h1, h2⟩ := forall₂_mem_right' hs.sE hg
      rw [Same.p h2]
      exact hAp g0 (by rw [hs.before]; simp [h1])
    rcases lt_trichotomy pt v with hlt | rfl | hlt
    · -- not there yet
      rw [List.countP_append, List.countP_append, countP_zero (l := emits ty isFirst _ E) (P := fun e : LineOrPoint K × Winding => decide (e.1.first = v)),
        countP_zero (l := emits ty isFirst _ E) (P := fun e : LineOrPoint K × Winding => decide (e.1.second = v)), Nat.zero_add, Nat.zero_add]
      · exact ih (.inl hlt)
      · intro e he k
        obtain ⟨g, hg, e1⟩ := mem_emits he
        have k := of_decide_eq_true k
        rw [e1] at k
        have k : g.q = v := k
        rw [(hs.endE g hg).2] at k
        exact hlt.ne k
      · intro e he k
        obtain ⟨g, hg, e1⟩ := mem_emits he
        have k := of_decide_eq_true k
        rw [e1] at k
        have k : g.p = v := k
        exact (hEp g hg).ne k
    · -- the vertex itself
      have z1 : (emits ty isFirst (crossAll isFirst (Region.infinity ty) (L.flatMap Grp.cs)) E).countP (fun e => decide (e.1.first = pt)) = 0 := by
        refine countP_zero fun e he k => ?_
        obtain ⟨g, hg, e1⟩ := mem_emits he
        have k := of_decide_eq_true k
        rw [e1] at k
        have k : g.p = pt := k
        exact (hEp g hg).ne k
      have z2 : es.countP (fun e => decide (e.1.second = pt)) = 0 := by
        refine countP_zero fun e he k => ?_
        have := (ht.second_gt e he).2
        rw [of_decide_eq_true k] at this
        exact lt_irrefl _ this
      have z3 : (emits ty isFirst (crossAll isFirst (Region.infinity ty) (L.flatMap Grp.cs)) E).countP (fun e => decide (e.1.second = pt)) =
          (emits ty isFirst (crossAll isFirst (Region.infinity ty) (L.flatMap Grp.cs)) E).length := by
        rw [List.countP_eq_length]
        intro e he
        obtain ⟨g, hg, e1⟩ := mem_emits he
        rw [e1]
        exact decide_eq_true (hs.endE g hg).2
      have z4 : es.countP (fun e => decide (e.1.first = pt)) =
          (emits ty isFirst (crossAll isFirst (Region.infinity ty) (L.flatMap Grp.cs)) S).length := by
        rw [ht.first_active he pt le_rfl, hs.after]
        simp only [emits_app, List.flatMap_append, crossAll_append, List.countP_append]
        rw [countP_zero (l := emits ty isFirst _ U), countP_zero (l := emits ty isFirst _ L), Nat.zero_add, Nat.add_zero, List.countP_eq_length]
        · intro e he
          obtain ⟨g, hg, e1⟩ := mem_emits he
          rw [e1]
          exact decide_eq_true (hs.startS g hg).2
        · intro e he k
          obtain ⟨g, hg, e1⟩ := mem_emits he
          have k := of_decide_eq_true k
          rw [e1] at k
          have k : g.p = pt := k
          exact (hs.low g hg).1.ne k
        · intro e he k
          obtain ⟨g, hg, e1⟩ := mem_emits he
          have k := of_decide_eq_true k
          rw [e1] at k
          have k : g.p = pt := k
          exact (hs.up g hg).1.ne k
      rw [List.countP_append, List.countP_append, z1, z2, z3, z4, Nat.zero_add, Nat.add_zero]
      refine ⟨_, E, S, rfl, rfl, crossAll_even _ (shape_even he hF hpt h' hgt' hs), hs.ordE, hs.ordS, ?_, ?_⟩
      · intro g hg
        exact ⟨h'.pieces.ok g (by unfold Abs.pieces; rw [hs.dn]; simp [hs.en.mem_iff, hg]), (hs.endE g hg).2⟩
      · intro g hg
        exact ⟨h'.pieces.ok g (by unfold Abs.pieces; rw [hs.after]; simp [hg]), (hs.startS g hg).2⟩
    · -- the vertex is passed over
      rw [countP_zero (P := fun e : LineOrPoint K × Winding => decide (e.1.second = v)), List.countP_append,
        countP_zero (l := emits ty isFirst _ E) (P := fun e : LineOrPoint K × Winding => decide (e.1.first = v)), ht.first_active he v hlt.le, countP_zero]
      · exact .zero v
      · intro e he k
        obtain ⟨g, hg, e1⟩ := mem_emits he
        have k := of_decide_eq_true k
        rw [e1] at k
        have k : g.p = v := k
        rw [hs.after] at hg
        simp only [List.mem_append] at hg
        rcases hg with (hg | hg) | hg
        · obtain ⟨g0, h1, h2⟩ := forall₂_mem_right' hs.sL hg
          rw [Same.p h2] at k
          exact (hAp g0 (by rw [hs.before]; simp [h1])).ne k
        · rw [(hs.startS g hg).2] at k
          exact hlt.ne' k
        · obtain ⟨g0, h1, h2⟩ := forall₂_mem_right' hs.sU hg
          rw [Same.p h2] at k
          exact (hAp g0 (by rw [hs.before]; simp [h1])).ne k
      · intro e he k
        obtain ⟨g, hg, e1⟩ := mem_emits he
        have k := of_decide_eq_true k
        rw [e1] at k
        have k : g.p = v := k
        exact (hEp g hg).ne k
      · intro e he k
        have k := of_decide_eq_true k
        rcases List.mem_append.1 he with he | he
        · obtain ⟨g, hg, e1⟩ := mem_emits he
          rw [e1] at k
          have k : g.q = v := k
          rw [(hs.endE g hg).2] at k
          exact hlt.ne' k
        · have := (ht.second_gt e he).2
          rw [k] at this
          exact _root_.lt_asymm this hlt

/-- The added edges meet in even numbers. -/
theorem Trace.even {pos : Pt K} {st X es} (he : EdgesOk geom isFirst input) (h : Trace ty geom isFirst org input pos st X es) (v : Pt K)
    (h0 : pos < v ∨ X.A = []) : Even (es.countP (fun e => e.1.first = v) + es.countP (fun e => e.1.second = v)) := by
  obtain ⟨R, E, S, h1, h2, h3, -⟩ := h.degree he v h0
  have e1 := emits_len (ty := ty) (isFirst := isFirst) E R
  have e2 := emits_len (ty := ty) (isFirst := isFirst) S R
  rw [h3, ← e2] at e1
  rw [h1, h2, Nat.even_iff]; omega

/-- The added edges are pieces. -/
theorem Trace.pieces {pos : Pt K} {st X es} (h : Trace ty geom isFirst org input pos st X es) :
    ∃ pos' st' X' D2, Full org (fun i => (geom i).toLine) input pos' st' X' ∧ X'.D = X.D ++ D2 ∧ (es.map (·.1)).Subperm (D2.map Grp.geom) ∧
      ∀ g ∈ D2, g.IsLine := by
  induction h with
  | @done pos st X hF hE => exact ⟨pos, st, X, [], hF, by simp, List.Subperm.refl _, by simp⟩
  | @step pos pt st st' X X' out L0 E0 U0 L E U S D1 T es hF hgt hpt hmin hne h' hgt' hs ht ih =>
    obtain ⟨pos2, st2, X2, D2, i1, i2, i3, i4⟩ := ih
    refine ⟨pos2, st2, X2, D1 ++ D2, i1, by rw [i2, hs.dn]; simp, ?_, ?_⟩
    · rw [List.map_append, List.map_append]
      exact List.Subperm.append ((emits_sub E _).trans (hs.en.symm.map _).subperm) i3
    · intro g hg
      rcases List.mem_append.1 hg with hg | hg
      · exact (hs.endE g (hs.en.mem_iff.1 hg)).1
      · exact i4 g hg

theorem exists_inside {p q : Pt K} (h : p < q) : ∃ m, Inside p q m := by
  refine ⟨⟨(p.x + q.x) / 2, (p.y + q.y) / 2⟩, ?_, ?_, ?_⟩
  · rcases h with h | ⟨h, h'⟩
    · left; show p.x < (p.x + q.x) / 2; linarith
    · right; exact ⟨by show p.x = (p.x + q.x) / 2; rw [h]; ring, by show p.y < (p.y + q.y) / 2; linarith⟩
  · rcases h with h | ⟨h, h'⟩
    · left; show (p.x + q.x) / 2 < q.x; linarith
    · right; exact ⟨by show (p.x + q.x) / 2 = q.x; rw [h]; ring, by show (p.y + q.y) / 2 < q.y; linarith⟩
  · unfold det; simp only; ring

/-- Two of the added edges that start at a point go off in different directions. -/
theorem Trace.spread {pos : Pt K} {st X es} (h : Trace ty geom isFirst org input pos st X es) :
    es.Pairwise fun a b => a.1.first = b.1.first → det a.1.first a.1.second b.1.second ≠ 0 := by
  obtain ⟨pos', st', X', D2, h1, h2, ⟨l, h3, h4⟩, h5⟩ := h.pieces
  have hm := h1.hist.meetD
  rw [h2, List.pairwise_append] at hm
  have hp : D2.Pairwise fun a b => a.p = b.p → det a.p a.q b.q ≠ 0 := by
    refine hm.2.1.imp_of_mem ?_
    intro a b ha hb hab e hd
    have la := (h5 a ha).2
    have lb := (h5 b hb).2
    rcases lt_trichotomy a.q b.q with k | k | k
    · have hi : Inside b.p b.q a.q := ⟨e ▸ la, k, by rw [← e]; unfold det at hd ⊢; linear_combination -hd⟩
      exact (hab a.q ((onSeg_iff la).2 ⟨by unfold det; ring, la.le, le_rfl⟩) hi.onSeg).2 hi
    · obtain ⟨m, hm⟩ := exists_inside la
      have hm2 : Inside b.p b.q m := by rw [← e, ← k]; exact hm
      exact (hab m hm.onSeg hm2.onSeg).1 hm
    · have hi : Inside a.p a.q b.q := ⟨e ▸ lb, k, hd⟩
      exact (hab b.q hi.onSeg ((onSeg_iff lb).2 ⟨by unfold det; ring, lb.le, le_rfl⟩)).1 hi
  have hp2 : (D2.map Grp.geom).Pairwise fun a b => a.first = b.first → det a.first a.second b.second ≠ 0 :=
    List.pairwise_map.2 hp
  have hsym : ∀ {a b : LineOrPoint K}, (a.first = b.first → det a.first a.second b.second ≠ 0) →
      b.first = a.first → det b.first b.second a.second ≠ 0 := by
    intro a b k e hd
    refine k e.symm ?_
    rw [← e]
    unfold det at hd ⊢; linear_combination -hd
  have := ((h3.pairwise_iff hsym).1 (hp2.sublist h4))
  exact List.pairwise_map.1 this

end GeoCrossings
