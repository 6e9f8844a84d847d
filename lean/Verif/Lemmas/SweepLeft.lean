import Verif.Lemmas.SweepPoint

/-! # Handling of the start of a segment -/
set_option linter.unusedSectionVars false
namespace GeoCrossings
open Spec

variable {K C : Type} [Field K] [LinearOrder K] [IsStrictOrderedRing K]
variable {org : C → Pt K} {allow : Prop}
variable {pos : Pt K} {st : Sweep K C} {X : Abs K C} {L R : List (Grp K C)} {g s a : Grp K C}

/-- No point and no end of a segment is left at the sweep position. -/
def Late (pos : Pt K) (X : Abs K C) : Prop := ∀ e ∈ X.E, e.point = pos → e.ty ≠ .lineRight ∧ e.ty ≠ .pointLeft

theorem Late.q (h : Late pos X) (hK : Core pos X) (ha : a ∈ X.A) : pos < a.q := by
  have h1 := hK.evR a (by simp [ha])
  refine lt_of_le_of_ne (hK.lineA a ha).2.2.2 ?_
  intro e
  exact (h _ h1 e.symm).1 rfl

theorem Core.permE (h : Core pos X) {E' : List (Event K)} (hp : X.E.Perm E') : Core pos { X with E := E' } := by
  have hm : ∀ e, e ∈ E' ↔ e ∈ X.E := fun e => hp.mem_iff.symm
  refine ⟨h.lineA, h.lineP, h.lineS, h.ptQ, h.order, ?_, ?_, ?_, ?_, ?_, ?_⟩
  · intro g hg; exact (hm _).2 (h.evR g hg)
  · exact (hp.symm.filter _).trans h.evL
  · intro e he; exact h.evQ e ((hm e).1 he)
  · intro e he; exact h.evpos e ((hm e).1 he)
  · intro e he; exact h.prodR e ((hm e).1 he)
  · intro e he ht hp'; exact (hm _).2 (h.prodP e ((hm e).1 he) ht hp')

/-- Popping while an end of a segment at the sweep position is the earliest event. -/
theorem pop_right (choice : Nat → Nat) (hC : Conc org st X) (hK : Core pos X) {e0 : Event K} (h0 : e0 ∈ X.E) (hp0 : e0.point = pos)
    (ht0 : e0.ty = .lineRight) (huniq : ∀ e ∈ X.E, e.point = pos → e.ty = .lineRight ∨ e.ty = .pointLeft → e = e0) :
    ∃ E', st.popEvent choice = some (e0, { st with events := E', clock := st.clock + 1 }) ∧ X.E.Perm (e0 :: E') := by
  have hs := heapPop_spec (choice st.clock) st.events
  cases hh : heapPop (choice st.clock) st.events with
  | none =>
    have := hs.1.1 hh
    rw [hC.ev] at this
    rw [this] at h0; cases h0
  | some pr =>
    obtain ⟨e, E'⟩ := pr
    obtain ⟨h1, h2⟩ := hs.2 e E' hh
    rw [hC.ev] at h1 h2
    have heE : e ∈ X.E := h1.mem_iff.2 (by simp)
    have : e = e0 := by
      have hle := hK.evpos e heE
      rcases h2 e0 h0 with h | ⟨h, h'⟩
      · rw [hp0] at h; exact absurd hle (not_le.2 h)
      · refine huniq e heE (h.trans hp0) ?_
        rw [ht0] at h'
        cases hty : e.ty <;> simp [hty, EventType.idx] at h' ⊢
    subst this
    refine ⟨E', ?_, h1⟩
    simp [Sweep.popEvent, hh]

theorem Conc.getS (hC : Conc org st X) (hS : X.S = [s]) : ∃ sg, st.segments.get s.root = some sg ∧ sg.geom = s.geom := by
  obtain ⟨sg, h1, h2, -⟩ := hC.get (g := s) (by unfold Abs.live; rw [hS]; simp)
  exact ⟨sg, h1, h2⟩

/-- The outcome of looking at a neighbour not on the same line. -/
structure Visit (org : C → Pt K) (allow : Prop) (pos : Pt K) (X : Abs K C) (s : Grp K C) (L0 : List (Grp K C)) (a : Grp K C) (R0 : List (Grp K C)) (st' : Sweep K C)
    (X' : Abs K C) (s' : Grp K C) (out : Out K C) : Prop where
  conc : Conc org st' X'
  core : Core pos X'
  prims : Prims org allow pos X X'
  S : X'.S = [s']
  shr : s.Shr s'
  late : Late pos X'
  P : X.P ⊆ X'.P
  Q : X'.Q = X.Q
  log : X'.log = X.log ++ stamp pos out
  cases : (∃ a', X'.A = L0 ++ a' :: R0 ∧ a.Shr a' ∧ a'.sg.Tidy pos s'.sg ∧ ¬ Inside a.p a.q pos ∧ out = []) ∨
    (Inside a.p a.q pos ∧ ∃ L0' R0', X'.A = L0' ++ R0' ∧ Grp.Shrs L0 L0' ∧ Grp.Shrs R0 R0' ∧ X'.Chain pos ∧ out ≠ [] ∧
      ∃ g2 ∈ X'.P, g2.p = pos ∧ g2.q = a.q)

theorem visit (lineOf : C → Line K) (nextAfter : K → K) (choice : Nat → Nat) (fuel : Nat) (hC : Conc org st X) (hK : Core pos X)
    (hS : X.S = [s]) (hl : Late pos X) {L0 R0 : List (Grp K C)} (hA : X.A = L0 ++ a :: R0)
    (hnc : ¬ (det a.p a.q s.p = 0 ∧ det a.p a.q s.q = 0))
    (c1 : Sg.Chain pos X.W (L0.map Grp.sg)) (c2 : Sg.Chain pos X.W (R0.map Grp.sg)) :
    ∃ st' X' s' out, Visit org allow pos X s L0 a R0 st' X' s' out ∧
      ∀ rest (seg : Seg K C), seg.geom = s.geom → ∃ seg' : Seg K C, seg'.geom = s'.geom ∧
        Sweep.leftLoop lineOf nextAfter choice (Sweep.handleEvent lineOf nextAfter choice (fuel + 1)) s.root (a.root :: rest) st seg =
        (Sweep.leftLoop lineOf nextAfter choice (Sweep.handleEvent lineOf nextAfter choice (fuel + 1)) s.root rest st' seg').map
          fun r => (r.1, out ++ r.2.1, r.2.2) := by
  have haA : a ∈ X.A := by rw [hA]; simp
  have haL : a ∈ X.live := by unfold Abs.live; simp [haA]
  have hsL : s ∈ X.live := by unfold Abs.live; simp [hS]
  obtain ⟨wa, -, ap, aq⟩ := hK.lineA a haA
  obtain ⟨ws, -, sp⟩ := hK.lineS s (by rw [hS]; simp)
  have aq' : pos < a.q := hl.q hK haA
  obtain ⟨sa, ga1, ga2, -⟩ := hC.get haL
  have hnc' : ¬ (det s.p s.q a.p = 0 ∧ det s.p s.q a.q = 0) := fun h => hnc (det_symm ws.2.ne h.1 h.2)
  rcases inter_of_lt nextAfter ws wa hnc' with ⟨hi, hn⟩ | ⟨r, hi, hn⟩
  · -- no common point
    refine ⟨st, X, s, [], ⟨hC, hK, .refl X, hS, .inl rfl, hl, fun _ h => h, rfl, by simp [stamp],
      .inl ⟨a, hA, .inl rfl, fun r _ m1 m2 => absurd ⟨m2, m1⟩ (hn r), fun h => hn pos ⟨?_, h.onSeg⟩, rfl⟩⟩, ?_⟩
    · rw [← sp]; exact onSeg_left _ _
    · intro rest seg hseg
      refine ⟨seg, hseg, ?_⟩
      rw [Sweep.leftLoop]
      simp only [ga1, Option.bind_eq_bind, Option.bind_some, hseg, ga2, hi]
      cases Sweep.leftLoop lineOf nextAfter choice (Sweep.handleEvent lineOf nextAfter choice (fuel + 1)) s.root rest st seg <;> rfl
  · obtain ⟨rs, ra⟩ := (hn r).2 rfl
    have hrpos : pos ≤ r := by rw [← sp]; exact ((onSeg_iff ws.2).1 rs).2.1
    rcases hrpos.lt_or_eq with hr | hr
    · -- a later common point: both are cut there
      have hcross : Cross X r := .inr ⟨s, hsL, a, haL, by rw [ws.1, wa.1]; exact hn⟩
      obtain ⟨st1, X1, a', d1, d2, d3, d4, d5, d6, d7, d8⟩ := cutPoint lineOf hC hK hA ra hr hcross
      have hS1 : X1.S = [s] := d8.S.trans hS
      have hcross1 : Cross X1 r := .inl ⟨a', by unfold Abs.live; rw [d5]; simp, .inr d7.symm⟩
      obtain ⟨st2, X2, s', e1, e2, e3, e4, e5, e6, e7, e8, e9⟩ := cutPointS lineOf d2 d3 hS1 rs hr hcross1
      have hGE : ∀ e ∈ X2.E, e ∈ X.E ∨ pos < e.point := fun e he => by
        rcases e9.E e he with h | h
        · exact d8.E e h
        · exact .inr h
      have hani : ¬ Inside a.p a.q pos := fun h => by
        have := (hn pos).1 ⟨by rw [← sp]; exact onSeg_left _ _, h.onSeg⟩
        exact hr.ne this
      refine ⟨st2, X2, s', [], ⟨e2, e3, d4.trans e4, e6, e7, ?_, ?_, ?_, ?_, .inl ⟨a', e5.trans d5, d6, ?_, hani, rfl⟩⟩, ?_⟩
      · intro e he hp
        rcases hGE e he with h | h
        · exact hl e h hp
        · rw [hp] at h; exact absurd h (lt_irrefl _)
      · exact fun x hx => e9.P (d8.P hx)
      · exact e9.Q.trans d8.Q
      · have := e9.log.trans d8.log
        rw [this]; simp [stamp]
      · intro x hx m1 m2
        have k1 : OnSeg a.p a.q x := by
          rcases d6 with e | ⟨z, hz, e⟩
          · rw [e] at m1; exact m1
          · rw [e] at m1; exact hz.on_left m1
        have k2 : OnSeg s.p s.q x := by
          rcases e7 with e | ⟨z, hz, e⟩
          · rw [e] at m2; exact m2
          · rw [e] at m2; exact hz.on_left m2
        have := (hn x).1 ⟨k2, k1⟩
        exact ⟨this.trans d7.symm, this.trans e8.symm⟩
      · intro rest seg hseg
        obtain ⟨sa', ga1', ga2', -⟩ := d2.get (g := a') (by unfold Abs.live; rw [d5]; simp)
        rw [d6.root] at ga1'
        obtain ⟨ss, gs1, gs2⟩ := e2.getS e6
        rw [e7.root] at gs1
        refine ⟨ss, gs2, ?_⟩
        rw [Sweep.leftLoop]
        simp only [ga1, Option.bind_eq_bind, Option.bind_some, hseg, ga2, hi, d1, ga1']
        have hfirst : (LineOrPoint.point r).first ≠ s.geom.first := by
          have : s.geom.first = pos := sp
          rw [this]; exact hr.ne'
        rw [if_neg (by rintro ⟨-, h⟩; exact hfirst h)]
        simp only [Option.pure_def, Option.bind_some, e1, gs1]
        cases Sweep.leftLoop lineOf nextAfter choice (Sweep.handleEvent lineOf nextAfter choice (fuel + 1)) s.root rest st2 ss <;> rfl
    · subst hr
      by_cases hap : pos = a.p
      · -- both start here
        obtain ⟨st1, b1, b2⟩ := hC.keepA lineOf haL wa (adjust_end wa.2.le (.inl hap))
        obtain ⟨st2, b3, b4⟩ := b2.keepA lineOf hsL ws (adjust_end ws.2.le (.inl sp.symm))
        refine ⟨st2, X, s, [], ⟨b4, hK, .refl X, hS, .inl rfl, hl, fun _ h => h, rfl, by simp [stamp],
          .inl ⟨a, hA, .inl rfl, ?_, fun h => h.1.ne hap.symm, rfl⟩⟩, ?_⟩
        · intro x hx m1 m2
          have := (hn x).1 ⟨m2, m1⟩
          rw [this] at hx
          exact absurd hx (lt_irrefl _)
        · intro rest seg hseg
          obtain ⟨sa', ga1', ga2', -⟩ := b2.get haL
          obtain ⟨ss, gs1, gs2⟩ := b4.getS hS
          refine ⟨ss, gs2, ?_⟩
          rw [Sweep.leftLoop]
          simp only [ga1, Option.bind_eq_bind, Option.bind_some, hseg, ga2, hi, b1, ga1', ga2']
          have hfirst : (LineOrPoint.point pos).first = a.geom.first := hap
          rw [if_neg (by rintro ⟨h, -⟩; exact h hfirst)]
          simp only [Option.pure_def, Option.bind_some, b3, gs1]
          cases Sweep.leftLoop lineOf nextAfter choice (Sweep.handleEvent lineOf nextAfter choice (fuel + 1)) s.root rest st2 ss <;> rfl
      · -- the neighbour passes through the start
        have hin : Inside a.p a.q pos := ⟨lt_of_le_of_ne ap (Ne.symm hap), aq', ((onSeg_iff wa.2).1 ra).1⟩
        have hcross : Cross X pos := .inl ⟨s, hsL, .inl sp.symm⟩
        obtain ⟨st1, g2, b1, b2, b3⟩ := hC.cutA lineOf hA wa (adjust_inside hin.1 hin.2.1)
        have bK := hK.cutA hA hin le_rfl b2
        obtain ⟨E', p1, p2⟩ := pop_right choice b3 bK (e0 := (a.cut pos).rightEv) (by simp) rfl rfl (by
          intro e he hp hty
          simp only [List.mem_cons] at he
          rcases he with rfl | rfl | rfl | he
          · simp only [Grp.rightEv, b2.q] at hp; exact absurd hp aq'.ne'
          · simp [Grp.leftEv] at hty
          · rfl
          · have := hl e he hp
            tauto)
        have hR := right_real (allow := allow) lineOf nextAfter choice fuel (st := { st1 with events := E', clock := st1.clock + 1 })
          (X := { X with A := L0 ++ a.cut pos :: R0, P := g2 :: X.P, E := E' }) (g := a.cut pos) (L := L0) (R := R0)
          ⟨b3.rep, b3.act, b3.size, rfl⟩ (bK.permE p2) rfl rfl
          (c1.imp fun x y h => h.mono (fun z hz => List.mem_cons_of_mem _ hz) (.refl _) (.refl _))
          (c2.imp fun x y h => h.mono (fun z hz => List.mem_cons_of_mem _ hz) (.refl _) (.refl _))
        obtain ⟨st3, X3, out, L0', R0', r1, r2, r3, r4, r5, r6, r7, r8, r9, r10⟩ := hR
        have hS3 : X3.S = [s] := r10.S.trans hS
        obtain ⟨st4, q1, q2⟩ := r2.keepA lineOf (g := s) (by unfold Abs.live; simp [hS3]) ws (adjust_end ws.2.le (.inl sp.symm))
        refine ⟨st4, X3, s, out, ⟨q2, r3, ?_, hS3, .inl rfl, ?_, ?_, r10.Q, r10.log,
          .inr ⟨hin, L0', R0', r6, r7, r8, r4, r9, g2, r10.P (by simp), b2.p, b2.q⟩⟩, ?_⟩
        · exact ((Prims.single (.cutA hA wa hin hcross le_rfl b2)).tail (.drop p2 rfl)).trans r5
        · intro e he hp
          rcases r10.E e he with h | h
          · have p3 : ((a.cut pos).rightEv :: g2.rightEv :: g2.leftEv :: X.E).Perm ((a.cut pos).rightEv :: E') := by
              refine List.Perm.trans ?_ p2
              list_perm
            have h' : e ∈ g2.rightEv :: g2.leftEv :: X.E := p3.cons_inv.mem_iff.2 h
            simp only [List.mem_cons] at h'
            rcases h' with rfl | rfl | h'
            · simp only [Grp.rightEv, b2.q] at hp; exact absurd hp aq'.ne'
            · simp [Grp.leftEv]
            · exact hl e h' hp
          · rw [hp] at h; exact absurd h (lt_irrefl _)
        · exact fun x hx => r10.P (List.mem_cons_of_mem _ hx)
        · intro rest seg hseg
          obtain ⟨sa', ga1', ga2', -⟩ := b3.get (g := a.cut pos) (by unfold Abs.live; simp)
          simp only [Grp.cut_root, Grp.cut_geom] at ga1' ga2'
          obtain ⟨ss, gs1, gs2⟩ := q2.getS hS3
          refine ⟨ss, gs2, ?_⟩
          rw [Sweep.leftLoop]
          simp only [ga1, Option.bind_eq_bind, Option.bind_some, hseg, ga2, hi, b1, ga1', ga2']
          have h1 : (LineOrPoint.point pos).first ≠ (LineOrPoint.line a.p pos).first := hap
          have h2 : (LineOrPoint.point pos).first = s.geom.first := sp.symm
          rw [if_pos ⟨h1, h2⟩]
          simp only [p1, Option.pure_def, Option.bind_some, r1, q1, gs1, ovKey]
          cases Sweep.leftLoop lineOf nextAfter choice (Sweep.handleEvent lineOf nextAfter choice (fuel + 1)) s.root rest st4 ss <;> rfl

end GeoCrossings
