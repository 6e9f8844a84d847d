import Verif.Lemmas.SweepStart
import Mathlib.Data.List.Chain

/-! # The start of a segment, as a whole -/
set_option linter.unusedSectionVars false
namespace GeoCrossings
open Spec

variable {K C : Type} [Field K] [LinearOrder K] [IsStrictOrderedRing K]
variable {org : C → Pt K} {allow : Prop}
variable {pos : Pt K} {st : Sweep K C} {X : Abs K C} {L R : List (Grp K C)} {g s a : Grp K C}

/-- What a handled event leaves behind. -/
structure Done (org : C → Pt K) (allow : Prop) (pos : Pt K) (X : Abs K C) (st' : Sweep K C) (X' : Abs K C) (out : Out K C) : Prop where
  conc : Conc org st' X'
  core : Core pos X'
  chain : X'.Chain pos
  prims : Prims org allow pos X X'
  S : X'.S = []
  log : X'.log = X.log ++ stamp pos out

/-- How the loop over the neighbours ends when an active segment lies on the same line. -/
theorem overlap (lineOf : C → Line K) (nextAfter : K → K) (choice : Nat → Nat) (fuel : Nat) (hC : Conc org st X) (hK : Core pos X)
    (hS : X.S = [s]) (hl : Late pos X) (hA : X.A = L ++ g :: R) (hcoll : det g.p g.q s.p = 0 ∧ det g.p g.q s.q = 0)
    (hc : X.Chain pos) :
    ∃ st' out x X',
      (∀ rest (seg : Seg K C), seg.geom = s.geom →
        Sweep.leftLoop lineOf nextAfter choice (Sweep.handleEvent lineOf nextAfter choice (fuel + 1)) s.root (g.root :: rest) st seg =
          some (st', out, x)) ∧
      ((x = .ret ∧ Done org allow pos X st' X' out ∧ out ≠ []) ∨
       (x = .noAdd ∧ out = [] ∧ ∃ slab out2, Sweep.emitLeft (st'.segments.size + 1) st'.segments (some s.root) = some (slab, out2) ∧
         Done org allow pos X { st' with segments := slab } X' out2 ∧ out2 ≠ [])) := by
  have hgA : g ∈ X.A := by rw [hA]; simp
  have hgL : g ∈ X.live := by unfold Abs.live; simp [hgA]
  have hsL : s ∈ X.live := by unfold Abs.live; simp [hS]
  obtain ⟨wg, -, gp, -⟩ := hK.lineA g hgA
  obtain ⟨ws, -, sp⟩ := hK.lineS s (by rw [hS]; simp)
  have gq : pos < g.q := hl.q hK hgA
  obtain ⟨sg, gg1, gg2, -⟩ := hC.get hgL
  have hi := inter_coll nextAfter wg ws (by rw [sp]; exact gp) (by rw [sp]; exact gq) hcoll
  obtain ⟨u, hu⟩ : ∃ u, u = min s.q g.q := ⟨_, rfl⟩
  rw [← hu, sp] at hi
  have hpu : pos < u := by rw [hu]; exact lt_min (by rw [← sp]; exact ws.2) gq
  have hX : Cross X u := by
    rcases min_choice s.q g.q with e | e
    · exact .inl ⟨s, hsL, .inr (by rw [hu, e])⟩
    · exact .inl ⟨g, hgL, .inr (by rw [hu, e])⟩
  have hug : OnSeg g.p g.q u := by
    rw [onSeg_iff wg.2]
    refine ⟨?_, gp.trans hpu.le, by rw [hu]; exact min_le_right _ _⟩
    rcases min_choice s.q g.q with e | e
    · rw [hu, e]; exact hcoll.2
    · rw [hu, e]; exact det_right _ _
  have hus : OnSeg s.p s.q u := by
    rw [onSeg_iff ws.2]
    refine ⟨?_, by rw [sp]; exact hpu.le, by rw [hu]; exact min_le_left _ _⟩
    rcases min_choice s.q g.q with e | e
    · rw [hu, e]; exact det_right _ _
    · rw [hu, e]; exact (det_symm wg.2.ne hcoll.1 hcoll.2).2
  rcases gp.eq_or_lt with gp | gp
  · -- both start here
    obtain ⟨st1, X1, g', a1, a2, a3, a4, a5, a6, a7, a8⟩ := adjA (allow := allow) lineOf hC hK hA gp hug hpu hX
    have hS1 : X1.S = [s] := a8.S.trans hS
    have hX1 : Cross X1 u := .inl ⟨g', by unfold Abs.live; rw [a5]; simp, .inr a7.symm⟩
    obtain ⟨st2, X2, s', b1, b2, b3, b4, b5, b6, b7, b8, b9⟩ := adjS (allow := allow) lineOf a2 a3 hS1 hus hpu hX1
    have hA2 : X2.A = L ++ g' :: R := b5.trans a5
    have ws' := (b3.lineS s' (by rw [b6]; simp)).1
    have wg' := (b3.lineA g' (by rw [hA2]; simp)).1
    have hge : g'.geom = s'.geom := by
      rw [ws'.1, wg'.1, b7.p, a6.p, b8, a7, sp, gp]
    have hni : ∀ x ∈ X.A, ¬ Inside x.p x.q pos := by
      intro x hx hin
      rw [hA] at hx
      have hgon : OnSeg g.p g.q pos := by rw [← gp]; exact onSeg_left _ _
      simp only [List.mem_append, List.mem_cons] at hx
      rcases hx with hx | rfl | hx
      · rcases ((hK.pairs hA).1 x hx).2 pos le_rfl hin.onSeg hgon with ⟨e, -⟩ | ⟨-, e, -⟩
        · exact hin.1.ne e.symm
        · exact hin.2.1.ne e
      · exact hin.1.ne gp
      · rcases ((hK.pairs hA).2 x hx).2 pos le_rfl hgon hin.onSeg with ⟨-, e⟩ | ⟨-, -, e⟩
        · exact hin.1.ne e.symm
        · exact hin.2.1.ne e
    have hni2 : ∀ x ∈ X2.A, ¬ Inside x.p x.q pos := by
      intro x hx hin
      rw [hA2] at hx
      simp only [List.mem_append, List.mem_cons] at hx
      rcases hx with hx | rfl | hx
      · exact hni x (by rw [hA]; simp [hx]) hin
      · exact hni g hgA (a6.inside hin)
      · exact hni x (by rw [hA]; simp [hx]) hin
    have hqA : ∀ x ∈ X2.A, pos < x.q := by
      intro x hx
      rw [hA2] at hx
      simp only [List.mem_append, List.mem_cons] at hx
      rcases hx with hx | rfl | hx
      · exact hl.q hK (by rw [hA]; simp [hx])
      · rw [a7]; exact hpu
      · exact hl.q hK (by rw [hA]; simp [hx])
    have hc2 : X2.Chain pos := by
      unfold Abs.Chain at hc ⊢
      refine Sg.Shrs.chain ?_ (List.map_subset _ (fun x hx => b9.P (a8.P hx))) hc
      unfold Abs.sgs
      rw [hA2, hA]
      exact Grp.Shrs.sg (List.rel_append (Grp.Shrs.refl _) (.cons a6 (Grp.Shrs.refl _)))
    obtain ⟨st3, sg', slab, out, X', m1, m2, m3, m4, m5, m6, m7, m8, m9, m10, m11⟩ := b2.mergeA (allow := allow) b3 hA2 b6 hge hni2 hqA hc2
    rw [a6.root] at m1 m2
    rw [b7.root] at m1 m4
    refine ⟨st3, [], .noAdd, X', ?_, .inr ⟨rfl, rfl, slab, out, m4, ⟨m5, m6, m7, (a4.trans b4).tail m8, m9, ?_⟩, m10⟩⟩
    · intro rest seg hseg
      obtain ⟨sa', ga1', ga2', -⟩ := a2.get (g := g') (by unfold Abs.live; rw [a5]; simp)
      rw [a6.root] at ga1'
      obtain ⟨ss, gs1, gs2⟩ := b2.getS b6
      rw [b7.root] at gs1
      rw [Sweep.leftLoop]
      simp only [gg1, Option.bind_eq_bind, Option.bind_some, hseg, gg2, hi, a1, ga1', ga2']
      have hfirst : (LineOrPoint.line pos u).first = g'.geom.first := by
        show pos = g'.p
        rw [a6.p, gp]
      rw [if_neg (by rintro ⟨h, -⟩; exact h hfirst)]
      simp only [Option.pure_def, Option.bind_some, b1, gs1, m1, if_true, m2, m3]
    · rw [m11]
      have h1 : X2.log = X1.log := b9.log
      rw [h1, a8.log]
  · -- the active one began earlier
    have hin : Inside g.p g.q pos := ⟨gp, gq, by rw [← sp]; exact hcoll.1⟩
    obtain ⟨st1, X1, gx, E0, a1, a2, a3, a4, a5, a6, a7, a8, a9, a10, a11, a12, a13⟩ := adjMid (allow := allow) lineOf hC hK hA hin hug hpu hX
      (.inl ⟨s, hsL, .inl sp.symm⟩)
    obtain ⟨E', p1, p2⟩ := pop_right choice a2 a3 (e0 := (g.cut pos).rightEv) (a12.mem_iff.2 (by simp)) rfl rfl (by
      intro e he hp hty
      rcases List.mem_cons.1 (a12.mem_iff.1 he) with rfl | he
      · rfl
      · rcases a13 e he with h | h | h
        · have := hl e h hp
          tauto
        · rw [hp] at h; exact absurd h (lt_irrefl _)
        · rw [h] at hty; simp at hty)
    have hc' := hc
    unfold Abs.Chain Abs.sgs at hc'
    rw [hA, show L ++ g :: R = L ++ ([g] ++ R) from rfl, List.map_append, Sg.chain_append, List.map_append, Sg.chain_append] at hc'
    have hW1 : X.W ⊆ X1.W := List.map_subset _ a11
    obtain ⟨st3, X3, out, L', R', r1, r2, r3, r4, r5, r6, r7, r8, r9, r10⟩ := right_real (allow := allow) lineOf nextAfter choice fuel
      (st := { st1 with events := E', clock := st1.clock + 1 })
      (X := { X1 with E := E' }) (g := g.cut pos) (L := L) (R := R)
      ⟨a2.rep, a2.act, a2.size, rfl⟩ (a3.permE p2) a5 rfl
      (hc'.1.imp fun x y h => h.mono hW1 (.refl _) (.refl _))
      (hc'.2.1.2.1.imp fun x y h => h.mono hW1 (.refl _) (.refl _))
    have hS3 : X3.S = [s] := (r10.S.trans a8).trans hS
    have hgx3 : gx ∈ X3.P := r10.P a6
    have hgxq : gx.q = u := by rw [Grp.q, a7]; rfl
    have hX3 : Cross X3 u := .inl ⟨gx, by unfold Abs.live; simp [hgx3], .inr hgxq.symm⟩
    obtain ⟨st4, X4, s', b1, b2, b3, b4, b5, b6, b7, b8, b9⟩ := adjS (allow := allow) lineOf r2 r3 hS3 hus hpu hX3
    have ws' := (b3.lineS s' (by rw [b6]; simp)).1
    have hge : gx.geom = s'.geom := by rw [a7, ws'.1, b7.p, b8, sp]
    have hgx4 : gx ∈ X4.P := b9.P hgx3
    have hc4 : X4.Chain pos := by
      unfold Abs.Chain at r4 ⊢
      have : X4.sgs = X3.sgs := by unfold Abs.sgs; rw [b5]
      rw [this]
      exact Sg.Shrs.chain (Sg.Shrs.refl _) (List.map_subset _ b9.P) r4
    obtain ⟨st5, sgx, X5, m1, m2, m3, m4, m5, m6, m7, m8, m9⟩ := b2.mergeP (allow := allow) b3 hgx4 b6 hge hc4
    rw [b7.root] at m1
    refine ⟨st5, out, .ret, X5, ?_, .inl ⟨rfl, ⟨m4, m5, m6, ?_, m8, ?_⟩, r9⟩⟩
    · intro rest seg hseg
      obtain ⟨sa', ga1', ga2', -⟩ := a2.get (g := g.cut pos) (by unfold Abs.live; rw [a5]; simp)
      simp only [Grp.cut_root, Grp.cut_geom] at ga1' ga2'
      obtain ⟨ss, gs1, gs2⟩ := b2.getS b6
      rw [b7.root] at gs1
      rw [Sweep.leftLoop]
      simp only [gg1, Option.bind_eq_bind, Option.bind_some, hseg, gg2, hi, a1, ga1', ga2']
      have h1 : (LineOrPoint.line pos u).first ≠ (LineOrPoint.line g.p pos).first := gp.ne'
      have h2 : (LineOrPoint.line pos u).first = s.geom.first := sp.symm
      rw [if_pos ⟨h1, h2⟩]
      simp only [p1, Option.pure_def, Option.bind_some, r1, b1, gs1, m1, if_true, m2, m3]
      rfl
    · exact (((a4.tail (.drop p2 rfl)).trans r5).trans b4).tail m7
    · rw [m9]
      have h1 : X4.log = X3.log := b9.log
      rw [h1, r10.log]
      show X1.log ++ _ = _
      rw [a10]

/-- The pairs that do not have `s` between them keep their witnesses. -/
theorem chain_without {W W' l : List (Sg K)} {c : Sg K} (h : Sg.Chain pos W l) (hW : ∀ x ∈ W, x = c ∨ x ∈ W')
    (hn : (∀ y ∈ l, ¬ c.Lt y) ∨ ∀ x ∈ l, ¬ x.Lt c) : Sg.Chain pos W' l := by
  refine List.IsChain.imp_of_mem_imp ?_ h
  rintro x y hx hy (h1 | ⟨d, h1, h2, h3, h4⟩)
  · exact .inl h1
  · rcases hW d h1 with rfl | h1
    · rcases hn with hn | hn
      · exact absurd h4 (hn y hy)
      · exact absurd h3 (hn x hx)
    · exact .inr ⟨d, h1, h2, h3, h4⟩

theorem Conc.cmp_coll (hC : Conc org st X) (hg : g ∈ X.live) (hs : s ∈ X.live) (wg : g.IsLine) (ws : s.IsLine)
    (hcoll : det g.p g.q s.p = 0 ∧ det g.p g.q s.q = 0) :
    cmpKeys st.segments s.root g.root = some (compare s.root g.root) ∧ (cmpKeys st.segments g.root s.root).isSome := by
  rw [hC.cmp hs hg, hC.cmp hg hs, ws.1, wg.1, (pcmp_eq_iff ws.2 wg.2).2 (det_symm wg.2.ne hcoll.1 hcoll.2),
    (pcmp_eq_iff wg.2 ws.2).2 hcoll]
  simp

/-- **Start of a segment.** -/
theorem left_event (lineOf : C → Line K) (nextAfter : K → K) (choice : Nat → Nat) (fuel : Nat) (hC : Conc org st X) {e : Event K}
    (hK : Core pos { X with E := e :: X.E }) (ht : e.ty = .lineLeft) (hp : e.point = pos) (hS : X.S = []) (hc : X.Chain pos)
    (hbef : ∀ e' ∈ X.E, e.Before e') :
    ∃ st' X' out, Sweep.handleEvent lineOf nextAfter choice (fuel + 2) st e = some (st', out, true) ∧ Done org allow pos X st' X' out ∧ out ≠ [] := by
  -- the segment is pending
  have hev := hK.evL
  rw [List.filter_cons_of_pos (by simp [ht])] at hev
  obtain ⟨s, hsP, hse⟩ := List.mem_map.1 (hev.mem_iff.1 (List.mem_cons_self))
  have hsP : s ∈ X.P := hsP
  obtain ⟨P1, P2, hP⟩ := List.append_of_mem hsP
  obtain ⟨ws, hsd, hsp⟩ := hK.lineP s hsP
  have sp : s.p = pos := by rw [← hp, ← hse]; rfl
  have hroot : e.segmentKey = s.root := by rw [← hse]; rfl
  have hevL : (X.E.filter fun e => e.ty = .lineLeft).Perm ((P1 ++ P2).map Grp.leftEv) := by
    have h1 : (e :: X.E.filter fun e => e.ty = .lineLeft).Perm (e :: (P1 ++ P2).map Grp.leftEv) := by
      refine hev.trans ?_
      show (X.P.map Grp.leftEv).Perm _
      rw [hP, List.map_append, List.map_cons, hse, List.map_append]
      exact List.perm_middle
    exact h1.cons_inv
  -- take it in hand
  obtain ⟨X1, hX1⟩ : ∃ X1 : Abs K C, X1 = { X with P := P1 ++ P2, S := [s] } := ⟨_, rfl⟩
  have hC1 : Conc org st X1 := by
    subst hX1
    refine ⟨hC.rep.perm ?_, hC.act, hC.size, hC.ev⟩
    unfold Abs.live
    rw [hP, hS]; list_perm
  have hK1 : Core pos X1 := by
    subst hX1
    refine ⟨hK.lineA, ?_, ?_, hK.ptQ, hK.order, ?_, hevL, ?_, ?_, ?_, ?_⟩
    · intro x hx
      exact hK.lineP x (by show x ∈ X.P; rw [hP]; rcases List.mem_append.1 hx with h | h <;> simp [h])
    · intro x hx
      simp only [List.mem_singleton] at hx
      subst hx
      exact ⟨ws, hsd, sp⟩
    · intro x hx
      have hx' : x ∈ X.A ++ (P1 ++ P2) ++ [s] := hx
      rcases List.mem_cons.1 (hK.evR x (by
        show x ∈ X.A ++ X.P ++ X.S
        rw [hP]
        simp only [List.mem_append, List.mem_cons, List.not_mem_nil, or_false] at hx' ⊢
        tauto)) with h | h
      · rw [← h] at ht; simp [Grp.rightEv] at ht
      · exact h
    · intro e' he'; exact hK.evQ e' (List.mem_cons_of_mem _ he')
    · intro e' he'; exact hK.evpos e' (List.mem_cons_of_mem _ he')
    · intro e' he' ht' hp'
      obtain ⟨x, hx, hq⟩ := hK.prodR e' (List.mem_cons_of_mem _ he') ht' hp'
      refine ⟨x, ?_, hq⟩
      have hx' : x ∈ X.A ++ X.P ++ X.S := hx
      rw [hP, hS] at hx'
      show x ∈ X.A ++ (P1 ++ P2) ++ [s]
      simp only [List.mem_append, List.mem_cons, List.not_mem_nil, or_false] at hx' ⊢
      tauto
    · intro e' he' ht' hp'
      rcases List.mem_cons.1 (hK.prodP e' (List.mem_cons_of_mem _ he') ht' hp') with h | h
      · rw [← h] at ht; simp at ht
      · exact h
  have hS1 : X1.S = [s] := by rw [hX1]
  have hA1 : X1.A = X.A := by rw [hX1]
  have hE1 : X1.E = X.E := by rw [hX1]
  have hlog1 : X1.log = X.log := by rw [hX1]
  have hprim : Prim org allow pos X X1 := by rw [hX1]; exact .take hP hS sp
  have hl1 : Late pos X1 := by
    intro e' he' hp'
    rw [hE1] at he'
    rcases hbef e' he' with h | ⟨-, h⟩
    · rw [hp, hp'] at h; exact absurd h (lt_irrefl _)
    · rw [ht] at h
      constructor <;> intro h' <;> simp [h', EventType.idx] at h
  have hsL : s ∈ X1.live := by unfold Abs.live; simp [hS1]
  have hwit : ∀ x ∈ X.W, x = s.sg ∨ x ∈ X1.W := by
    intro x hx
    unfold Abs.W at hx ⊢
    rw [hP] at hx
    rw [hX1]
    simp only [List.map_append, List.map_cons, List.mem_append, List.mem_cons] at hx ⊢
    tauto
  -- the stored segment
  obtain ⟨seg, sg1, sg2, -, sg3, -⟩ := hC.get (g := s) (by unfold Abs.live; simp [hsP])
  have hseg : st.segmentForEvent e = some (some seg) := by
    simp only [Sweep.segmentForEvent, ht, hroot, sg1, Option.bind_eq_bind, Option.bind_some, sg2, ws.1]
    rw [if_pos (sp.trans hp.symm)]
  have hsp' : (pos, s.q) = s.sg := by unfold Grp.sg; rw [sp]
  have hbnd := hK1.bounds hl1
  have wu : pos < s.q := by rw [← sp]; exact ws.2
  obtain ⟨l, m, r, hlmr, hl, hr, hm⟩ := separate wu X1.sgs (by
      intro x hx
      obtain ⟨y, hy, rfl⟩ := List.mem_map.1 hx
      exact hbnd y hy) hK1.order
  unfold Abs.sgs at hlmr
  obtain ⟨LM, R, hA, hLM, rfl⟩ := List.map_eq_append_iff.1 hlmr
  obtain ⟨L, M, rfl, rfl, rfl⟩ := List.map_eq_append_iff.1 hLM
  have hLlt : ∀ x ∈ L, x.sg.Lt s.sg := fun x hx => by rw [← hsp']; exact hl _ (List.mem_map_of_mem hx)
  have hRlt : ∀ x ∈ R, s.sg.Lt x.sg := fun x hx => by rw [← hsp']; exact hr _ (List.mem_map_of_mem hx)
  have hlineA : ∀ x ∈ X1.A, x.IsLine := fun x hx => (hK1.lineA x hx).1
  have hLn : ∀ y ∈ L.map Grp.sg, ¬ s.sg.Lt y := by
    intro y hy h
    obtain ⟨x, hx, rfl⟩ := List.mem_map.1 hy
    exact lt_asymm ws.2 (hlineA x (by rw [hA]; simp [hx])).2 h (hLlt x hx)
  have hRn : ∀ y ∈ R.map Grp.sg, ¬ y.Lt s.sg := by
    intro y hy h
    obtain ⟨x, hx, rfl⟩ := List.mem_map.1 hy
    exact lt_asymm ws.2 (hlineA x (by rw [hA]; simp [hx])).2 (hRlt x hx) h
  have hcA : Sg.Chain pos X.W (X1.A.map Grp.sg) := by rw [hA1]; exact hc
  have hmemLR : ∀ x ∈ X1.A, x ∈ X1.live ∧ x.IsLine := fun x hx => ⟨by unfold Abs.live; simp [hx], hlineA x hx⟩
  rcases hm with hm | ⟨c, hm, hcoll⟩
  · -- nothing active on the same line
    rw [List.map_eq_nil_iff] at hm
    subst hm
    rw [List.append_nil] at hA
    have hcc := hcA
    rw [hA, List.map_append, Sg.chain_append] at hcc
    have hplaced := hC1.placed hsL ws (L := L) (R := R) (fun x hx => hmemLR x (by rw [hA]; exact hx)) hLlt hRlt
    obtain ⟨st1, st2, n1, n2, n3⟩ := hC1.prev_next (k := s.root) (L := L) (R := R) (M := []) (by rw [hA]; simp) hplaced (.inl rfl)
    have hinv : LInv org pos st2 X1 s L R := ⟨n3, hK1, hS1, hA, hLlt, chain_without hcc.1 hwit (.inl hLn),
      chain_without hcc.2.1 hwit (.inr hRn), hl1⟩
    obtain ⟨st3, X3, s3, L3, R3, out3, i1, i2, i3, i4⟩ := step_below (allow := allow) lineOf nextAfter choice fuel hinv
    have hR3 : ∀ b ∈ R3, s3.sg.Lt b.sg := by
      intro b hb
      obtain ⟨y, hy, hyb⟩ := i3.mem hb
      exact i2.shr.sg.lt hyb.sg (hRlt y hy)
    obtain ⟨st4, X4, s4, L4, R4, out4, j1, j2, j3, j4⟩ := step_above (allow := allow) lineOf nextAfter choice fuel i1 hR3 i4
    obtain ⟨st5, slab, out5, X5, k1, k2, k3, k4, k5, k6, k7, k8, k9⟩ := activate (allow := allow) j1 j3 j4
    have hroots : R3.head?.map Grp.root = R.head?.map Grp.root := by
      rw [← List.head?_map, ← List.head?_map, i3.root]
    have hstep := i2.trans j2
    rw [hroots] at hstep
    obtain ⟨seg', -, hcode⟩ := hstep.code [] seg sg2
    have hs4 : s4.root = s.root := hstep.shr.root
    rw [hs4] at k1 k2
    refine ⟨{ st5 with segments := slab }, X5, (out3 ++ out4) ++ out5, ?_, ⟨k3, k4, k5, ?_, k7, ?_⟩, ?_⟩
    · rw [List.append_nil] at hcode
      rw [Sweep.handleEvent]
      simp only [hseg, sg3, n1, n2, ht, hroot, Option.bind_eq_bind, Option.bind_some, hcode, Sweep.leftLoop,
        Option.map_some, List.append_nil, if_true, k1, k2]
      rfl
    · exact ((Prims.single hprim).trans hstep.prims).tail k6
    · rw [k9, hstep.log, hlog1]; simp [stamp_append]
    · simp [k8]
  · -- an active segment on the same line
    obtain ⟨g, rfl, rfl⟩ := List.map_eq_singleton_iff.1 hm
    have hA' : X1.A = L ++ g :: R := by rw [hA]; simp
    have hgA : g ∈ X1.A := by rw [hA']; simp
    have hgl : g ∈ X1.live := (hmemLR g hgA).1
    have wg := hlineA g hgA
    have hcoll : det g.p g.q s.p = 0 ∧ det g.p g.q s.q = 0 := by rw [sp]; exact hcoll
    have hng : ¬ s.sg.Lt g.sg := fun h => lt_irrefl_coll ws.2 wg.2 h (det_symm wg.2.ne hcoll.1 hcoll.2)
    have hng' : ¬ g.sg.Lt s.sg := fun h => lt_irrefl_coll wg.2 ws.2 h hcoll
    have hc1 : X1.Chain pos := by
      have h := hcA
      unfold Abs.Chain Abs.sgs
      rw [hA', List.map_append, List.map_cons] at h ⊢
      unfold Sg.Chain at h ⊢
      rw [List.isChain_split] at h ⊢
      refine ⟨chain_without h.1 hwit (.inl ?_), chain_without h.2 hwit (.inr ?_)⟩
      · intro y hy
        rcases List.mem_append.1 hy with hy | hy
        · exact hLn y hy
        · rw [List.mem_singleton] at hy; subst hy; exact hng
      · intro y hy
        rcases List.mem_cons.1 hy with rfl | hy
        · exact hng'
        · exact hRn y hy
    obtain ⟨cmp1, cmp2⟩ := hC1.cmp_coll hgl hsL wg ws hcoll
    have hne : g.root ≠ s.root := (hC1.rep.perm (gs' := s :: (X1.A ++ X1.P ++ X1.Q)) (by
      unfold Abs.live; rw [hS1]; list_perm)).root_inj (l1 := []) .rfl (by simp [hgA])
    have pl := fun x (hx : x ∈ L) => hC1.cmp_gt hsL (hmemLR x (by rw [hA']; simp [hx])).1 ws (hlineA x (by rw [hA']; simp [hx])) (hLlt x hx)
    have pr := fun x (hx : x ∈ R) => hC1.cmp_lt hsL (hmemLR x (by rw [hA']; simp [hx])).1 ws (hlineA x (by rw [hA']; simp [hx])) (hRlt x hx)
    -- finishing, once the loop has reached `g`
    have fin : ∀ {st2 st3 : Sweep K C} {X3 : Abs K C} {s3 g3 : Grp K C} {L3 R3 : List (Grp K C)} {out3 : Out K C} {prev next : Option Nat}
        {stp : Sweep K C} {rest : List Nat},
        st.prevKey s.root = some (stp, prev) → stp.nextKey s.root = some (st2, next) →
        (∃ adj, prev.toList ++ next.toList = adj ++ g3.root :: rest ∧ Step org allow lineOf nextAfter choice fuel pos st2 X1 s adj st3 X3 s3 out3) →
        Conc org st3 X3 → Core pos X3 → X3.S = [s3] → Late pos X3 → X3.A = L3 ++ g3 :: R3 →
        (det g3.p g3.q s3.p = 0 ∧ det g3.p g3.q s3.q = 0) → X3.Chain pos →
        ∃ st' X' out, Sweep.handleEvent lineOf nextAfter choice (fuel + 2) st e = some (st', out, true) ∧ Done org allow pos X st' X' out ∧ out ≠ [] := by
      intro st2 st3 X3 s3 g3 L3 R3 out3 prev next stp rest f1 f2 f3 f4 f5 f6 f7 f8 f9 f10
      obtain ⟨adj, f3a, f3⟩ := f3
      obtain ⟨st4, out4, x, X4, o1, o2⟩ := overlap (allow := allow) lineOf nextAfter choice fuel f4 f5 f6 f7 f8 f9 f10
      obtain ⟨seg', hs', hcode⟩ := f3.code (g3.root :: rest) seg sg2
      have o1' := o1 rest seg' hs'
      rw [f3.shr.root] at o1'
      rw [← f3a, o1'] at hcode
      rcases o2 with ⟨rfl, D, hne⟩ | ⟨rfl, rfl, slab, out2, d1, D, hne⟩
      · refine ⟨st4, X4, out3 ++ out4, ?_, ⟨D.conc, D.core, D.chain, ?_, D.S, ?_⟩, by simp [hne]⟩
        · rw [Sweep.handleEvent]
          simp only [hseg, sg3, f1, f2, ht, hroot, Option.bind_eq_bind, Option.bind_some, hcode,
            Option.map_some]
          rfl
        · exact ((Prims.single hprim).trans f3.prims).trans D.prims
        · rw [D.log, f3.log, hlog1]; simp [stamp_append]
      · rw [f3.shr.root] at d1
        refine ⟨_, X4, (out3 ++ []) ++ out2, ?_, ⟨D.conc, D.core, D.chain, ?_, D.S, ?_⟩, by simp [hne]⟩
        · rw [Sweep.handleEvent]
          simp only [hseg, sg3, f1, f2, ht, hroot, Option.bind_eq_bind, Option.bind_some, hcode,
            Option.map_some, reduceCtorEq, if_false, Option.pure_def, d1]
        · exact ((Prims.single hprim).trans f3.prims).trans D.prims
        · rw [D.log, f3.log, hlog1]; simp [stamp_append]
    rcases lt_or_gt_of_ne hne with hlt | hlt
    · -- `g` counts as below
      have hplaced : Sweep.Placed st.segments s.root ((L ++ [g]).map Grp.root) (R.map Grp.root) := by
        constructor
        · intro k hk
          obtain ⟨x, hx, rfl⟩ := List.mem_map.1 hk
          rcases List.mem_append.1 hx with hx | hx
          · exact pl x hx
          · rw [List.mem_singleton] at hx; subst hx
            exact ⟨by rw [cmp1, compare_gt_iff_gt.2 hlt], cmp2⟩
        · intro k hk
          obtain ⟨x, hx, rfl⟩ := List.mem_map.1 hk
          exact pr x hx
      obtain ⟨stp, st2, n1, n2, n3⟩ := hC1.prev_next (k := s.root) (L := L ++ [g]) (R := R) (M := []) (by rw [hA']; simp) hplaced
        (.inl rfl)
      exact fin n1 n2 ⟨[], by simp; rfl, .refl _ _ _ _ _ _ _ _⟩ n3 hK1 hS1 hl1 hA' hcoll hc1
    · -- `g` counts as above
      have hplaced : Sweep.Placed st.segments s.root (L.map Grp.root) ((g :: R).map Grp.root) := by
        constructor
        · intro k hk
          obtain ⟨x, hx, rfl⟩ := List.mem_map.1 hk
          exact pl x hx
        · intro k hk
          obtain ⟨x, hx, rfl⟩ := List.mem_map.1 hk
          rcases List.mem_cons.1 hx with rfl | hx
          · exact ⟨by rw [cmp1, compare_lt_iff_lt.2 hlt], cmp2⟩
          · exact pr x hx
      obtain ⟨stp, st2, n1, n2, n3⟩ := hC1.prev_next (k := s.root) (L := L) (R := g :: R) (M := []) (by rw [hA']; simp) hplaced
        (.inl rfl)
      have hcc := hc1
      unfold Abs.Chain Abs.sgs at hcc
      rw [hA', List.map_append, Sg.chain_append] at hcc
      have hinv : LInv org pos st2 X1 s L (g :: R) := ⟨n3, hK1, hS1, hA', hLlt, hcc.1, hcc.2.1, hl1⟩
      obtain ⟨st3, X3, s3, L3, R3, out3, i1, i2, i3, i4⟩ := step_below (allow := allow) lineOf nextAfter choice fuel hinv
      cases i3 with
      | @cons _ g3 _ R3' hg3 hR3 =>
        have hcoll3 : det g3.p g3.q s3.p = 0 ∧ det g3.p g3.q s3.q = 0 := by
          have h1 : det g.p g.q s3.p = 0 ∧ det g.p g.q s3.q = 0 := by
            rw [i2.shr.p]
            refine ⟨hcoll.1, ?_⟩
            rcases i2.shr with h | ⟨z, hz, h⟩
            · rw [h]; exact hcoll.2
            · rw [h]; exact det_trans ws.2.ne hcoll.1 hcoll.2 hz.2.2
          rcases hg3 with h | ⟨z, hz, h⟩
          · rw [h]; exact h1
          · rw [h]
            obtain ⟨d1, d2⟩ := det_symm wg.2.ne (det_left _ _) hz.2.2
            exact ⟨det_trans wg.2.ne d1 d2 h1.1, det_trans wg.2.ne d1 d2 h1.2⟩
        refine fin (rest := []) n1 n2 ⟨_, ?_, i2⟩ i1.conc i1.core i1.S i1.late i1.A hcoll3 (i2.chain hc1)
        rw [hg3.root]; simp

end GeoCrossings
