import Verif.Lemmas.MonoStep

/-!
# Split vertices, and the step in general
-/
set_option linter.unusedSectionVars false
namespace GeoCrossings.Monotone
open Spec

variable {K : Type} [Field K] [LinearOrder K] [IsStrictOrderedRing K]
variable {n : Nat} {ed : Nat → Sg K} {top : Nat → Bool} {u v w : Pt K} {gs gs' : List (Gap K)}
  {d : List (Piece K)} {S : List Nat} {chains : List (Chain K)} {C1 Cm C2 : List (Cell K)}

/-- The chain that is split. -/
theorem Ctx.choose {g : Gap K} {p : Piece K} (X : Ctx n ed top u v C1 [(g, [p])] C2 d S chains) (dbg : Bool) (m : g.mg = false)
    (hp : Plain n ed v g p)
    (hsel : ∀ x y, 1 ≤ x → x ≤ n → 1 ≤ y → y ≤ n → (ed x).1 = g.h → (ed y).1 = g.h → top x = false → top y = true →
      if 0 < det g.h (ed x).2 v then x = g.b else y = g.t) :
    (splitIdx dbg chains g.h v = some p.ti ∧ (ed g.t).1 = g.h) ∨ (splitIdx dbg chains g.h v = some p.bi ∧ (ed g.b).1 = g.h) := by
  have gm : (g, [p]) ∈ C1 ++ [(g, [p])] ++ C2 := by simp
  have ga := X.gapAt gm
  have go := X.gok gm
  have po : p ∈ opens (C1 ++ [(g, [p])] ++ C2) := by simp
  rcases go.plain m with h | h <;> simp only at h
  · -- the lower edge starts at the helper
    have hk : ∃ k, 1 ≤ k ∧ k ≤ n ∧ (ed k).1 = g.h := ⟨g.b, ga.b1, ga.b2, h.symm⟩
    have hB : EndsIn p.B g.h (ed g.b).2 := by have := hp.bt; rwa [← h] at this
    rcases X.hC.rep.splitIdx_bot (v := v) dbg po hB (fun q hq hc => X.uniqueB hk hq po hc ⟨_, hB⟩)
      (fun q hq q' hq' hc hc' => X.uniqueT hk hq hq' hc hc') (by
        intro q hq hc ho
        obtain ⟨y, y1, y2, y3, y4, y5, -⟩ := X.edgeT hq hc hk
        have hs := hsel g.b y ga.b1 ga.b2 y1 y2 h.symm y4 go.labB y3
        rw [if_neg (fun hd => ho (ccw_iff.2 hd))] at hs
        refine X.uniqueT hk hq po hc ⟨(ed g.t).2, ?_⟩
        have := hp.tp
        rwa [show (ed g.t).1 = g.h by rw [← hs]; exact y4] at this) with h1 | ⟨h1, r, h2⟩
    · exact .inr ⟨h1, h.symm⟩
    · exact .inl ⟨h1, (hp.tp.unique h2).1⟩
  · have hk : ∃ k, 1 ≤ k ∧ k ≤ n ∧ (ed k).1 = g.h := ⟨g.t, ga.t1, ga.t2, h.symm⟩
    have hT : EndsIn p.T g.h (ed g.t).2 := by have := hp.tp; rwa [← h] at this
    rcases X.hC.rep.splitIdx_top (v := v) dbg po ⟨_, hT⟩ (fun q hq hc => X.uniqueT hk hq po hc ⟨_, hT⟩)
      (fun q hq q' hq' hc hc' => X.uniqueB hk hq hq' hc hc') (by
        intro q hq r hc ho
        obtain ⟨x, x1, x2, x3, x4, x5, -⟩ := X.edgeB hq ⟨r, hc⟩ hk
        have e := (x5.unique hc).2
        have hs := hsel x g.t x1 x2 ga.t1 ga.t2 x4 h.symm x3 go.labT
        rw [e, if_pos (ccw_iff.1 ho)] at hs
        refine X.uniqueB hk hq po ⟨r, hc⟩ ⟨(ed g.b).2, ?_⟩
        have := hp.bt
        rwa [show (ed g.b).1 = g.h by rw [← hs]; exact x4] at this) with h1 | ⟨h1, r, h2⟩
    · exact .inl ⟨h1, h.symm⟩
    · exact .inr ⟨h1, (hp.bt.unique h2).1⟩

theorem Ctx.split {g : Gap K} {ps : List (Piece K)} (X : Ctx n ed top u v C1 [(g, ps)] C2 d S chains) (dbg : Bool) {i j : Nat}
    (ri : 1 ≤ i ∧ i ≤ n) (rj : 1 ≤ j ∧ j ≤ n) (ei : (ed i).1 = v) (ej : (ed j).1 = v) (hi : top i = true) (hj : top j = false)
    (hsel : g.mg = false → ∀ x y, 1 ≤ x → x ≤ n → 1 ≤ y → y ≤ n → (ed x).1 = g.h → (ed y).1 = g.h → top x = false → top y = true →
      if 0 < det g.h (ed x).2 v then x = g.b else y = g.t)
    (hbi : (ed g.b).Lt (ed i)) (hjt : (ed j).Lt (ed g.t)) :
    Stepped n ed top dbg v chains .split
      [if g.mg then .merge g.h v (some ((ed j).2, (ed i).2)) else .split g.h v (ed j).2 (ed i).2]
      (C1.map Prod.fst ++ ⟨g.b, i, v, false⟩ :: ⟨j, g.t, v, false⟩ :: C2.map Prod.fst) := by
  have gm : (g, ps) ∈ C1 ++ [(g, ps)] ++ C2 := by simp
  have ga := X.gapAt gm
  have go := X.gok gm
  have hij : i ≠ j := by rintro rfl; rw [hi] at hj; cases hj
  have hE : ∀ k, 1 ≤ k → k ≤ n → EndOf (ed k) v → k = i ∨ k = j := fun k k1 k2 hk => X.E.two_ends ri rj hij (.inl ei.symm) (.inl ej.symm) k1 k2 hk
  have li := X.E.lt i ri.1 ri.2
  have lj := X.E.lt j rj.1 rj.2
  rw [ei] at li
  rw [ej] at lj
  have hR : ∀ k, 1 ≤ k → k ≤ n → (ed k).2 ≠ v := by
    intro k k1 k2 hk
    rcases hE k k1 k2 (.inr hk.symm) with rfl | rfl
    · rw [hk] at li; exact absurd li (lt_irrefl _)
    · rw [hk] at lj; exact absurd lj (lt_irrefl _)
  have nl := X.noLook_v (fun k k1 k2 hk => absurd hk (hR k k1 k2))
  have hrb : (ed g.b).2 ≠ v := hR _ ga.b1 ga.b2
  have hrt : (ed g.t).2 ≠ v := hR _ ga.t1 ga.t2
  have db : 0 ≤ det (ed g.b).1 (ed g.b).2 v := by
    have h : GeoCrossings.Lt (ed g.b).1 (ed g.b).2 (ed i).1 (ed i).2 := hbi
    rw [ei, lt_right_iff ga.bl.le] at h
    rcases h with h | ⟨h, -⟩
    · exact h.le
    · exact h.ge
  have dt : det (ed g.t).1 (ed g.t).2 v ≤ 0 := by
    have h : GeoCrossings.Lt (ed j).1 (ed j).2 (ed g.t).1 (ed g.t).2 := hjt
    rw [ej, lt_left_iff ga.tl.le] at h
    rcases h with h | ⟨h, -⟩
    · exact h.le
    · exact h.le
  have db' : 0 < det (ed g.b).1 (ed g.b).2 v := lt_of_le_of_ne db fun h => by
    rcases X.E.end_of_det ri.1 ri.2 ga.b1 ga.b2 (.inl ei.symm) ga.bl.le ga.br h.symm with h | h
    · exact absurd h ga.bl.ne'
    · exact hrb h.symm
  have dt' : det (ed g.t).1 (ed g.t).2 v < 0 := lt_of_le_of_ne dt fun h => by
    rcases X.E.end_of_det ri.1 ri.2 ga.t1 ga.t2 (.inl ei.symm) ga.tl.le ga.tr h with h | h
    · exact absurd h ga.tl.ne'
    · exact hrt h.symm
  have ap1 : (ed g.b).1 ≠ (ed i).1 := fun h => absurd (h.trans ei) (go.leftB.trans_lt ga.hl).ne
  have ap2 : (ed j).1 ≠ (ed g.t).1 := fun h => absurd (h.symm.trans ej) (go.leftT.trans_lt ga.hl).ne
  have hN : ∀ k, k ∈ [i, j] ↔ 1 ≤ k ∧ k ≤ n ∧ (ed k).1 = v := by
    intro k
    simp only [List.mem_cons, List.not_mem_nil, or_false]
    constructor
    · rintro (rfl | rfl)
      · exact ⟨ri.1, ri.2, ei⟩
      · exact ⟨rj.1, rj.2, ej⟩
    · rintro ⟨k1, k2, k3⟩
      exact hE k k1 k2 (.inl k3.symm)
  -- the common end
  have concl : ∀ {ch1 : List (Chain K)} {p1 p2 : Piece K}, applyLink dbg v .split (chains, none)
        (if g.mg then .merge g.h v (some ((ed j).2, (ed i).2)) else .split g.h v (ed j).2 (ed i).2) = some (ch1, none) →
      Rep ch1 (p1 :: p2 :: opens (C1 ++ C2)) d → Plain n ed v ⟨g.b, i, v, false⟩ p1 → Plain n ed v ⟨j, g.t, v, false⟩ p2 →
      (∀ f : Sg K → K, val f p1 + val f p2 = tot f ps + f (ed i) - f (ed j)) →
      Stepped n ed top dbg v chains .split
        [if g.mg then .merge g.h v (some ((ed j).2, (ed i).2)) else .split g.h v (ed j).2 (ed i).2]
        (C1.map Prod.fst ++ ⟨g.b, i, v, false⟩ :: ⟨j, g.t, v, false⟩ :: C2.map Prod.fst) := by
    intro ch1 p1 p2 e1 R1 q1 q2 hf
    have a1 : p1.T.getLast? ≠ some v := by rw [q1.tp.last]; simpa using li.ne'
    have a2 : p1.B.getLast? ≠ some v := by rw [q1.bt.last]; simpa using hrb
    have a3 : p2.T.getLast? ≠ some v := by rw [q2.tp.last]; simpa using hrt
    have a4 : p2.B.getLast? ≠ some v := by rw [q2.bt.last]; simpa using lj.ne'
    obtain ⟨ch2, e2, R2⟩ := Rep.reduce_close (A := []) (v := v) dbg R1 (by simp) (by
        intro p hp hc
        rcases List.mem_cons.1 hp with rfl | hp
        · exact a1 hc.1
        · rcases List.mem_cons.1 hp with rfl | hp
          · exact a3 hc.1
          · exact nl.open_ p hp hc)
      (by rw [List.nil_append, looksCount_cons, looksCount_cons, nl.count, if_neg a1, if_neg a2, if_neg a3, if_neg a4])
    refine ⟨ch2, C1 ++ [(⟨g.b, i, v, false⟩, [p1]), (⟨j, g.t, v, false⟩, [p2])] ++ C2, [] ++ d, [i, j] ++ S,
      by rw [fold_one dbg _ e1]; exact e2, X.hC.local X.hv X.others (by simpa using R2) ?_ (by simp) (by simpa using hij) hN ?_, by simp⟩
    · intro c hc
      simp only [List.mem_cons, List.not_mem_nil, or_false] at hc
      rcases hc with rfl | rfl
      · exact .inl ⟨rfl, _, rfl, q1⟩
      · exact .inl ⟨rfl, _, rfl, q2⟩
    · intro f
      have := hf f
      simp only [opens_cons, opens_nil, tot_nil, List.append_nil, tot_cons, tot_append, edgeSum_t f hi, edgeSum_b f hj, edgeSum_nil]
      linear_combination this
  have R := X.hC.rep'
  rw [opens_cons, opens_nil, List.append_nil] at R
  rcases X.cell gm with ⟨m, p, e, hp⟩ | ⟨m, lo, up, e, hp⟩ <;> simp only at m e
  · subst e
    replace R : Rep chains (p :: opens (C1 ++ C2)) d := R
    have glt : GeoCrossings.Lt (ed g.b).1 (ed g.b).2 (ed g.t).1 (ed g.t).2 := ga.lt
    rcases X.choose dbg m hp (hsel m) with ⟨hs, hh⟩ | ⟨hs, hh⟩
    · obtain ⟨pre, hT⟩ := hp.tp
      simp only [hh] at hT
      have lh : (pre ++ [g.h]).getLast? = some g.h := by simp
      have lv : ((pre ++ [g.h]) ++ [v]).getLast? = some v := by simp
      have eT : p.T = (pre ++ [g.h]) ++ [(ed g.t).2] := by simp [hT]
      have i0 : Incr (pre ++ [g.h]) := by have := hp.ok.incT; rw [eT] at this; exact this.init
      have g0 : ClearL n ed (pre ++ [g.h]) := by have := hp.ok.goodT; rw [eT] at this; exact this.init lh
      have dh : 0 ≤ det (ed g.b).1 (ed g.b).2 g.h := by
        rw [hh, lt_right_iff go.leftB] at glt
        rcases glt with h | ⟨h, -⟩
        · exact h.le
        · exact h.ge
      obtain ⟨ch1, ti, bi, e1, R1⟩ := R.split_top (v := v) dbg .split none (t := (ed j).2) (b := (ed i).2) hT hs
      rw [show pre ++ [g.h, v, (ed i).2] = (pre ++ [g.h]) ++ [v] ++ [(ed i).2] by simp] at R1
      have hlt : g.h < (ed g.t).2 := ga.hl.trans_le ga.tr
      have gd := go.good X.hv ga dh db (.inr db') (by rw [← hh, det_left]) dt (.inr dt')
      refine concl (by rw [m]; exact e1) R1 ⟨⟨?_, hp.ok.incB, ?_, (g0.snoc lh gd).snoc lv (X.E.good' ri ei), hp.ok.goodB⟩, ?_, hp.bt, ?_, fun h => absurd h ap1⟩
        ⟨⟨?_, ?_, rfl, .pair (X.E.good' ⟨ga.t1, ga.t2⟩ hh), ClearL.snoc (l := [g.h, v]) (.pair gd) (by simp) (X.E.good' rj ej)⟩, ?_, ?_, ?_, fun h => absurd h ap2⟩ ?_
      · exact (i0.snoc lh ga.hl).snoc lv li
      · have := hp.ok.head
        rw [eT, head_snoc lh] at this
        simp only
        rw [head_snoc lv, head_snoc lh]
        exact this
      · simp only [ei]; exact EndsIn.snoc lv _
      · refine aboveTo_snocT lv ?_
        intro x hx hP
        rcases (wpass_snoc lh v).1 hP with hP | hP
        · exact hp.above x hx (by rw [eT, wpass_snoc lh]; exact .inl hP)
        · exact pass_of_edge hp.bt (diag_above go.leftB ga.br dh db (.inr db') hx hP)
      · simpa [Incr] using hlt
      · simp only [Incr, List.pairwise_cons, List.mem_cons, List.not_mem_nil, or_false, forall_eq_or_imp, forall_eq, List.Pairwise.nil, and_true,
          IsEmpty.forall_iff, implies_true]
        exact ⟨⟨ga.hl, ga.hl.trans lj⟩, lj⟩
      · exact ⟨[], by simp [hh]⟩
      · exact ⟨[g.h], by simp [ej]⟩
      · intro x hx hP
        have hP' : WPasses x (g.h, (ed g.t).2) := by
          obtain ⟨e', he, h1⟩ := hP
          simp only [es, List.tail_cons, List.zip_cons_cons, List.zip_nil_right, List.mem_singleton] at he
          exact he ▸ h1
        have := diag_below (a := g.h) (c := v) (a' := (ed g.t).1) (c' := (ed g.t).2) go.leftT ga.tr (by rw [← hh, det_left]) dt (.inr dt') hP'.1 hx
          (by rw [hh]; exact hP'.2.2)
        exact ⟨(g.h, v), by simp [es], this⟩
      · intro f
        have : wt f p.T = wt f (pre ++ [g.h]) + f (ed g.t) := by rw [eT, wt_snoc f lh]; rw [← hh]
        have w2 : wt f [g.h, v, (ed j).2] = f (g.h, v) + f (ed j) := by simp [wt, es, edge_eq ej]
        simp only [val, wt_snoc f lv, wt_snoc f lh, edge_eq ei, wt_pair, w2, tot_cons, tot_nil, this]
        have w3 : f (g.h, (ed g.t).2) = f (ed g.t) := by rw [← hh]
        rw [w3]
        ring
    · obtain ⟨pre, hB⟩ := hp.bt
      simp only [hh] at hB
      have lh : (pre ++ [g.h]).getLast? = some g.h := by simp
      have lv : ((pre ++ [g.h]) ++ [v]).getLast? = some v := by simp
      have eB : p.B = (pre ++ [g.h]) ++ [(ed g.b).2] := by simp [hB]
      have i0 : Incr (pre ++ [g.h]) := by have := hp.ok.incB; rw [eB] at this; exact this.init
      have g0 : ClearL n ed (pre ++ [g.h]) := by have := hp.ok.goodB; rw [eB] at this; exact this.init lh
      have dh : det (ed g.t).1 (ed g.t).2 g.h ≤ 0 := by
        rw [hh, lt_left_iff go.leftT] at glt
        rcases glt with h | ⟨h, -⟩
        · exact h.le
        · exact h.le
      obtain ⟨ch1, ti, bi, e1, R1⟩ := R.split_bot (v := v) dbg .split none (t := (ed j).2) (b := (ed i).2) hB hs
      rw [show pre ++ [g.h, v, (ed j).2] = (pre ++ [g.h]) ++ [v] ++ [(ed j).2] by simp] at R1
      have hlt : g.h < (ed g.b).2 := ga.hl.trans_le ga.br
      have gd := go.good X.hv ga (by rw [← hh, det_left]) db (.inr db') dh dt (.inr dt')
      refine concl (by rw [m]; exact e1) R1 ⟨⟨?_, ?_, rfl, ClearL.snoc (l := [g.h, v]) (.pair gd) (by simp) (X.E.good' ri ei), .pair (X.E.good' ⟨ga.b1, ga.b2⟩ hh)⟩, ?_, ?_, ?_, fun h => absurd h ap1⟩
        ⟨⟨hp.ok.incT, ?_, ?_, hp.ok.goodT, (g0.snoc lh gd).snoc lv (X.E.good' rj ej)⟩, hp.tp, ?_, ?_, fun h => absurd h ap2⟩ ?_
      · simp only [Incr, List.pairwise_cons, List.mem_cons, List.not_mem_nil, or_false, forall_eq_or_imp, forall_eq, List.Pairwise.nil, and_true,
          IsEmpty.forall_iff, implies_true]
        exact ⟨⟨ga.hl, ga.hl.trans li⟩, li⟩
      · simpa [Incr] using hlt
      · exact ⟨[g.h], by simp [ei]⟩
      · exact ⟨[], by simp [hh]⟩
      · rw [show [g.h, v, (ed i).2] = [g.h, v] ++ [(ed i).2] from rfl]
        refine aboveTo_snocT (by simp) ?_
        rintro x hx ⟨e', he, hP⟩
        simp only [es, List.tail_cons, List.zip_cons_cons, List.zip_nil_right, List.mem_singleton] at he
        subst he
        have := diag_above (a := g.h) (c := v) (a' := (ed g.b).1) (c' := (ed g.b).2) go.leftB ga.br (by rw [← hh, det_left]) db (.inr db') hx hP
        rw [hh] at this
        exact ⟨(g.h, (ed g.b).2), by simp [es], this⟩
      · exact (i0.snoc lh ga.hl).snoc lv lj
      · have := hp.ok.head
        rw [eB, head_snoc lh] at this
        simp only
        rw [head_snoc lv, head_snoc lh]
        exact this
      · simp only [ej]; exact EndsIn.snoc lv _
      · refine aboveTo_snocB lv ?_
        intro x hx hP
        rw [pass_snoc lh]
        rcases le_or_gt x g.h with hu | hu
        · have := hp.above x hx hP
          rw [eB, pass_snoc lh] at this
          rcases this with h | h
          · exact .inl h
          · exact absurd h.1 (not_lt.2 hu)
        · exact .inr (diag_below go.leftT ga.tr dh dt (.inr dt') hu hx (wpass_edge hp.ok.incT hp.tp (go.leftT.trans_lt hu) hP).2.2)
      · intro f
        have : wt f p.B = wt f (pre ++ [g.h]) + f (ed g.b) := by rw [eB, wt_snoc f lh]; rw [← hh]
        have w2 : wt f [g.h, v, (ed i).2] = f (g.h, v) + f (ed i) := by simp [wt, es, edge_eq ei]
        simp only [val, wt_snoc f lv, wt_snoc f lh, edge_eq ej, wt_pair, w2, tot_cons, tot_nil, this]
        have w3 : f (g.h, (ed g.b).2) = f (ed g.b) := by rw [← hh]
        rw [w3]
        ring
  · subst e
    replace R : Rep chains (lo :: up :: opens (C1 ++ C2)) d := R
    have hne : ∀ {x : Pt K}, v ≤ x → (some x : Option (Pt K)) ≠ some g.h := by
      intro x hx h
      exact absurd ga.hl (not_lt.2 (Option.some.inj h ▸ hx))
    obtain ⟨ch1, e1, R1⟩ := R.merge_split' (v := v) dbg none (ed j).2 (ed i).2 hp.lkT (by rw [hp.bt.last]; exact hne ga.br)
      (by rw [hp.tp.last]; exact hne ga.tr) hp.lkB (X.noLook_h (g := (g, [lo, up])) (by simp) m)
    rw [show lo.T ++ [v, (ed i).2] = (lo.T ++ [v]) ++ [(ed i).2] by simp, show up.B ++ [v, (ed j).2] = (up.B ++ [v]) ++ [(ed j).2] by simp] at R1
    have iu := hp.oku.incB.snoc hp.lkB ga.hl
    have il := hp.okl.incT.snoc hp.lkT ga.hl
    have lvT : (lo.T ++ [v]).getLast? = some v := by simp
    have lvB : (up.B ++ [v]).getLast? = some v := by simp
    have gd := hp.good go X.hv ga db dt
    refine concl (by rw [m]; exact e1) R1 ⟨⟨il.snoc lvT li, hp.okl.incB, ?_, (hp.okl.goodT.snoc hp.lkT gd).snoc lvT (X.E.good' ri ei), hp.okl.goodB⟩, ?_, hp.bt, ?_, fun h => absurd h ap1⟩
      ⟨⟨hp.oku.incT, iu.snoc lvB lj, ?_, hp.oku.goodT, (hp.oku.goodB.snoc hp.lkB gd).snoc lvB (X.E.good' rj ej)⟩, hp.tp, ?_, ?_, fun h => absurd h ap2⟩ ?_
    · rw [head_snoc lvT, head_snoc hp.lkT]; exact hp.okl.head
    · simp only [ei]; exact EndsIn.snoc lvT _
    · exact aboveTo_snocT lvT (hp.lo_above go.leftB ga.br db)
    · rw [head_snoc lvB, head_snoc hp.lkB]; exact hp.oku.head
    · simp only [ej]; exact EndsIn.snoc lvB _
    · exact aboveTo_snocB lvB (hp.up_above go.leftT ga.tr dt)
    · intro f
      simp only [val, wt_snoc f lvT, wt_snoc f lvB, wt_snoc f hp.lkT, wt_snoc f hp.lkB, edge_eq ei, edge_eq ej, tot_cons, tot_nil]
      ring

/-- **The step**: the chains follow the gaps. -/
theorem CInv.step (E : Edges n ed top) (dbg : Bool) (hv : Next n ed u v) {cells : List (Cell K)} (hI : GInv n ed top u gs)
    (hI' : GInv n ed top v gs') {ty : VertexType} {links : List (Link K)} (hL : LStep n ed top v gs ty links gs')
    (hC : CInv n ed top u cells d S chains) (hgs : cells.map Prod.fst = gs) :
    Stepped n ed top dbg v chains ty links gs' := by
  subst hgs
  have sorted := hI'.act.sorted
  have mk : ∀ {C1 Cm C2}, cells = C1 ++ Cm ++ C2 → Ctx n ed top u v C1 Cm C2 d S chains := by
    intro C1 Cm C2 h
    subst h
    exact ⟨E, hv, hI, hC⟩
  generalize hg : cells.map Prod.fst = gs at hL
  cases hL with
  | start G1 G2 i j ri rj ei ej hi hj hd =>
    obtain ⟨C1, C2, rfl, rfl, rfl⟩ := List.map_eq_append_iff.1 hg
    exact (mk (C1 := C1) (Cm := []) (C2 := C2) (by simp)).start dbg ri rj ei ej hi hj
  | split G1 g G2 i j ri rj ei ej hi hj hd hsel =>
    obtain ⟨C1, C2, rfl, rfl, h⟩ := List.map_eq_append_iff.1 hg
    obtain ⟨⟨g', ps⟩, C3, rfl, h1, rfl⟩ := List.map_eq_cons_iff.1 h
    simp only at h1
    subst h1
    simp only [flat_append, flat_cons] at sorted
    have s1 := (List.pairwise_append.1 sorted).2.1
    rw [List.pairwise_cons] at s1
    have s2 := (List.pairwise_cons.1 s1.2).2
    rw [List.pairwise_cons] at s2
    exact (mk (C1 := C1) (Cm := [(g', ps)]) (C2 := C3) (by simp)).split dbg ri rj ei ej hi hj hsel (s1.1 i (by simp)) (s2.1 g'.t (by simp))
  | contBot G1 g G2 j rj ej eb hj limbs w =>
    obtain ⟨C1, C2, rfl, rfl, h⟩ := List.map_eq_append_iff.1 hg
    obtain ⟨⟨g', ps⟩, C3, rfl, h1, rfl⟩ := List.map_eq_cons_iff.1 h
    simp only at h1
    subst h1
    exact (mk (C1 := C1) (Cm := [(g', ps)]) (C2 := C3) (by simp)).contBot dbg rj ej eb hj limbs w
  | contTop G1 g G2 j rj ej et hj limbs w =>
    obtain ⟨C1, C2, rfl, rfl, h⟩ := List.map_eq_append_iff.1 hg
    obtain ⟨⟨g', ps⟩, C3, rfl, h1, rfl⟩ := List.map_eq_cons_iff.1 h
    simp only at h1
    subst h1
    exact (mk (C1 := C1) (Cm := [(g', ps)]) (C2 := C3) (by simp)).contTop dbg rj ej et hj limbs w
  | finish G1 g G2 eb et limbs a b =>
    obtain ⟨C1, C2, rfl, rfl, h⟩ := List.map_eq_append_iff.1 hg
    obtain ⟨⟨g', ps⟩, C3, rfl, h1, rfl⟩ := List.map_eq_cons_iff.1 h
    simp only at h1
    subst h1
    exact (mk (C1 := C1) (Cm := [(g', ps)]) (C2 := C3) (by simp)).finish dbg eb et limbs a b
  | merge G1 g g' G2 et eb limbs limbs' =>
    obtain ⟨C1, C2, rfl, rfl, h⟩ := List.map_eq_append_iff.1 hg
    obtain ⟨⟨g1, ps⟩, C3, rfl, h1, h2⟩ := List.map_eq_cons_iff.1 h
    obtain ⟨⟨g2, ps'⟩, C4, rfl, h3, rfl⟩ := List.map_eq_cons_iff.1 h2
    simp only at h1 h3
    subst h1 h3
    exact (mk (C1 := C1) (Cm := [(g1, ps), (g2, ps')]) (C2 := C4) (by simp)).merge dbg et eb limbs limbs'

end GeoCrossings.Monotone
