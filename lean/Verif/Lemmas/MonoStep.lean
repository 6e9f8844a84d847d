import Verif.Lemmas.MonoCells

/-!
# The chains after an event
-/
set_option linter.unusedSectionVars false
namespace GeoCrossings.Monotone
open Spec

variable {K : Type} [Field K] [LinearOrder K] [IsStrictOrderedRing K]
variable {n : Nat} {ed : Nat → Sg K} {top : Nat → Bool} {u v w : Pt K} {gs gs' : List (Gap K)}
  {d : List (Piece K)} {S : List Nat} {chains : List (Chain K)} {C1 Cm C2 : List (Cell K)}

theorem out_ne (hn : (flat ((C1 ++ Cm ++ C2).map Prod.fst)).Nodup) {k : Nat} (hk : k ∈ flat (Cm.map Prod.fst)) {c : Cell K}
    (hc : c ∈ C1 ++ C2) : c.1.b ≠ k ∧ c.1.t ≠ k := by
  simp only [List.map_append, flat_append, List.append_assoc] at hn
  rw [List.nodup_append] at hn
  obtain ⟨-, h2, h3⟩ := hn
  rw [List.nodup_append] at h2
  obtain ⟨-, -, h4⟩ := h2
  rcases List.mem_append.1 hc with hc | hc
  · obtain ⟨m1, m2⟩ := mem_flat_of (List.mem_map_of_mem (f := Prod.fst) hc)
    exact ⟨h3 _ m1 k (by simp [hk]), h3 _ m2 k (by simp [hk])⟩
  · obtain ⟨m1, m2⟩ := mem_flat_of (List.mem_map_of_mem (f := Prod.fst) hc)
    exact ⟨(h4 k hk _ m1).symm, (h4 k hk _ m2).symm⟩

theorem out_diff (hp : ((C1 ++ Cm ++ C2).map Prod.fst).Pairwise Diff) {g c : Cell K} (hg : g ∈ Cm) (hc : c ∈ C1 ++ C2)
    (m1 : g.1.mg = true) (m2 : c.1.mg = true) : c.1.h ≠ g.1.h := by
  rw [List.pairwise_map, List.append_assoc, List.pairwise_append, List.pairwise_append] at hp
  obtain ⟨-, ⟨-, -, h3⟩, h4⟩ := hp
  rcases List.mem_append.1 hc with hc | hc
  · exact h4 c hc g (by simp [hg]) m2 m1
  · exact (h3 g hg c hc m1 m2).symm

/-- What is known before the links of an event are applied. -/
structure Ctx (n : Nat) (ed : Nat → Sg K) (top : Nat → Bool) (u v : Pt K) (C1 Cm C2 : List (Cell K)) (d : List (Piece K)) (S : List Nat)
    (chains : List (Chain K)) : Prop where
  E : Edges n ed top
  hv : Next n ed u v
  hI : GInv n ed top u ((C1 ++ Cm ++ C2).map Prod.fst)
  hC : CInv n ed top u (C1 ++ Cm ++ C2) d S chains

theorem Ctx.nodup (X : Ctx n ed top u v C1 Cm C2 d S chains) : (flat ((C1 ++ Cm ++ C2).map Prod.fst)).Nodup := X.hI.act.nodup X.E

theorem Ctx.gapAt (X : Ctx n ed top u v C1 Cm C2 d S chains) {c : Cell K} (hc : c ∈ C1 ++ Cm ++ C2) : GapAt n ed v c.1 :=
  X.hI.at X.hv (List.mem_map_of_mem hc)

theorem Ctx.gok (X : Ctx n ed top u v C1 Cm C2 d S chains) {c : Cell K} (hc : c ∈ C1 ++ Cm ++ C2) : GOk n ed top u c.1 :=
  X.hI.ok _ (List.mem_map_of_mem hc)

theorem Ctx.cell (X : Ctx n ed top u v C1 Cm C2 d S chains) {c : Cell K} (hc : c ∈ C1 ++ Cm ++ C2) : CellOk n ed top v c :=
  (X.hC.cell c hc).advance X.E (X.gapAt hc) ((X.gok hc).leftB.trans (X.gok hc).le) ((X.gok hc).leftT.trans (X.gok hc).le)

theorem Ctx.others (X : Ctx n ed top u v C1 Cm C2 d S chains) : ∀ c ∈ C1 ++ C2, CellOk n ed top v c := fun c hc => by
  refine X.cell ?_
  simp only [List.mem_append] at hc ⊢
  tauto

theorem Ctx.noLook_v (X : Ctx n ed top u v C1 Cm C2 d S chains)
    (hM : ∀ k, 1 ≤ k → k ≤ n → (ed k).2 = v → k ∈ flat (Cm.map Prod.fst)) : NoLook v (opens (C1 ++ C2)) := by
  refine noLook X.others fun c hc => ?_
  have hc' : c ∈ C1 ++ Cm ++ C2 := by simp only [List.mem_append] at hc ⊢; tauto
  have ha := X.gapAt hc'
  refine ⟨fun h => ?_, fun h => ?_, fun _ h => ?_⟩
  · exact (out_ne X.nodup (hM _ ha.b1 ha.b2 h) hc).1 rfl
  · exact (out_ne X.nodup (hM _ ha.t1 ha.t2 h) hc).2 rfl
  · have := ha.hl
    rw [h] at this; exact lt_irrefl _ this

theorem Ctx.noLook_h (X : Ctx n ed top u v C1 Cm C2 d S chains) {g : Cell K} (hg : g ∈ Cm) (m : g.1.mg = true) :
    NoLook g.1.h (opens (C1 ++ C2)) := by
  refine noLook X.others fun c hc => ?_
  have hc' : c ∈ C1 ++ Cm ++ C2 := by simp only [List.mem_append] at hc ⊢; tauto
  have ha := X.gapAt hc'
  have hl := (X.gapAt (c := g) (by simp [hg])).hl
  refine ⟨fun h => ?_, fun h => ?_, fun m' h => ?_⟩
  · exact absurd hl (not_lt.2 (h ▸ ha.br))
  · exact absurd hl (not_lt.2 (h ▸ ha.tr))
  · exact out_diff X.hI.diff hg hc m m' h

/-- What has to be shown for an event. -/
def Stepped (n : Nat) (ed : Nat → Sg K) (top : Nat → Bool) (dbg : Bool) (v : Pt K) (chains : List (Chain K)) (ty : VertexType)
    (links : List (Link K)) (gs' : List (Gap K)) : Prop :=
  ∃ chains' cells' d' S', (links.foldlM (applyLink dbg v ty) (chains, none)).bind (fun s => Monotone.reduce dbg v s.1 s.2) = some chains' ∧
    CInv n ed top v cells' d' S' chains' ∧ cells'.map Prod.fst = gs'

theorem edgeSum_nil (f : Sg K → K) : edgeSum ed top f [] = 0 := rfl

theorem edgeSum_t (f : Sg K → K) {k : Nat} (h : top k = true) (S : List Nat) : edgeSum ed top f (k :: S) = f (ed k) + edgeSum ed top f S := by
  simp [edgeSum, h]

theorem edgeSum_b (f : Sg K → K) {k : Nat} (h : top k = false) (S : List Nat) : edgeSum ed top f (k :: S) = - f (ed k) + edgeSum ed top f S := by
  simp [edgeSum, h]

theorem edge_eq {k : Nat} (h : (ed k).1 = v) : (v, (ed k).2) = ed k := by rw [← h]

theorem val_mk (f : Sg K → K) (ti bi : Nat) (T B : List (Pt K)) : val f ⟨ti, bi, T, B⟩ = wt f T - wt f B := rfl

theorem Ctx.start (X : Ctx n ed top u v C1 [] C2 d S chains) (dbg : Bool) {i j : Nat} (ri : 1 ≤ i ∧ i ≤ n) (rj : 1 ≤ j ∧ j ≤ n)
    (ei : (ed i).1 = v) (ej : (ed j).1 = v) (hi : top i = false) (hj : top j = true) :
    Stepped n ed top dbg v chains .start [.start v (ed j).2 (ed i).2] (C1.map Prod.fst ++ ⟨i, j, v, false⟩ :: C2.map Prod.fst) := by
  have hij : i ≠ j := by rintro rfl; rw [hi] at hj; cases hj
  have hE : ∀ k, 1 ≤ k → k ≤ n → EndOf (ed k) v → k = i ∨ k = j := fun k k1 k2 hk => X.E.two_ends ri rj hij (.inl ei.symm) (.inl ej.symm) k1 k2 hk
  have li := X.E.lt i ri.1 ri.2
  have lj := X.E.lt j rj.1 rj.2
  rw [ei] at li
  rw [ej] at lj
  have nl := X.noLook_v (fun k k1 k2 hk => by
    rcases hE k k1 k2 (.inr hk.symm) with rfl | rfl
    · rw [hk] at li; exact absurd li (lt_irrefl _)
    · rw [hk] at lj; exact absurd lj (lt_irrefl _))
  obtain ⟨ch1, e1, R1⟩ := X.hC.rep'.start dbg (v := v) .start none (ed j).2 (ed i).2
  rw [opens_nil, List.nil_append] at R1
  obtain ⟨ch2, e2, R2⟩ := R1.reduce_close dbg (A := []) (v := v) (by simp) (by
      intro p hp
      rcases List.mem_cons.1 hp with rfl | hp
      · simp only [List.getLast?_cons_cons, List.getLast?_singleton, Option.some.injEq, not_and]
        intro h; rw [h] at lj; exact absurd lj (lt_irrefl _)
      · exact nl.open_ p hp)
    (by
      rw [List.nil_append, looksCount_cons, nl.count, if_neg, if_neg]
      · intro h
        simp only [List.getLast?_cons_cons, List.getLast?_singleton, Option.some.injEq] at h
        rw [h] at li; exact lt_irrefl _ li
      · intro h
        simp only [List.getLast?_cons_cons, List.getLast?_singleton, Option.some.injEq] at h
        rw [h] at lj; exact lt_irrefl _ lj)
  refine ⟨ch2, C1 ++ [(⟨i, j, v, false⟩, [⟨chains.length, chains.length + 1, [v, (ed j).2], [v, (ed i).2]⟩])] ++ C2, [] ++ d, [i, j] ++ S,
    by rw [fold_one dbg _ e1]; exact e2, X.hC.local X.hv X.others ?_ ?_ ?_ ?_ ?_ ?_, by simp⟩
  · simpa using R2
  · intro c hc
    rw [List.mem_singleton] at hc
    subst hc
    refine .inl ⟨rfl, _, rfl, ⟨?_, ?_, rfl, .pair (X.E.good' rj ej), .pair (X.E.good' ri ei)⟩, ⟨[], ?_⟩, ⟨[], ?_⟩, ?_, fun _ => by simp [ej]⟩
    · simpa [Incr] using lj
    · simpa [Incr] using li
    · simp [ej]
    · simp [ei]
    · rintro x hx ⟨e, he, hp, -⟩
      simp only [es, List.tail_cons, List.zip_cons_cons, List.zip_nil_right, List.mem_singleton] at he
      subst he
      exact absurd hx (_root_.lt_asymm hp)
  · simp
  · simpa using hij
  · intro k
    simp only [List.mem_cons, List.not_mem_nil, or_false]
    constructor
    · rintro (rfl | rfl)
      · exact ⟨ri.1, ri.2, ei⟩
      · exact ⟨rj.1, rj.2, ej⟩
    · rintro ⟨k1, k2, k3⟩
      exact hE k k1 k2 (.inl k3.symm)
  · intro f
    simp only [opens_cons, opens_nil, tot_nil, List.append_nil, tot_cons, val_mk, wt_pair, edgeSum_b f hi, edgeSum_t f hj, edgeSum_nil,
      edge_eq ei, edge_eq ej]
    ring

theorem Ctx.finish {g : Gap K} {ps : List (Piece K)} (X : Ctx n ed top u v C1 [(g, ps)] C2 d S chains) (dbg : Bool)
    (eb : (ed g.b).2 = v) (et : (ed g.t).2 = v) (limbs : Option (Pt K × Pt K)) (a b : Pt K) :
    Stepped n ed top dbg v chains .finish ((if g.mg then [.merge g.h v limbs] else []) ++ [.finish a b v])
      (C1.map Prod.fst ++ C2.map Prod.fst) := by
  have gm : (g, ps) ∈ C1 ++ [(g, ps)] ++ C2 := by simp
  have ga := X.gapAt gm
  have go := X.gok gm
  have hE : ∀ k, 1 ≤ k → k ≤ n → EndOf (ed k) v → k = g.b ∨ k = g.t := fun k k1 k2 hk =>
    X.E.two_ends ⟨ga.b1, ga.b2⟩ ⟨ga.t1, ga.t2⟩ ga.ne (.inr eb.symm) (.inr et.symm) k1 k2 hk
  have nl := X.noLook_v (fun k k1 k2 hk => by simpa using hE k k1 k2 (.inr hk.symm))
  have R := X.hC.rep'
  rw [opens_cons, opens_nil, List.append_nil] at R
  obtain ⟨ch1, lo, A, e1, R1, hA, hlo, hf⟩ := lowStage X.E dbg (X.cell gm) ga go X.hv go.leftB go.leftT go.merged go.labT et
    (fun m => X.noLook_h (g := (g, ps)) (by simp) m) R (ty := .finish) (by simp) none limbs
  have hd : DoneOk n ed lo ∧ lo.T.getLast? = some v ∧ lo.B.getLast? = some v := by
    have hl : lo.B.getLast? = some v := eb ▸ hlo.bt.last
    refine ⟨⟨hlo.ok, by rw [hlo.lk, hl], ?_, ?_, ?_⟩, hlo.lk, hl⟩
    · rcases hlo.tl with ⟨k, -, -, -, h⟩ | ⟨x, y, h, -⟩
      · exact h.length
      · exact h.length
    · intro x hne hx
      exact hlo.ab x (lt_of_le_of_ne (wpass_le hlo.ok.incT hlo.lk hx) fun e => hne (e ▸ hlo.lk)) hx
    · obtain ⟨a, h1, h2⟩ := hlo.wedge eb
      exact wedge_between hlo.ok.incT hlo.ok.incB hlo.ok.head h1 (eb ▸ hlo.bt) h2
  have hA' : Closed n ed v (A ++ [lo]) := by
    intro p hp
    rcases List.mem_append.1 hp with hp | hp
    · exact hA p hp
    · rw [List.mem_singleton] at hp; exact hp ▸ hd
  have R1' : Rep ch1 ((A ++ [lo]) ++ opens (C1 ++ C2)) d := by simpa using R1
  obtain ⟨ch2, e2, R2⟩ := R1'.reduce_close dbg (v := v) (fun p hp => (hA' p hp).2) nl.open_ (by
    rw [looksCount_append, nl.count, Nat.add_zero]; exact hA'.count)
  refine ⟨ch2, C1 ++ [] ++ C2, (A ++ [lo]) ++ d, [] ++ S, ?_, X.hC.local X.hv X.others R2 (by simp) (fun p hp => (hA' p hp).1) (by simp) ?_ ?_,
    by simp⟩
  · rw [fold_append dbg _ e1, fold_one dbg _ (applyLink_finish dbg _ _ a b)]
    exact e2
  · intro k
    refine iff_of_false (by simp) ?_
    rintro ⟨k1, k2, k3⟩
    have := X.E.lt k k1 k2
    rcases hE k k1 k2 (.inl k3.symm) with rfl | rfl
    · rw [eb, k3] at this; exact lt_irrefl _ this
    · rw [et, k3] at this; exact lt_irrefl _ this
  · intro f
    have := hf f
    simp only [opens_nil, tot_nil, opens_cons, List.append_nil, edgeSum_nil, tot_append, tot_cons]
    linear_combination this

theorem Ctx.merge {g g' : Gap K} {ps ps' : List (Piece K)} (X : Ctx n ed top u v C1 [(g, ps), (g', ps')] C2 d S chains) (dbg : Bool)
    (et : (ed g.t).2 = v) (eb : (ed g'.b).2 = v) (limbs limbs' : Option (Pt K × Pt K)) :
    Stepped n ed top dbg v chains .merge
      ((if g.mg then [.merge g.h v limbs] else []) ++ if g'.mg then [.merge g'.h v limbs'] else [])
      (C1.map Prod.fst ++ ⟨g.b, g'.t, v, true⟩ :: C2.map Prod.fst) := by
  have gm : (g, ps) ∈ C1 ++ [(g, ps), (g', ps')] ++ C2 := by simp
  have gm' : (g', ps') ∈ C1 ++ [(g, ps), (g', ps')] ++ C2 := by simp
  have ga := X.gapAt gm
  have go := X.gok gm
  have ga' := X.gapAt gm'
  have go' := X.gok gm'
  have hne : g.t ≠ g'.b := by
    intro h; have := go'.labB; rw [← h, go.labT] at this; cases this
  have hE : ∀ k, 1 ≤ k → k ≤ n → EndOf (ed k) v → k = g.t ∨ k = g'.b := fun k k1 k2 hk =>
    X.E.two_ends ⟨ga.t1, ga.t2⟩ ⟨ga'.b1, ga'.b2⟩ hne (.inr et.symm) (.inr eb.symm) k1 k2 hk
  have nd : g.b ≠ g'.b ∧ g'.t ≠ g.t := by
    have := X.nodup
    simp only [List.map_append, flat_append, List.map_cons, List.map_nil, flat_cons, flat_nil, List.append_assoc] at this
    have h1 := (List.nodup_append.1 this).2.1
    have h2 := (List.nodup_append.1 h1).1
    simp at h2
    exact ⟨h2.1.2.1, fun h => h2.2.1.2 h.symm⟩
  have hrb : (ed g.b).2 ≠ v := by
    intro h
    rcases hE _ ga.b1 ga.b2 (.inr h.symm) with h | h
    · exact ga.ne h
    · exact nd.1 h
  have hrt : (ed g'.t).2 ≠ v := by
    intro h
    rcases hE _ ga'.t1 ga'.t2 (.inr h.symm) with h | h
    · exact nd.2 h
    · exact ga'.ne h.symm
  have nl := X.noLook_v (fun k k1 k2 hk => by
    rcases hE k k1 k2 (.inr hk.symm) with h | h <;> simp [h])
  have R := X.hC.rep'
  rw [opens_cons, opens_cons, opens_nil, List.append_nil, List.append_assoc] at R
  have dif : g.mg = true → g'.mg = true → g.h ≠ g'.h := by
    have := X.hI.diff
    rw [List.pairwise_map, List.append_assoc, List.pairwise_append] at this
    have h1 := (List.pairwise_append.1 this.2.1).1
    simpa [Diff] using h1
  obtain ⟨ch1, lo, A, e1, R1, hA, hlo, hf⟩ := lowStage X.E dbg (X.cell gm) ga go X.hv go.leftB go.leftT go.merged go.labT et
    (fun m => by
      have h1 := X.noLook_h (g := (g, ps)) (by simp) m
      intro q hq
      rcases List.mem_append.1 hq with hq | hq
      · obtain ⟨a, b⟩ := (X.cell gm').lasts hq
        refine ⟨fun h => ?_, fun h => ?_⟩
        · rcases a with a | ⟨m', a⟩
          · rw [a] at h; exact absurd ga.hl (not_lt.2 (Option.some.inj h ▸ ga'.tr))
          · rw [a] at h; exact dif m m' (Option.some.inj h).symm
        · rcases b with b | ⟨m', b⟩
          · rw [b] at h; exact absurd ga.hl (not_lt.2 (Option.some.inj h ▸ ga'.br))
          · rw [b] at h; exact dif m m' (Option.some.inj h).symm
      · exact h1 q hq) R (ty := .merge) (by simp) none limbs
  have R1' : Rep ch1 (ps' ++ (A ++ lo :: opens (C1 ++ C2))) d := R1.perm
    (by
      have : A ++ lo :: (ps' ++ opens (C1 ++ C2)) = (A ++ [lo]) ++ (ps' ++ opens (C1 ++ C2)) := by simp
      rw [this]
      refine (List.perm_append_comm_assoc _ _ _).trans ?_
      simp) (List.Perm.refl _)
  obtain ⟨ch2, up, A', e2, R2, hA', hup, hf'⟩ := uppStage X.E dbg (X.cell gm') ga' go' X.hv go'.leftB go'.leftT go'.merged go'.labB eb
    (fun m => by
      have h1 := X.noLook_h (g := (g', ps')) (by simp) m
      have hv' : ∀ {x : Pt K}, v ≤ x → (some x : Option (Pt K)) ≠ some g'.h := by
        intro x hx h
        exact absurd ga'.hl (not_lt.2 (Option.some.inj h ▸ hx))
      intro q hq
      rcases List.mem_append.1 hq with hq | hq
      · obtain ⟨-, a, b⟩ := hA q hq
        exact ⟨by rw [a]; exact hv' le_rfl, by rw [b]; exact hv' le_rfl⟩
      · rcases List.mem_cons.1 hq with rfl | hq
        · exact ⟨by rw [hlo.lk]; exact hv' le_rfl, by rw [hlo.bt.last]; exact hv' ga.br⟩
        · exact h1 q hq) R1' (ty := .merge) (by simp) none limbs'
  have R2' : Rep ch2 ((A ++ A') ++ (lo :: up :: opens (C1 ++ C2))) d := R2.perm
    (by
      rw [show A' ++ up :: (A ++ lo :: opens (C1 ++ C2)) = A' ++ ([up] ++ (A ++ ([lo] ++ opens (C1 ++ C2)))) by simp,
        show A ++ A' ++ lo :: up :: opens (C1 ++ C2) = A ++ (A' ++ ([lo] ++ ([up] ++ opens (C1 ++ C2)))) by simp]
      refine List.Perm.trans ?_ (List.perm_append_comm_assoc A' A _)
      refine List.Perm.append_left _ ?_
      refine (List.perm_append_comm_assoc [up] A _).trans (List.Perm.append_left _ ?_)
      exact List.perm_append_comm_assoc _ _ _) (List.Perm.refl _)
  have hAA : Closed n ed v (A ++ A') := by
    intro p hp
    rcases List.mem_append.1 hp with hp | hp
    · exact hA p hp
    · exact hA' p hp
  have l1 : lo.B.getLast? ≠ some v := by
    rw [hlo.bt.last]; intro h; exact hrb (Option.some.inj h)
  have l2 : up.T.getLast? ≠ some v := by
    rw [hup.tp.last]; intro h; exact hrt (Option.some.inj h)
  obtain ⟨ch3, e3, R3⟩ := R2'.reduce_close dbg (v := v) (fun p hp => (hAA p hp).2) (by
      intro p hp hc
      rcases List.mem_cons.1 hp with rfl | hp
      · exact l1 hc.2
      · rcases List.mem_cons.1 hp with rfl | hp
        · exact l2 hc.1
        · exact nl.open_ p hp hc)
    (by
      rw [looksCount_append, count_two hlo.lk l1 l2 hup.lk nl]
      have := hAA.count
      omega)
  refine ⟨ch3, C1 ++ [(⟨g.b, g'.t, v, true⟩, [lo, up])] ++ C2, (A ++ A') ++ d, [] ++ S, ?_,
    X.hC.local X.hv X.others (by simpa using R3) ?_ (fun p hp => (hAA p hp).1) (by simp) ?_ ?_, by simp⟩
  · rw [fold_append dbg _ e1, e2]
    exact e3
  · intro c hc
    rw [List.mem_singleton] at hc
    subst hc
    refine .inr ⟨rfl, lo, up, rfl, ⟨hlo.ok, hup.ok, hup.tp, hlo.bt, hlo.lk, hup.lk, hlo.tl, hup.tl, hlo.ab, hup.ab, ?_, ?_⟩⟩
    · exact ga.det_b_pos X.E et hrb
    · exact ga'.det_t_neg X.E eb hrt
  · intro k
    refine iff_of_false (by simp) ?_
    rintro ⟨k1, k2, k3⟩
    have := X.E.lt k k1 k2
    rcases hE k k1 k2 (.inl k3.symm) with rfl | rfl
    · rw [et, k3] at this; exact lt_irrefl _ this
    · rw [eb, k3] at this; exact lt_irrefl _ this
  · intro f
    have h1 := hf f
    have h2 := hf' f
    simp only [opens_nil, tot_nil, opens_cons, List.append_nil, edgeSum_nil, tot_append, tot_cons]
    linear_combination h1 + h2

theorem not_endsIn {l : List (Pt K)} {a b c : Pt K} (h : l.getLast? = some c) (hc : c ≠ b) : ¬ EndsIn l a b := by
  intro he
  rw [he.last] at h
  exact hc (Option.some.inj h).symm

theorem NoLook.endsIn {O : List (Piece K)} (h : NoLook v O) (a : Pt K) : ∀ q ∈ O, ¬ EndsIn q.T a v ∧ ¬ EndsIn q.B a v := fun q hq =>
  ⟨fun he => (h q hq).1 he.last, fun he => (h q hq).2 he.last⟩

theorem aboveTo_snocT {T B : List (Pt K)} {r : Pt K} (hl : T.getLast? = some v) (h : AboveTo v T B) : AboveTo v (T ++ [r]) B := by
  intro x hx hP
  rcases (wpass_snoc hl r).1 hP with hP | hP
  · exact h x hx hP
  · exact absurd hP.1 (_root_.lt_asymm hx)

theorem aboveTo_snocB {T B : List (Pt K)} {r : Pt K} (hl : B.getLast? = some v) (h : AboveTo v T B) : AboveTo v T (B ++ [r]) := by
  intro x hx hP
  exact (pass_snoc hl r).2 (.inl (h x hx hP))

theorem Ctx.contTop {g : Gap K} {ps : List (Piece K)} (X : Ctx n ed top u v C1 [(g, ps)] C2 d S chains) (dbg : Bool) {j : Nat}
    (rj : 1 ≤ j ∧ j ≤ n) (ej : (ed j).1 = v) (et : (ed g.t).2 = v) (hj : top j = true) (limbs : Option (Pt K × Pt K)) (w : Winding) :
    Stepped n ed top dbg v chains .cont ((if g.mg then [.merge g.h v limbs] else []) ++ [.cont (ed g.t).1 v (ed j).2 w])
      (C1.map Prod.fst ++ ⟨g.b, j, v, false⟩ :: C2.map Prod.fst) := by
  have gm : (g, ps) ∈ C1 ++ [(g, ps)] ++ C2 := by simp
  have ga := X.gapAt gm
  have go := X.gok gm
  have lj := X.E.lt j rj.1 rj.2
  rw [ej] at lj
  have hjt : g.t ≠ j := by
    rintro rfl
    rw [et] at lj; exact lt_irrefl _ lj
  have hE : ∀ k, 1 ≤ k → k ≤ n → EndOf (ed k) v → k = g.t ∨ k = j := fun k k1 k2 hk =>
    X.E.two_ends ⟨ga.t1, ga.t2⟩ rj hjt (.inr et.symm) (.inl ej.symm) k1 k2 hk
  have hR : ∀ k, 1 ≤ k → k ≤ n → (ed k).2 = v → k = g.t := by
    intro k k1 k2 hk
    rcases hE k k1 k2 (.inr hk.symm) with h | rfl
    · exact h
    · rw [hk] at lj; exact absurd lj (lt_irrefl _)
  have nl := X.noLook_v (fun k k1 k2 hk => by rw [hR k k1 k2 hk]; simp)
  have hrb : (ed g.b).2 ≠ v := fun h => ga.ne (hR _ ga.b1 ga.b2 h)
  have hN : ∀ k, k ∈ [j] ↔ 1 ≤ k ∧ k ≤ n ∧ (ed k).1 = v := by
    intro k
    rw [List.mem_singleton]
    constructor
    · rintro rfl; exact ⟨rj.1, rj.2, ej⟩
    · rintro ⟨k1, k2, k3⟩
      rcases hE k k1 k2 (.inl k3.symm) with rfl | h
      · have := ga.tl
        rw [k3] at this; exact absurd this (lt_irrefl _)
      · exact h
  have R := X.hC.rep'
  rw [opens_cons, opens_nil, List.append_nil] at R
  rcases X.cell gm with ⟨m, p, e, hp⟩ | ⟨m, lo, up, e, hp⟩ <;> simp only at m e
  · subst e
    replace R : Rep chains (p :: opens (C1 ++ C2)) d := R
    have hTv : p.T.getLast? = some v := et ▸ hp.tp.last
    obtain ⟨ch1, e1, R1⟩ := R.cont_top (v := v) dbg .cont none w (a := (ed g.t).1) (r := (ed j).2) (by have := hp.tp; rwa [et] at this)
      (not_endsIn hp.bt.last hrb) (nl.endsIn _)
    have e2 := R1.reduce_cont_none dbg v p.ti (by
      rw [looksCount_cons, nl.count, if_neg (by simpa using lj.ne'), if_neg (by rw [hp.bt.last]; simpa using hrb)])
    refine ⟨ch1, C1 ++ [(⟨g.b, j, v, false⟩, [⟨p.ti, p.bi, p.T ++ [(ed j).2], p.B⟩])] ++ C2, [] ++ d, [j] ++ S, ?_,
      X.hC.local X.hv X.others (by simpa using R1) ?_ (by simp) (by simp) hN ?_, by simp⟩
    · rw [m]
      simp only [Bool.false_eq_true, if_false, List.nil_append]
      rw [fold_one dbg _ e1]
      exact e2
    · intro c hc
      rw [List.mem_singleton] at hc
      subst hc
      refine .inl ⟨rfl, _, rfl, ⟨hp.ok.incT.snoc hTv lj, hp.ok.incB, ?_, hp.ok.goodT.snoc hTv (X.E.good' rj ej), hp.ok.goodB⟩, ?_, hp.bt, aboveTo_snocT hTv hp.above, fun h => absurd (h.trans ej) (go.leftB.trans_lt ga.hl).ne⟩
      · rw [head_snoc hTv]; exact hp.ok.head
      · simp only [ej]; exact EndsIn.snoc hTv _
    · intro f
      simp only [opens_cons, opens_nil, tot_nil, List.append_nil, tot_cons, wt_snoc f hTv, edgeSum_t f hj, edgeSum_nil, edge_eq ej, val]
      ring
  · subst e
    replace R : Rep chains (lo :: up :: opens (C1 ++ C2)) d := R
    have hTv : up.T.getLast? = some v := et ▸ hp.tp.last
    have hne : ∀ {x : Pt K}, v ≤ x → (some x : Option (Pt K)) ≠ some g.h := by
      intro x hx h
      exact absurd ga.hl (not_lt.2 (Option.some.inj h ▸ hx))
    obtain ⟨ch1, e1, R1⟩ := R.merge' (v := v) dbg (ty := .cont) (by simp) none limbs hp.lkT (by rw [hp.bt.last]; exact hne ga.br)
      (by rw [hp.tp.last]; exact hne ga.tr) hp.lkB (X.noLook_h (g := (g, [lo, up])) (by simp) m)
    have hht : g.h ≠ (ed g.t).1 := fun h => go.merged m _ ga.t1 ga.t2 h.symm
    have R1' := R1.perm (List.Perm.swap _ _ _) (List.Perm.refl _)
    obtain ⟨ch2, e2, R2⟩ := R1'.cont_top (v := v) dbg .cont none w (a := (ed g.t).1) (r := (ed j).2) (by have := hp.tp; rwa [et] at this)
      (fun h => hht ((EndsIn.snoc hp.lkB v).unique h).1) (by
        intro q hq
        rcases List.mem_cons.1 hq with rfl | hq
        · exact ⟨fun h => hht ((EndsIn.snoc hp.lkT v).unique h).1, not_endsIn hp.bt.last hrb⟩
        · exact nl.endsIn _ q hq)
    obtain ⟨ch3, e3, R3⟩ := R2.reduce_cont_top (v := v) dbg (T := up.T) (r := (ed j).2) rfl hTv (by simp) (by simp) (by
      rw [looksCount_cons, looksCount_cons, nl.count, if_neg (by simpa using lj.ne'), if_pos (by simp), if_pos (by simp),
        if_neg (by rw [hp.bt.last]; simpa using hrb)])
    have iu := hp.oku.incB.snoc hp.lkB ga.hl
    have il := hp.okl.incT.snoc hp.lkT ga.hl
    have lv : (lo.T ++ [v]).getLast? = some v := by simp
    have gd := hp.good go X.hv ga (ga.det_b X.E et) (by rw [← et, det_right])
    refine ⟨ch3, C1 ++ [(⟨g.b, j, v, false⟩, [⟨lo.ti, lo.bi, (lo.T ++ [v]) ++ [(ed j).2], lo.B⟩])] ++ C2,
      [⟨up.ti, up.bi, up.T, up.B ++ [v]⟩] ++ d, [j] ++ S, ?_,
      X.hC.local X.hv X.others (by simpa using R3) ?_ ?_ (by simp) hN ?_, by simp⟩
    · rw [m]
      simp only [if_true]
      rw [fold_append dbg _ (fold_one dbg _ e1), fold_one dbg _ e2]
      exact e3
    · intro c hc
      rw [List.mem_singleton] at hc
      subst hc
      refine .inl ⟨rfl, _, rfl, ⟨il.snoc lv lj, hp.okl.incB, ?_, (hp.okl.goodT.snoc hp.lkT gd).snoc lv (X.E.good' rj ej), hp.okl.goodB⟩, ?_, hp.bt, aboveTo_snocT lv (hp.lo_above go.leftB ga.br (ga.det_b X.E et)),
        fun h => absurd (h.trans ej) (go.leftB.trans_lt ga.hl).ne⟩
      · rw [head_snoc lv, head_snoc hp.lkT]; exact hp.okl.head
      · simp only [ej]; exact EndsIn.snoc lv _
    · intro q hq
      rw [List.mem_singleton] at hq
      subst hq
      refine ⟨⟨hp.oku.incT, iu, ?_, hp.oku.goodT, hp.oku.goodB.snoc hp.lkB gd⟩, by simp [hTv], hp.tp.length, ?_, hp.up_full ga et⟩
      · rw [head_snoc hp.lkB]; exact hp.oku.head
      · intro x hne hx
        exact hp.up_above go.leftT ga.tr (by rw [← et, det_right]) x (lt_of_le_of_ne (wpass_le hp.oku.incT hTv hx) fun e => hne (e ▸ hTv)) hx
    · intro f
      simp only [opens_cons, opens_nil, tot_nil, List.append_nil, tot_cons, wt_snoc f lv, wt_snoc f hp.lkT, wt_snoc f hp.lkB,
        edgeSum_t f hj, edgeSum_nil, edge_eq ej, val]
      ring

theorem Ctx.contBot {g : Gap K} {ps : List (Piece K)} (X : Ctx n ed top u v C1 [(g, ps)] C2 d S chains) (dbg : Bool) {j : Nat}
    (rj : 1 ≤ j ∧ j ≤ n) (ej : (ed j).1 = v) (eb : (ed g.b).2 = v) (hj : top j = false) (limbs : Option (Pt K × Pt K)) (w : Winding) :
    Stepped n ed top dbg v chains .cont ((if g.mg then [.merge g.h v limbs] else []) ++ [.cont (ed g.b).1 v (ed j).2 w])
      (C1.map Prod.fst ++ ⟨j, g.t, v, false⟩ :: C2.map Prod.fst) := by
  have gm : (g, ps) ∈ C1 ++ [(g, ps)] ++ C2 := by simp
  have ga := X.gapAt gm
  have go := X.gok gm
  have lj := X.E.lt j rj.1 rj.2
  rw [ej] at lj
  have hjb : g.b ≠ j := by
    rintro rfl
    rw [eb] at lj; exact lt_irrefl _ lj
  have hE : ∀ k, 1 ≤ k → k ≤ n → EndOf (ed k) v → k = g.b ∨ k = j := fun k k1 k2 hk =>
    X.E.two_ends ⟨ga.b1, ga.b2⟩ rj hjb (.inr eb.symm) (.inl ej.symm) k1 k2 hk
  have hR : ∀ k, 1 ≤ k → k ≤ n → (ed k).2 = v → k = g.b := by
    intro k k1 k2 hk
    rcases hE k k1 k2 (.inr hk.symm) with h | rfl
    · exact h
    · rw [hk] at lj; exact absurd lj (lt_irrefl _)
  have nl := X.noLook_v (fun k k1 k2 hk => by rw [hR k k1 k2 hk]; simp)
  have hrt : (ed g.t).2 ≠ v := fun h => ga.ne (hR _ ga.t1 ga.t2 h).symm
  have hN : ∀ k, k ∈ [j] ↔ 1 ≤ k ∧ k ≤ n ∧ (ed k).1 = v := by
    intro k
    rw [List.mem_singleton]
    constructor
    · rintro rfl; exact ⟨rj.1, rj.2, ej⟩
    · rintro ⟨k1, k2, k3⟩
      rcases hE k k1 k2 (.inl k3.symm) with rfl | h
      · have := ga.bl
        rw [k3] at this; exact absurd this (lt_irrefl _)
      · exact h
  have R := X.hC.rep'
  rw [opens_cons, opens_nil, List.append_nil] at R
  rcases X.cell gm with ⟨m, p, e, hp⟩ | ⟨m, lo, up, e, hp⟩ <;> simp only at m e
  · subst e
    replace R : Rep chains (p :: opens (C1 ++ C2)) d := R
    have hBv : p.B.getLast? = some v := eb ▸ hp.bt.last
    obtain ⟨ch1, e1, R1⟩ := R.cont_bot (v := v) dbg .cont none w (a := (ed g.b).1) (r := (ed j).2) (by have := hp.bt; rwa [eb] at this)
      (not_endsIn hp.tp.last hrt) (nl.endsIn _)
    have e2 := R1.reduce_cont_none dbg v p.bi (by
      rw [looksCount_cons, nl.count, if_neg (by rw [hp.tp.last]; simpa using hrt), if_neg (by simpa using lj.ne')])
    refine ⟨ch1, C1 ++ [(⟨j, g.t, v, false⟩, [⟨p.ti, p.bi, p.T, p.B ++ [(ed j).2]⟩])] ++ C2, [] ++ d, [j] ++ S, ?_,
      X.hC.local X.hv X.others (by simpa using R1) ?_ (by simp) (by simp) hN ?_, by simp⟩
    · rw [m]
      simp only [Bool.false_eq_true, if_false, List.nil_append]
      rw [fold_one dbg _ e1]
      exact e2
    · intro c hc
      rw [List.mem_singleton] at hc
      subst hc
      refine .inl ⟨rfl, _, rfl, ⟨hp.ok.incT, hp.ok.incB.snoc hBv lj, ?_, hp.ok.goodT, hp.ok.goodB.snoc hBv (X.E.good' rj ej)⟩, hp.tp, ?_, aboveTo_snocB hBv hp.above,
        fun h => absurd (h.symm.trans ej) (go.leftT.trans_lt ga.hl).ne⟩
      · rw [head_snoc hBv]; exact hp.ok.head
      · simp only [ej]; exact EndsIn.snoc hBv _
    · intro f
      simp only [opens_cons, opens_nil, tot_nil, List.append_nil, tot_cons, wt_snoc f hBv, edgeSum_b f hj, edgeSum_nil, edge_eq ej, val]
      ring
  · subst e
    replace R : Rep chains (lo :: up :: opens (C1 ++ C2)) d := R
    have hBv : lo.B.getLast? = some v := eb ▸ hp.bt.last
    have hne : ∀ {x : Pt K}, v ≤ x → (some x : Option (Pt K)) ≠ some g.h := by
      intro x hx h
      exact absurd ga.hl (not_lt.2 (Option.some.inj h ▸ hx))
    obtain ⟨ch1, e1, R1⟩ := R.merge' (v := v) dbg (ty := .cont) (by simp) none limbs hp.lkT (by rw [hp.bt.last]; exact hne ga.br)
      (by rw [hp.tp.last]; exact hne ga.tr) hp.lkB (X.noLook_h (g := (g, [lo, up])) (by simp) m)
    have hhb : g.h ≠ (ed g.b).1 := fun h => go.merged m _ ga.b1 ga.b2 h.symm
    obtain ⟨ch2, e2, R2⟩ := R1.cont_bot (v := v) dbg .cont none w (a := (ed g.b).1) (r := (ed j).2) (by have := hp.bt; rwa [eb] at this)
      (fun h => hhb ((EndsIn.snoc hp.lkT v).unique h).1) (by
        intro q hq
        rcases List.mem_cons.1 hq with rfl | hq
        · exact ⟨not_endsIn hp.tp.last hrt, fun h => hhb ((EndsIn.snoc hp.lkB v).unique h).1⟩
        · exact nl.endsIn _ q hq)
    obtain ⟨ch3, e3, R3⟩ := R2.reduce_cont_bot (v := v) dbg (B := lo.B) (r := (ed j).2) rfl hBv (by simp) (by simp) (by
      rw [looksCount_cons, looksCount_cons, nl.count, if_pos (by simp), if_neg (by simpa using lj.ne'),
        if_neg (by rw [hp.tp.last]; simpa using hrt), if_pos (by simp)])
    have iu := hp.oku.incB.snoc hp.lkB ga.hl
    have il := hp.okl.incT.snoc hp.lkT ga.hl
    have lv : (up.B ++ [v]).getLast? = some v := by simp
    have gd := hp.good go X.hv ga (by rw [← eb, det_right]) (ga.det_t X.E eb)
    refine ⟨ch3, C1 ++ [(⟨j, g.t, v, false⟩, [⟨up.ti, up.bi, up.T, (up.B ++ [v]) ++ [(ed j).2]⟩])] ++ C2,
      [⟨lo.ti, lo.bi, lo.T ++ [v], lo.B⟩] ++ d, [j] ++ S, ?_,
      X.hC.local X.hv X.others (by simpa using R3) ?_ ?_ (by simp) hN ?_, by simp⟩
    · rw [m]
      simp only [if_true]
      rw [fold_append dbg _ (fold_one dbg _ e1), fold_one dbg _ e2]
      exact e3
    · intro c hc
      rw [List.mem_singleton] at hc
      subst hc
      refine .inl ⟨rfl, _, rfl, ⟨hp.oku.incT, iu.snoc lv lj, ?_, hp.oku.goodT, (hp.oku.goodB.snoc hp.lkB gd).snoc lv (X.E.good' rj ej)⟩, hp.tp, ?_, aboveTo_snocB lv (hp.up_above go.leftT ga.tr (ga.det_t X.E eb)),
        fun h => absurd (h.symm.trans ej) (go.leftT.trans_lt ga.hl).ne⟩
      · rw [head_snoc lv, head_snoc hp.lkB]; exact hp.oku.head
      · simp only [ej]; exact EndsIn.snoc lv _
    · intro q hq
      rw [List.mem_singleton] at hq
      subst hq
      refine ⟨⟨il, hp.okl.incB, ?_, hp.okl.goodT.snoc hp.lkT gd, hp.okl.goodB⟩, by simp [hBv], (EndsIn.snoc hp.lkT v).length, ?_, hp.lo_full ga eb⟩
      · rw [head_snoc hp.lkT]; exact hp.okl.head
      · intro x hne hx
        exact hp.lo_above go.leftB ga.br (by rw [← eb, det_right]) x (lt_of_le_of_ne (wpass_le il (by simp) hx) fun e => hne (by simp [e])) hx
    · intro f
      simp only [opens_cons, opens_nil, tot_nil, List.append_nil, tot_cons, wt_snoc f lv, wt_snoc f hp.lkT, wt_snoc f hp.lkB,
        edgeSum_b f hj, edgeSum_nil, edge_eq ej, val]
      ring

/-! ## Split vertices -/

theorem CellOk.kindT {c : Cell K} (hc : CellOk n ed top w c) {p : Piece K} (hp : p ∈ c.2) :
    (c.2.getLast? = some p ∧ EndsIn p.T (ed c.1.t).1 (ed c.1.t).2) ∨
    (c.1.mg = true ∧ c.2.head? = some p ∧ p.T.getLast? = some c.1.h ∧ Tail n ed top true p.T) := by
  rcases hc with ⟨m, q, e, hq⟩ | ⟨m, lo, up, e, hq⟩
  · rw [e, List.mem_singleton] at hp
    subst hp
    exact .inl ⟨by rw [e]; rfl, hq.tp⟩
  · rw [e] at hp
    simp only [List.mem_cons, List.not_mem_nil, or_false] at hp
    rcases hp with rfl | rfl
    · exact .inr ⟨m, by rw [e]; rfl, hq.lkT, hq.tlT⟩
    · exact .inl ⟨by rw [e]; rfl, hq.tp⟩

theorem CellOk.kindB {c : Cell K} (hc : CellOk n ed top w c) {p : Piece K} (hp : p ∈ c.2) :
    (c.2.head? = some p ∧ EndsIn p.B (ed c.1.b).1 (ed c.1.b).2) ∨
    (c.1.mg = true ∧ c.2.getLast? = some p ∧ p.B.getLast? = some c.1.h ∧ Tail n ed top false p.B) := by
  rcases hc with ⟨m, q, e, hq⟩ | ⟨m, lo, up, e, hq⟩
  · rw [e, List.mem_singleton] at hp
    subst hp
    exact .inl ⟨by rw [e]; rfl, hq.bt⟩
  · rw [e] at hp
    simp only [List.mem_cons, List.not_mem_nil, or_false] at hp
    rcases hp with rfl | rfl
    · exact .inl ⟨by rw [e]; rfl, hq.bt⟩
    · exact .inr ⟨m, by rw [e]; rfl, hq.lkB, hq.tlB⟩

theorem pairwise_inj {α : Type _} {P : α → α → Prop} {l : List α} (hs : ∀ a b, P a b → P b a) (h : l.Pairwise P) {a b : α} (ha : a ∈ l) (hb : b ∈ l)
    (hn : ¬ P a b) : a = b := by
  by_contra hne
  have hs' : Std.Symm P := ⟨hs⟩
  exact hn (h.forall ha hb hne)

theorem Ctx.cell_t (X : Ctx n ed top u v C1 Cm C2 d S chains) {c c' : Cell K} (hc : c ∈ C1 ++ Cm ++ C2) (hc' : c' ∈ C1 ++ Cm ++ C2)
    (h : c.1.t = c'.1.t) : c = c' := by
  have := (List.nodup_flatMap.1 X.nodup).2
  rw [List.pairwise_map] at this
  refine pairwise_inj (P := fun a b : Cell K => a.1.t ≠ b.1.t) (fun a b h => h.symm) (this.imp ?_) hc hc' (by simp [h])
  intro a b hab e
  exact hab (a := a.1.t) (by simp) (by simp [e])

theorem Ctx.cell_b (X : Ctx n ed top u v C1 Cm C2 d S chains) {c c' : Cell K} (hc : c ∈ C1 ++ Cm ++ C2) (hc' : c' ∈ C1 ++ Cm ++ C2)
    (h : c.1.b = c'.1.b) : c = c' := by
  have := (List.nodup_flatMap.1 X.nodup).2
  rw [List.pairwise_map] at this
  refine pairwise_inj (P := fun a b : Cell K => a.1.b ≠ b.1.b) (fun a b h => h.symm) (this.imp ?_) hc hc' (by simp [h])
  intro a b hab e
  exact hab (a := a.1.b) (by simp) (by simp [e])

theorem Ctx.cell_h (X : Ctx n ed top u v C1 Cm C2 d S chains) {c c' : Cell K} (hc : c ∈ C1 ++ Cm ++ C2) (hc' : c' ∈ C1 ++ Cm ++ C2)
    (m : c.1.mg = true) (m' : c'.1.mg = true) (h : c.1.h = c'.1.h) : c = c' := by
  have := X.hI.diff
  rw [List.pairwise_map] at this
  refine pairwise_inj (P := fun a b : Cell K => Diff a.1 b.1) (fun a b h m m' e => h m' m e.symm) this hc hc' ?_
  intro hd
  exact hd m m' h

/-- The edge on which a chain from the left end of an edge lies. -/
theorem Ctx.edgeT (X : Ctx n ed top u v C1 Cm C2 d S chains) {q : Piece K} {x : Pt K} (hq : q ∈ opens (C1 ++ Cm ++ C2)) (hx : Curr q.T x)
    (hk : ∃ k, 1 ≤ k ∧ k ≤ n ∧ (ed k).1 = x) : ∃ y, 1 ≤ y ∧ y ≤ n ∧ top y = true ∧ (ed y).1 = x ∧ EndsIn q.T x (ed y).2 ∧
      ∃ c ∈ C1 ++ Cm ++ C2, (c.2.getLast? = some q ∧ c.1.t = y) ∨ (c.1.mg = true ∧ c.2.head? = some q ∧ c.1.h = (ed y).2) := by
  obtain ⟨c, hc, hq⟩ := List.mem_flatMap.1 hq
  obtain ⟨r, hr⟩ := hx
  have ha := X.gapAt hc
  rcases (X.cell hc).kindT hq with ⟨h1, h2⟩ | ⟨m, h1, h2, h3⟩
  · obtain ⟨e1, e2⟩ := h2.unique hr
    exact ⟨c.1.t, ha.t1, ha.t2, (X.gok hc).labT, e1, e1 ▸ h2, c, hc, .inl ⟨h1, rfl⟩⟩
  · rcases h3 with ⟨y, y1, y2, y3, y4⟩ | ⟨a, b, h4, h5⟩
    · obtain ⟨e1, e2⟩ := y4.unique hr
      refine ⟨y, y1, y2, y3, e1, e1 ▸ y4, c, hc, .inr ⟨m, h1, ?_⟩⟩
      rw [y4.last] at h2
      exact (Option.some.inj h2).symm
    · obtain ⟨k, k1, k2, k3⟩ := hk
      exact absurd (k3.trans (h4.unique hr).1.symm) (h5 k k1 k2)

theorem Ctx.edgeB (X : Ctx n ed top u v C1 Cm C2 d S chains) {q : Piece K} {x : Pt K} (hq : q ∈ opens (C1 ++ Cm ++ C2)) (hx : Curr q.B x)
    (hk : ∃ k, 1 ≤ k ∧ k ≤ n ∧ (ed k).1 = x) : ∃ y, 1 ≤ y ∧ y ≤ n ∧ top y = false ∧ (ed y).1 = x ∧ EndsIn q.B x (ed y).2 ∧
      ∃ c ∈ C1 ++ Cm ++ C2, (c.2.head? = some q ∧ c.1.b = y) ∨ (c.1.mg = true ∧ c.2.getLast? = some q ∧ c.1.h = (ed y).2) := by
  obtain ⟨c, hc, hq⟩ := List.mem_flatMap.1 hq
  obtain ⟨r, hr⟩ := hx
  have ha := X.gapAt hc
  rcases (X.cell hc).kindB hq with ⟨h1, h2⟩ | ⟨m, h1, h2, h3⟩
  · obtain ⟨e1, e2⟩ := h2.unique hr
    exact ⟨c.1.b, ha.b1, ha.b2, (X.gok hc).labB, e1, e1 ▸ h2, c, hc, .inl ⟨h1, rfl⟩⟩
  · rcases h3 with ⟨y, y1, y2, y3, y4⟩ | ⟨a, b, h4, h5⟩
    · obtain ⟨e1, e2⟩ := y4.unique hr
      refine ⟨y, y1, y2, y3, e1, e1 ▸ y4, c, hc, .inr ⟨m, h1, ?_⟩⟩
      rw [y4.last] at h2
      exact (Option.some.inj h2).symm
    · obtain ⟨k, k1, k2, k3⟩ := hk
      exact absurd (k3.trans (h4.unique hr).1.symm) (h5 k k1 k2)

theorem Ctx.uniqueT (X : Ctx n ed top u v C1 Cm C2 d S chains) {x : Pt K} (hk : ∃ k, 1 ≤ k ∧ k ≤ n ∧ (ed k).1 = x) {q q' : Piece K}
    (hq : q ∈ opens (C1 ++ Cm ++ C2)) (hq' : q' ∈ opens (C1 ++ Cm ++ C2)) (hx : Curr q.T x) (hx' : Curr q'.T x) : q = q' := by
  obtain ⟨y, y1, y2, y3, y4, -, c, hc, h⟩ := X.edgeT hq hx hk
  obtain ⟨y', z1, z2, z3, z4, -, c', hc', h'⟩ := X.edgeT hq' hx' hk
  have e : y = y' := by
    by_contra hne
    exact X.E.ll y y' y1 y2 z1 z2 hne (y4.trans z4.symm) (y3.trans z3.symm)
  subst e
  rcases h with ⟨h1, h2⟩ | ⟨m, h1, h2⟩ <;> rcases h' with ⟨h1', h2'⟩ | ⟨m', h1', h2'⟩
  · have := X.cell_t hc hc' (h2.trans h2'.symm)
    subst this
    exact Option.some.inj (h1.symm.trans h1')
  · exact absurd (X.gapAt hc').hl (not_lt.2 (by rw [h2', ← h2]; exact (X.gapAt hc).tr))
  · exact absurd (X.gapAt hc).hl (not_lt.2 (by rw [h2, ← h2']; exact (X.gapAt hc').tr))
  · have := X.cell_h hc hc' m m' (h2.trans h2'.symm)
    subst this
    exact Option.some.inj (h1.symm.trans h1')

theorem Ctx.uniqueB (X : Ctx n ed top u v C1 Cm C2 d S chains) {x : Pt K} (hk : ∃ k, 1 ≤ k ∧ k ≤ n ∧ (ed k).1 = x) {q q' : Piece K}
    (hq : q ∈ opens (C1 ++ Cm ++ C2)) (hq' : q' ∈ opens (C1 ++ Cm ++ C2)) (hx : Curr q.B x) (hx' : Curr q'.B x) : q = q' := by
  obtain ⟨y, y1, y2, y3, y4, -, c, hc, h⟩ := X.edgeB hq hx hk
  obtain ⟨y', z1, z2, z3, z4, -, c', hc', h'⟩ := X.edgeB hq' hx' hk
  have e : y = y' := by
    by_contra hne
    exact X.E.ll y y' y1 y2 z1 z2 hne (y4.trans z4.symm) (y3.trans z3.symm)
  subst e
  rcases h with ⟨h1, h2⟩ | ⟨m, h1, h2⟩ <;> rcases h' with ⟨h1', h2'⟩ | ⟨m', h1', h2'⟩
  · have := X.cell_b hc hc' (h2.trans h2'.symm)
    subst this
    exact Option.some.inj (h1.symm.trans h1')
  · exact absurd (X.gapAt hc').hl (not_lt.2 (by rw [h2', ← h2]; exact (X.gapAt hc).br))
  · exact absurd (X.gapAt hc).hl (not_lt.2 (by rw [h2, ← h2']; exact (X.gapAt hc').br))
  · have := X.cell_h hc hc' m m' (h2.trans h2'.symm)
    subst this
    exact Option.some.inj (h1.symm.trans h1')

theorem ccw_iff {x y z : Pt K} : orient2d x y z = .counterClockwise ↔ 0 < det y z x := by
  rw [orient2d_ccw, ← det_rot]

end GeoCrossings.Monotone
