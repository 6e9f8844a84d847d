import Verif.Lemmas.LamSweep

/-! # The loop of `assemble`, as steps of a column of edges -/
set_option linter.unusedSectionVars false
namespace GeoCrossings
open Spec

variable {K : Type} [Field K] [LinearOrder K] [IsStrictOrderedRing K]
variable {org : Nat → Pt K} {geom : Nat → LineOrPoint K} {isFirst : Nat → Bool} {input : List Nat}
variable {pos pt : Pt K} {st st' : Sweep K Nat} {X X' : Abs K Nat}

/-- The debug assertion of laminar.rs:66 holds for an edge of the ring, when it is visited. -/
def Laminar.Match (isHole : Nat → Bool) (r : Nat) (b : Option Nat) : Prop := ∀ y, b = some y → isHole r = false → r = y

/-- The sorted batch: first the starting edges, from below. -/
theorem lam_sorted {out : Out K Nat} {L0 E0 U0 L E U S D1 : List (Grp K Nat)} {T : List (Out K Nat)}
    (h : Shape pt X X' out L0 E0 U0 L E U S D1 T) (hty : ∀ o ∈ out, o.2 = .lineLeft ∨ o.2 = .lineRight)
    (hone : ∀ g ∈ S, g.mem.length = 1) (srt : List (Crossing K Nat) → List (Crossing K Nat)) :
    ∃ B R, sortBy Laminar.compareCrossings srt (batchOf out) = some (B ++ R) ∧ (∀ c ∈ B, c.atLeft = true) ∧ (∀ c ∈ R, c.atLeft = false) ∧
      List.Forall₂ (fun g c => g.mem = [(c.key, c.crossable)]) S B ∧ (B ++ R).Perm (batchOf out) := by
  obtain ⟨RE, RS, h1, h2, h3, h4, h5⟩ := batch_blocks h hty
  obtain ⟨c1, c2⟩ := blocks_cmp h2 h3 (fun g hg => (h.endE g hg).1) h.startS h.ordE h.ordS
  rw [List.pairwise_append] at c2
  have aE : ∀ c ∈ RE.flatten, c.atLeft = false := by
    intro c hc
    obtain ⟨t, ht, hc⟩ := List.mem_flatten.1 hc
    obtain ⟨g, hg, hgt⟩ := forall₂_mem_right' h2 ht
    exact (hgt.all c hc).1
  have aS : ∀ t ∈ RS, ∀ c ∈ t, c.atLeft = true := by
    intro t ht c hc
    obtain ⟨g, hg, hgt⟩ := forall₂_mem_right' h3 ht
    exact (hgt.all c hc).1
  have same : ∀ a b : Crossing K Nat, a.atLeft = true → b.atLeft = true → Laminar.compareCrossings a b = BoolOp.compareCrossings a b := by
    intro a b ha hb
    unfold Laminar.compareCrossings BoolOp.compareCrossings
    rw [ha, hb]
  have d1 : ∀ s ∈ RS ++ [RE.flatten], ∀ a ∈ s, ∀ b ∈ s, Laminar.compareCrossings a b = some .eq := by
    intro s hs a ha b hb
    rcases List.mem_append.1 hs with hs | hs
    · rw [same a b (aS s hs a ha) (aS s hs b hb)]
      exact c1 s (by simp [hs]) a ha b hb
    · rw [List.mem_singleton] at hs; subst hs
      unfold Laminar.compareCrossings
      rw [aE a ha, aE b hb]
  have d2 : (RS ++ [RE.flatten]).Pairwise (fun s r => ∀ a ∈ s, ∀ b ∈ r, Laminar.compareCrossings a b = some .lt ∧ Laminar.compareCrossings b a = some .gt) := by
    rw [List.pairwise_append]
    refine ⟨c2.2.1.imp_of_mem ?_, by simp, ?_⟩
    · intro s r hs hr hsr a ha b hb
      rw [same a b (aS s hs a ha) (aS r hr b hb), same b a (aS r hr b hb) (aS s hs a ha)]
      exact hsr a ha b hb
    · intro s hs r hr a ha b hb
      rw [List.mem_singleton] at hr; subst hr
      unfold Laminar.compareCrossings
      rw [aS s hs a ha, aE b hb]
      exact ⟨rfl, rfl⟩
  have hp : (batchOf out).Perm (RS ++ [RE.flatten]).flatten := by
    refine h1.trans ?_
    simp only [List.flatten_append, List.flatten_cons, List.flatten_nil, List.append_nil]
    exact List.perm_append_comm
  obtain ⟨idx, hidx⟩ := blocks_idx d1 d2
  obtain ⟨l', s1, s2, s3, -⟩ := sortBy_spec (srt := srt) (idx := idx) (l := batchOf out)
    (fun x hx y hy => hidx x (hp.mem_iff.1 hx) y (hp.mem_iff.1 hy))
  obtain ⟨Bl', rfl, hB⟩ := sorted_blocks (s2.trans hp) s3 (d2.imp fun hab a ha b hb => by rw [(hab a ha b hb).2]; simp)
  obtain ⟨RS', RR, rfl, hS', hR'⟩ := forall₂_split_append hB
  cases hR' with
  | @cons _ R _ _ hR hnil =>
  cases hnil
  refine ⟨RS'.flatten, R, ?_, ?_, ?_, ?_, ?_⟩
  · rw [s1]; simp
  · intro c hc
    obtain ⟨t, ht, hc⟩ := List.mem_flatten.1 hc
    obtain ⟨s, hs, hst⟩ := forall₂_mem_right' hS' ht
    exact aS s hs c (hst.mem_iff.1 hc)
  · intro c hc
    exact aE c (hR.mem_iff.1 hc)
  · have h6 : List.Forall₂ (fun g t => ∃ c, t = [c] ∧ g.mem = [(c.key, c.crossable)]) S RS' := by
      refine forall₂_comp ?_ (forall₂_imp_mem h5 (S := fun g t => g.mem.length = 1 ∧ t.map (fun c => (c.key, c.crossable)) = g.mem)
        fun g hg t _ e => ⟨hone g hg, e⟩) hS'
      rintro g t t' ⟨e1, e2⟩ hp
      have hl := congrArg List.length e2
      rw [List.length_map, e1] at hl
      obtain ⟨c, rfl⟩ := List.length_eq_one_iff.1 hl
      exact ⟨c, hp.eq_singleton, e2.symm⟩
    clear hB s3 hS' hR d1 d2 s1 s2 c1 c2 h1 h2 h3 h4 h5 hp hone aS hidx h
    induction h6 with
    | nil => exact .nil
    | cons h _ ih =>
      obtain ⟨c, rfl, e⟩ := h
      exact .cons e ih
  · simpa using s2

/-- The neighbour below the lowest of the edges that start. -/
theorem prev_spec (h' : Full org (fun i => (geom i).toLine) input pt st' X') {L R : List (Grp K Nat)} {g0 : Grp K Nat}
    (hAe : X'.A = L ++ g0 :: R) {d : Crossing K Nat} (hleft : d.atLeft = true) (hkey : d.key = g0.root) :
    ∃ a prev, st'.prevActive d = some ({ st' with active := a }, prev) ∧
      Full org (fun i => (geom i).toLine) input pt { st' with active := a } X' ∧
      ((L = [] ∧ prev = none) ∨ ∃ L' gl s, L = L' ++ [gl] ∧ prev = some s ∧ s.crossable ∈ gl.cs) := by
  have hg0A : g0 ∈ X'.A := by rw [hAe]; simp
  have hg0l : g0 ∈ X'.live := by unfold Abs.live; simp [hg0A]
  have hpairs := h'.inv.core.pairs hAe
  have hg0L := (h'.inv.core.lineA g0 hg0A).1
  have hPl := h'.inv.conc.placed hg0l hg0L (L := L) (R := R) (by
    intro a ha
    have haA : a ∈ X'.A := by rw [hAe]; simp only [List.mem_append, List.mem_cons] at ha ⊢; tauto
    exact ⟨by unfold Abs.live; simp [haA], (h'.inv.core.lineA a haA).1⟩) (fun a ha => (hpairs.1 a ha).1) (fun a ha => (hpairs.2 a ha).1)
  obtain ⟨a, p1, p2, p3⟩ := Sweep.prevKey_spec hPl (.inr ⟨rfl, h'.inv.conc.cmp_self hg0l hg0L⟩)
    (h'.inv.conc.act.trans (by rw [hAe]; simp))
  have hconc : Conc org { st' with active := a } X' :=
    ⟨h'.inv.conc.rep, p2.trans (by rw [hAe]; simp), p3.trans h'.inv.conc.size, h'.inv.conc.ev⟩
  have hF := h'.conc hconc
  unfold Sweep.prevActive
  rw [if_pos hleft, hkey, p1]
  simp only [Option.bind_eq_bind, Option.bind_some]
  rcases List.eq_nil_or_concat L with hL | ⟨L', gl, hL⟩
  · subst hL
    exact ⟨a, none, by simp, hF, .inl ⟨rfl, rfl⟩⟩
  · rw [List.concat_eq_append] at hL
    have hglA : gl ∈ X'.A := by rw [hAe, hL]; simp
    have hgl : gl ∈ X'.live := by unfold Abs.live; simp [hglA]
    have hgo := h'.inv.conc.rep.grp gl hgl
    obtain ⟨c, l, hm⟩ := Grp.exists_cons hgo.ne
    have hLk := hgo.linked
    rw [hm] at hLk
    obtain ⟨⟨s, q1, q2, q3, q4, -⟩, -⟩ := hLk
    refine ⟨a, some s, ?_, hF, .inr ⟨L', gl, s, hL, rfl, ?_⟩⟩
    · rw [hL]; simp [q1]
    · rw [q3]; unfold Grp.cs; rw [hm]; simp

/-- The starting edges are not flagged as overlapping. -/
theorem lam_flags (he : EdgesOk geom isFirst input) (ha : Disj geom input)
    (h' : Full org (fun i => (geom i).toLine) input pt st' X') {out : Out K Nat} (hlog : X'.log = X.log ++ stamp pt out)
    {B R : List (Crossing K Nat)} (hp : (B ++ R).Perm (batchOf out)) (hB : ∀ c ∈ B, c.atLeft = true) (hR : ∀ c ∈ R, c.atLeft = false)
    (hn : (B.map (·.crossable)).Nodup) : ∀ c ∈ B, c.hasOverlap = false := by
  intro c hc
  have hcb : c ∈ batchOf out := hp.mem_iff.1 (by simp [hc])
  obtain ⟨o, ho, rfl⟩ := List.mem_map.1 hcb
  have hl : o.2 = .lineLeft := by have := hB _ hc; simpa [Crossing.ofSeg] using this
  have hsound : ∀ o ∈ out, Reported (fun i => (geom i).toLine) input (pt, o) := fun o ho =>
    h'.hist.sound (pt, o) (by rw [hlog]; exact List.mem_append_right _ (List.mem_map_of_mem ho))
  by_contra hflag
  have hov : o.1.overlapping ≠ none := by
    intro h; exact hflag (by simp [Crossing.ofSeg, h])
  obtain ⟨o1, o2, rfl⟩ := List.append_of_mem ho
  obtain ⟨b1, b2⟩ := h'.hist.blk
  rw [hlog] at b1 b2
  cases o2 with
  | nil =>
    refine hov (b2 (pt, o) ?_)
    simp [stamp]
  | cons o' o2 =>
    have e : X.log ++ stamp pt (o1 ++ o :: o' :: o2) = (X.log ++ stamp pt o1) ++ (pt, o) :: (pt, o') :: stamp pt o2 := by
      simp [stamp]
    rw [e] at b1
    have b3 := (List.isChain_append.1 b1).2.1
    rw [List.isChain_cons_cons] at b3
    obtain ⟨-, k1, k2⟩ := b3.1 hov
    simp only at k1 k2
    have hl' : o'.2 = .lineLeft := k1.symm.trans hl
    obtain ⟨b, g1, g2, g3⟩ : ∃ b, o.1.geom = .line pt b ∧ pt < b ∧ SubOf (fun i => (geom i).toLine) input o.1.crossable pt b := by
      rcases (hsound o (by simp)).geom with q | q | q
      · exact q.2
      · simp [hl] at q
      · simp [hl] at q
    obtain ⟨b', g1', g2', g3'⟩ : ∃ b, o'.1.geom = .line pt b ∧ pt < b ∧ SubOf (fun i => (geom i).toLine) input o'.1.crossable pt b := by
      rcases (hsound o' (by simp)).geom with q | q | q
      · exact q.2
      · simp [hl'] at q
      · simp [hl'] at q
    have hbb : b' = b := by
      rw [g1, g1'] at k2
      simpa using k2.symm
    subst hbb
    have hne : o.1.crossable ≠ o'.1.crossable := by
      have hf : ((B ++ R).filter (·.atLeft)) = B := by
        rw [List.filter_append, List.filter_eq_self.2 hB, List.filter_eq_nil_iff.2 fun c hc => by rw [hR c hc]; simp, List.append_nil]
      have hq := hp.filter (·.atLeft)
      rw [hf] at hq
      have hn' := (hq.map (·.crossable)).nodup_iff.1 hn
      have hsub : [o, o'].Sublist (o1 ++ o :: o' :: o2) := by
        refine List.Sublist.trans ?_ (List.sublist_append_right _ _)
        exact .cons_cons _ (.cons_cons _ (List.nil_sublist _))
      have := ((hsub.map fun o => Crossing.ofSeg o.1 o.2).filter (·.atLeft)).map (·.crossable)
      have := hn'.sublist this
      simp [Crossing.ofSeg, hl, hl'] at this
      exact this
    obtain ⟨m, hm⟩ := inside_mid g2
    have on : ∀ {c}, c ∈ input → OnLine (geom c).toLine pt → OnLine (geom c).toLine b' →
        OnSeg (geom c).first (geom c).second m ∧ Inside (geom c).first (geom c).second m := by
      intro c hc h1 h2
      rw [toLine_onLine he hc] at h1 h2
      have hlt := (he.ends hc).2.2
      refine ⟨onSeg_trans hlt g2 h1 h2 hm.onSeg, ?_⟩
      obtain ⟨a1, a2, -⟩ := (onSeg_iff hlt).1 h1
      obtain ⟨a3, -, a4⟩ := (onSeg_iff hlt).1 h2
      exact ⟨a2.trans_lt hm.1, hm.2.1.trans_le a4, det_trans g2.ne a1 a3 hm.2.2⟩
    obtain ⟨v1, v2⟩ := on g3.mem g3.p g3.q
    obtain ⟨v3, -⟩ := on g3'.mem g3'.p g3'.q
    exact ha _ g3.mem _ g3'.mem hne m v1 v3 v2

theorem visitsOk_of {isHole : Nat → Bool} {ringOf : Nat → Nat} : ∀ {B : List (Crossing K Nat)} {s : Option Nat × (Nat → Nat) × (Nat → Option Nat)},
    (∀ c ∈ B, c.hasOverlap = false) →
    (∀ l c u, B.map (·.crossable) = l ++ c :: u → Laminar.Match isHole (ringOf c) (l.foldl (Laminar.visit isHole ringOf) s).1) →
    Laminar.visitsOk isHole ringOf B s = true := by
  intro B
  induction B with
  | nil => intro s _ _; rfl
  | cons c B ih =>
    intro s h1 h2
    rw [Laminar.visitsOk, h1 c (by simp), ih (fun d hd => h1 d (by simp [hd])) (fun l d u e => by
      have := h2 (c.crossable :: l) d u (by rw [List.map_cons, e]; rfl)
      rwa [List.foldl_cons] at this)]
    have := h2 [] c.crossable (B.map (·.crossable)) rfl
    rw [List.foldl_nil] at this
    cases hs : s.1 with
    | none => simp
    | some y =>
      have hm := this y hs
      cases hh : isHole (ringOf c.crossable) with
      | true => simp
      | false => simp [hm hh]

/-- One round. -/
theorem lam_step (he : EdgesOk geom isFirst input) (ha : Disj geom input)
    (h' : Full org (fun i => (geom i).toLine) input pt st' X') (hgt' : ∀ e ∈ X'.E, pt < e.point)
    {out : Out K Nat} (hne : out ≠ []) {L0 E0 U0 L E U S D1 : List (Grp K Nat)} {T : List (Out K Nat)}
    (hs : Shape pt X X' out L0 E0 U0 L E U S D1 T) (hlog : X'.log = X.log ++ stamp pt out)
    (isHole : Nat → Bool) (ringOf : Nat → Nat) (srt : List (Crossing K Nat) → List (Crossing K Nat)) (par : Nat → Nat) (reg : Nat → Option Nat) :
    ∃ st2, (∀ dbg, (dbg = true → ∀ l c u, S.flatMap Grp.cs = l ++ c :: u → Laminar.Match isHole (ringOf c)
          (l.foldl (Laminar.visit isHole ringOf) ((L.flatMap Grp.cs).getLast?.bind reg, par, reg)).1) →
        Laminar.batchStep dbg isHole ringOf srt ⟨st', batchOf out⟩ par reg =
        some (⟨st2, batchOf out⟩, ((S.flatMap Grp.cs).foldl (Laminar.visit isHole ringOf)
          ((L.flatMap Grp.cs).getLast?.bind reg, par, reg)).2)) ∧
      Full org (fun i => (geom i).toLine) input pt st2 X' := by
  have hty : ∀ o ∈ out, o.2 = .lineLeft ∨ o.2 = .lineRight := by
    intro o ho
    have hr := h'.hist.sound (pt, o) (by rw [hlog]; exact List.mem_append_right _ (List.mem_map_of_mem ho))
    rcases hr.geom with k | k | k
    · exact .inl k.1
    · exact .inr k.1
    · exfalso
      obtain ⟨e1, e2, e3⟩ := he.ends hr.mem
      have k1 := k.2.2.1
      have k2 := k.2.2.2
      simp only at k1 k2 e1 e2 e3
      rw [← e1, ← e2, lo, hi, k1, k2, min_self, max_self] at e3
      exact lt_irrefl _ e3
  have okA : ∀ g ∈ X'.A, PieceOk (fun i => (geom i).toLine) input g := by
    intro g hg
    exact h'.pieces.ok g (by unfold Abs.pieces; simp [hg])
  have hone : ∀ g ∈ X'.A, g.mem.length = 1 := by
    intro g hg
    refine piece_single he ha (okA g hg) ?_
    exact (List.nodup_flatMap.1 (active_nodup he h' hgt')).1 g hg
  obtain ⟨B, R, hsort, hB, hR, hm, hlen⟩ := lam_sorted hs hty (fun g hg => hone g (by rw [hs.after]; simp [hg])) srt
  cases hSe : S with
  | nil =>
    rw [hSe] at hm
    cases hm
    refine ⟨st', fun dbg _ => ?_, h'⟩
    rw [List.nil_append] at hsort hlen
    unfold Laminar.batchStep
    cases R with
    | nil => exact absurd (List.map_eq_nil_iff.1 hlen.nil_eq.symm) hne
    | cons f R =>
      simp only [hsort, hR f (by simp)]
      simp
  | cons g0 S1 =>
    rw [hSe] at hm
    cases hm with
    | @cons _ d _ B1 hm0 hm1 =>
    have hAe : X'.A = L ++ g0 :: (S1 ++ U) := by rw [hs.after, hSe]; simp
    have hkey : d.key = g0.root := by
      unfold Grp.root; rw [hm0]; rfl
    have hd := hB d (by simp)
    obtain ⟨a, prev, q1, q2, q3⟩ := prev_spec h' hAe hd hkey
    refine ⟨_, fun dbg hM => ?_, q2⟩
    unfold Laminar.batchStep
    simp only [hsort, List.cons_append, hd, q1]
    have tw : ((d :: (B1 ++ R)).takeWhile (·.atLeft)) = d :: B1 := by
      have : (d :: B1 ++ R).takeWhile (·.atLeft) = d :: B1 := by
        rw [List.takeWhile_append_of_pos hB]
        have : R.takeWhile (·.atLeft) = [] := by
          cases R with
          | nil => rfl
          | cons f R => simp [hR f (by simp)]
        rw [this, List.append_nil]
      exact this
    rw [tw]
    have mp : ∀ {S : List (Grp K Nat)} {B : List (Crossing K Nat)}, List.Forall₂ (fun g c => g.mem = [(c.key, c.crossable)]) S B →
        B.map (·.crossable) = S.flatMap Grp.cs := by
      intro S B hm
      induction hm with
      | nil => rfl
      | cons h _ ih => rw [List.map_cons, ih, List.flatMap_cons, Grp.cs, h]; rfl
    have hnB : ((d :: B1).map (·.crossable)).Nodup := by
      rw [mp (.cons hm0 hm1)]
      have := active_nodup he h' hgt'
      rw [hs.after, hSe, List.flatMap_append, List.flatMap_append, List.nodup_append', List.nodup_append'] at this
      exact this.1.2.1
    have hfl := lam_flags he ha h' hlog hlen hB hR hnB
    have bel : prev.bind (fun s => reg s.crossable) = (L.flatMap Grp.cs).getLast?.bind reg := by
      rcases q3 with ⟨rfl, rfl⟩ | ⟨L', gl, s, rfl, rfl, hc⟩
      · rfl
      · have h1 := hone gl (by rw [hAe]; simp)
        have h2 : gl.cs.length = 1 := by unfold Grp.cs; simp [h1]
        obtain ⟨x, hx⟩ := List.length_eq_one_iff.1 h2
        rw [hx, List.mem_singleton] at hc
        have e : (L' ++ [gl]).flatMap Grp.cs = L'.flatMap Grp.cs ++ [x] := by
          rw [List.flatMap_append, List.flatMap_cons, List.flatMap_nil, List.append_nil, hx]
        rw [e]
        simp [hc]
    have hok : (dbg && !Laminar.visitsOk isHole ringOf (d :: B1) ((L.flatMap Grp.cs).getLast?.bind reg, par, reg)) = false := by
      cases dbg with
      | false => rfl
      | true =>
        rw [visitsOk_of hfl]
        · rfl
        · rw [mp (.cons hm0 hm1)]
          exact hM rfl
    rw [mp (.cons hm0 hm1)]
    cases prev with
    | none => simp only [Option.bind_none] at bel; rw [← bel] at hok ⊢; rw [hok]; simp
    | some s => simp only [Option.bind_some] at bel; rw [← bel] at hok ⊢; rw [hok]; simp

/-- Each batch is at an end of an edge. -/
theorem batch_hit (he : EdgesOk geom isFirst input) (ha : Disj geom input) (h' : Full org (fun i => (geom i).toLine) input pt st' X')
    {out : Out K Nat} (hne : out ≠ []) (hlog : X'.log = X.log ++ stamp pt out) : ∃ c ∈ input, (geom c).first = pt ∨ (geom c).second = pt := by
  obtain ⟨o, ho⟩ := List.exists_mem_of_ne_nil _ hne
  have hr := h'.hist.sound (pt, o) (by rw [hlog]; exact List.mem_append_right _ (List.mem_map_of_mem ho))
  refine ⟨o.1.crossable, hr.mem, ?_⟩
  have hon : OnLine (geom o.1.crossable).toLine pt := by
    rcases hr.geom with ⟨-, b, -, -, k⟩ | ⟨-, a, -, -, k⟩ | k
    · exact k.p
    · exact k.q
    · have := k.2.2.1
      simp only at this
      rw [← this]
      exact onSeg_left _ _
  exact (critical_end he ha hr.mem hr.crit ((toLine_onLine he hr.mem _).1 hon)).imp Eq.symm Eq.symm

/-- The debug assertion of laminar.rs:66 holds at each step, by the invariant `P`. -/
def Matches (geom : Nat → LineOrPoint K) (input : List Nat) (isHole : Nat → Bool) (ringOf : Nat → Nat)
    (P : Pt K → List Nat → (Nat → Nat) → (Nat → Option Nat) → Prop) : Prop :=
  ∀ pos pt l e s u par reg, ColStep geom input pos pt l e s u → P pos (l ++ e ++ u) par reg →
    ∀ s1 c s2, s = s1 ++ c :: s2 → Laminar.Match isHole (ringOf c) (s1.foldl (Laminar.visit isHole ringOf) (l.getLast?.bind reg, par, reg)).1

/-- An invariant of the steps holds at the end of the run. -/
theorem lam_loop (he : EdgesOk geom isFirst input) (ha : Disj geom input)
    (isHole : Nat → Bool) (ringOf : Nat → Nat) (srt : List (Crossing K Nat) → List (Crossing K Nat)) (nextAfter : K → K) (choice : Nat → Nat)
    {P : Pt K → List Nat → (Nat → Nat) → (Nat → Option Nat) → Prop}
    (hP : ∀ pos pt l e s u par reg, ColStep geom input pos pt l e s u → P pos (l ++ e ++ u) par reg →
      P pt (l ++ s ++ u) (s.foldl (Laminar.visit isHole ringOf) (l.getLast?.bind reg, par, reg)).2.1
        (s.foldl (Laminar.visit isHole ringOf) (l.getLast?.bind reg, par, reg)).2.2)
    {cl : List (Pt K)} (hcl : ∀ r, Critical (input.map fun i => (geom i).toLine) r → r ∈ cl) (m : Nat) :
    ∀ {pos st X par reg}, X.measure cl < m → Full org (fun i => (geom i).toLine) input pos st X → (∀ e ∈ X.E, pos < e.point) →
      P pos (X.A.flatMap Grp.cs) par reg →
      ∃ par', (∀ dbg, (dbg = true → Matches geom input isHole ringOf P) → ∀ fuel n, X.measure cl < fuel → X.measure cl < n → ∀ segs,
          Laminar.sweepLoop dbg isHole ringOf (fun i => (geom i).toLine) nextAfter choice srt fuel n ⟨st, segs⟩ par reg = some par') ∧
        ∃ pos reg, (∀ c ∈ input, (geom c).second ≤ pos) ∧ P pos [] par' reg := by
  induction m with
  | zero => intro _ _ _ _ _ h; omega
  | succ m ih =>
    intro pos st X par reg hm hF hgt hR
    rcases next_full (nextAfter := nextAfter) (choice := choice) hcl hF hgt with ⟨h1, h2⟩ | ⟨pt, st', X', out, i1, i2, i3, i4, i5, i6, i7, i8, i9, i10⟩
    · refine ⟨par, ?_, pos, reg, ?_, ?_⟩
      · intro dbg hM fuel n hf hn segs
        obtain ⟨n, rfl⟩ : ∃ k, n = k + 1 := ⟨n - 1, by omega⟩
        rw [Laminar.sweepLoop, h2 fuel hf segs]
      · intro c hc
        obtain ⟨g, hg, hcg⟩ := exists_piece he hF hc
        obtain ⟨p1, p2⟩ := piece_whole he ha (hF.pieces.ok g hg) hcg
        unfold Abs.pieces at hg
        rw [hF.inv.S] at hg
        simp only [List.mem_append, List.not_mem_nil, or_false] at hg
        rcases hg with (hg | hg) | hg
        · exact p2 ▸ hF.hist.Dq g hg
        · have := hF.inv.core.evR g (by simp [hg]); rw [h1] at this; simp at this
        · have := hF.inv.core.evR g (by simp [hg]); rw [h1] at this; simp at this
      · have : X.A = [] := by
          rw [List.eq_nil_iff_forall_not_mem]
          intro g hg
          have := hF.inv.core.evR g (by simp [hg]); rw [h1] at this; simp at this
        rwa [this] at hR
    · obtain ⟨L0, E0, U0, L, E, U, S, D1, T, hs⟩ := shape hF i2 i9 i4 i5 i6 i3 i8
      obtain ⟨c1, c2, c3⟩ := colStep he ha hF hgt i2 i9 i4 i5 hs (batch_hit he ha i4 i3 i6)
      obtain ⟨st2, k1, k2⟩ := lam_step he ha i4 i5 i3 hs i6 isHole ringOf srt par reg
      rw [c2] at hR
      have hR0 := hR
      have hR' := hP _ _ _ _ _ _ _ _ c1 hR
      rw [← c3] at hR'
      obtain ⟨par', t1, t2⟩ := ih (by omega) k2 i5 hR'
      refine ⟨par', ?_, t2⟩
      intro dbg hM fuel n hf hn segs
      obtain ⟨n, rfl⟩ : ∃ k, n = k + 1 := ⟨n - 1, by omega⟩
      rw [Laminar.sweepLoop, i1 fuel hf segs]
      simp only [k1 dbg fun hd => hM hd _ _ _ _ _ _ _ _ c1 hR0]
      exact t1 dbg hM fuel n (by omega) (by omega) _

/-- The whole run. -/
theorem lam_run (he : EdgesOk geom isFirst input) (ha : Disj geom input)
    (isHole : Nat → Bool) (ringOf : Nat → Nat) (srt : List (Crossing K Nat) → List (Crossing K Nat)) (nextAfter : K → K) (choice : Nat → Nat)
    {P : Pt K → List Nat → (Nat → Nat) → (Nat → Option Nat) → Prop}
    (h0 : ∀ pos, (∀ c ∈ input, pos < (geom c).first) → P pos [] (fun _ => 0) fun _ => none)
    (hP : ∀ pos pt l e s u par reg, ColStep geom input pos pt l e s u → P pos (l ++ e ++ u) par reg →
      P pt (l ++ s ++ u) (s.foldl (Laminar.visit isHole ringOf) (l.getLast?.bind reg, par, reg)).2.1
        (s.foldl (Laminar.visit isHole ringOf) (l.getLast?.bind reg, par, reg)).2.2) :
    ∃ it, CrossingsIter.ofInput (fun i => (geom i).toLine) input = some it ∧ ∃ N par',
      (∀ dbg, (dbg = true → Matches geom input isHole ringOf P) → ∀ fuel, N ≤ fuel →
        Laminar.sweepLoop dbg isHole ringOf (fun i => (geom i).toLine) nextAfter choice srt fuel fuel it (fun _ => 0) (fun _ => none) = some par') ∧
      ∃ pos reg, (∀ c ∈ input, (geom c).second ≤ pos) ∧ P pos [] par' reg := by
  obtain ⟨cl, hcl⟩ := critical_finite (input.map fun i => (geom i).toLine)
  obtain ⟨pos, st, X, h1, h2, h3, h4, h5⟩ := full_init' (org := fun c => (LineOrPoint.ofLine (geom c).toLine).first)
    (fun i => (geom i).toLine) input (fun _ _ => rfl)
  obtain ⟨par', t1, t2⟩ := lam_loop he ha isHole ringOf srt nextAfter choice hP hcl (X.measure cl + 1) (par := fun _ => 0) (reg := fun _ => none)
    (by omega) h2 h3 (by
      rw [h4]
      refine h0 pos fun c hc => ?_
      obtain ⟨g, hg, hcg⟩ := exists_piece he h2 hc
      obtain ⟨p1, p2⟩ := piece_whole he ha (h2.pieces.ok g hg) hcg
      unfold Abs.pieces at hg
      rw [h2.inv.S, h4, h5] at hg
      simp only [List.mem_append, List.not_mem_nil, or_false, false_or] at hg
      have := (List.mem_filter.1 (h2.inv.core.evL.mem_iff.2 (List.mem_map_of_mem hg))).1
      exact p1 ▸ h3 _ this)
  refine ⟨⟨st, []⟩, by unfold CrossingsIter.ofInput; rw [h1]; rfl, X.measure cl + 1, par', fun dbg hM fuel hf => t1 dbg hM fuel fuel (by omega) (by omega) _, t2⟩

end GeoCrossings
