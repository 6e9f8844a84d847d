import Verif.Lemmas.SweepLeft

/-! # Both neighbours of a starting segment -/
set_option linter.unusedSectionVars false
namespace GeoCrossings
open Spec

variable {K C : Type} [Field K] [LinearOrder K] [IsStrictOrderedRing K]
variable {org : C → Pt K} {allow : Prop}
variable {pos : Pt K} {st : Sweep K C} {X : Abs K C} {L R : List (Grp K C)} {g s a : Grp K C}

theorem Grp.Shrs.mem {l l' : List (Grp K C)} (h : Grp.Shrs l l') {x' : Grp K C} (hx : x' ∈ l') : ∃ x ∈ l, x.Shr x' := by
  induction h with
  | nil => cases hx
  | cons h1 _ ih =>
    rcases List.mem_cons.1 hx with rfl | hx
    · exact ⟨_, by simp, h1⟩
    · obtain ⟨x, h2, h3⟩ := ih hx
      exact ⟨x, by simp [h2], h3⟩

theorem Grp.Shrs.head {l l' : List (Grp K C)} (h : Grp.Shrs l l') {x' : Grp K C} (hx : x' ∈ l'.head?) : ∃ x ∈ l.head?, x.Shr x' := by
  cases h with
  | nil => cases hx
  | cons h1 _ =>
    simp only [List.head?_cons, Option.mem_def, Option.some.injEq] at hx
    subst hx
    exact ⟨_, by simp, h1⟩

theorem Grp.Shrs.getLast {l l' : List (Grp K C)} (h : Grp.Shrs l l') {x' : Grp K C} (hx : x' ∈ l'.getLast?) :
    ∃ x ∈ l.getLast?, x.Shr x' := by
  rw [← List.head?_reverse] at hx
  have h' : Grp.Shrs l.reverse l'.reverse := List.forall₂_reverse_iff.2 h
  obtain ⟨x, h1, h2⟩ := h'.head hx
  rw [List.head?_reverse] at h1
  exact ⟨x, h1, h2⟩

theorem Grp.Shr.inside {x x' : Grp K C} (h : x.Shr x') {r : Pt K} (hi : Inside x'.p x'.q r) : Inside x.p x.q r := by
  rcases h with rfl | ⟨z, hz, rfl⟩
  · exact hi
  · exact hz.of_cut hi

/-- The state while the neighbours of `s` are looked at. -/
structure LInv (org : C → Pt K) (pos : Pt K) (st : Sweep K C) (X : Abs K C) (s : Grp K C) (L R : List (Grp K C)) : Prop where
  conc : Conc org st X
  core : Core pos X
  S : X.S = [s]
  A : X.A = L ++ R
  lo : ∀ a ∈ L, a.sg.Lt s.sg
  cL : Sg.Chain pos X.W (L.map Grp.sg)
  cR : Sg.Chain pos X.W (R.map Grp.sg)
  late : Late pos X

/-- Nothing is left to do below. -/
structure LOk (pos : Pt K) (X : Abs K C) (s : Grp K C) (L : List (Grp K C)) : Prop where
  ok : ∀ x ∈ L.getLast?, x.sg.Ok pos X.W s.sg
  out : ∀ x ∈ L, ¬ Inside x.p x.q pos

/-- Nothing is left to do above. -/
structure ROk (pos : Pt K) (X : Abs K C) (s : Grp K C) (R : List (Grp K C)) : Prop where
  lt : ∀ b ∈ R, s.sg.Lt b.sg
  ok : ∀ x ∈ R.head?, s.sg.Ok pos X.W x.sg
  out : ∀ x ∈ R, ¬ Inside x.p x.q pos

theorem LOk.mono {X' : Abs K C} {s' : Grp K C} {L' : List (Grp K C)} (h : LOk pos X s L) (hs : s.Shr s') (hL : Grp.Shrs L L')
    (hP : X.P ⊆ X'.P) : LOk pos X' s' L' := by
  constructor
  · intro x hx
    obtain ⟨y, hy, hyx⟩ := hL.getLast hx
    exact (h.ok y hy).mono (List.map_subset _ hP) hyx.sg hs.sg
  · intro x hx hi
    obtain ⟨y, hy, hyx⟩ := hL.mem hx
    exact h.out y hy (hyx.inside hi)

/-- What one step of the loop over the neighbours does. -/
structure Step (org : C → Pt K) (allow : Prop) (lineOf : C → Line K) (nextAfter : K → K) (choice : Nat → Nat) (fuel : Nat) (pos : Pt K) (st : Sweep K C) (X : Abs K C)
    (s : Grp K C) (adj : List Nat) (st' : Sweep K C) (X' : Abs K C) (s' : Grp K C) (out : Out K C) : Prop where
  prims : Prims org allow pos X X'
  shr : s.Shr s'
  P : X.P ⊆ X'.P
  Q : X'.Q = X.Q
  log : X'.log = X.log ++ stamp pos out
  chain : X.Chain pos → X'.Chain pos
  code : ∀ rest (seg : Seg K C), seg.geom = s.geom → ∃ seg' : Seg K C, seg'.geom = s'.geom ∧
    Sweep.leftLoop lineOf nextAfter choice (Sweep.handleEvent lineOf nextAfter choice (fuel + 1)) s.root (adj ++ rest) st seg =
    (Sweep.leftLoop lineOf nextAfter choice (Sweep.handleEvent lineOf nextAfter choice (fuel + 1)) s.root rest st' seg').map
      fun r => (r.1, out ++ r.2.1, r.2.2)

theorem Step.refl (lineOf : C → Line K) (nextAfter : K → K) (choice : Nat → Nat) (fuel : Nat) (pos : Pt K) (st : Sweep K C)
    (X : Abs K C) (s : Grp K C) : Step org allow lineOf nextAfter choice fuel pos st X s [] st X s [] := by
  refine ⟨.refl X, .inl rfl, fun _ h => h, rfl, by simp [stamp], fun h => h, ?_⟩
  intro rest seg hseg
  refine ⟨seg, hseg, ?_⟩
  rw [List.nil_append]
  cases Sweep.leftLoop lineOf nextAfter choice (Sweep.handleEvent lineOf nextAfter choice (fuel + 1)) s.root rest st seg <;> rfl

theorem stamp_append (pos : Pt K) (o1 o2 : Out K C) : stamp pos (o1 ++ o2) = stamp pos o1 ++ stamp pos o2 := by simp [stamp]

theorem Step.trans {lineOf : C → Line K} {nextAfter : K → K} {choice : Nat → Nat} {fuel : Nat} {st1 st2 : Sweep K C}
    {X1 X2 : Abs K C} {s1 s2 : Grp K C} {adj1 adj2 : List Nat} {out1 out2 : Out K C}
    (h : Step org allow lineOf nextAfter choice fuel pos st X s adj1 st1 X1 s1 out1)
    (h' : Step org allow lineOf nextAfter choice fuel pos st1 X1 s1 adj2 st2 X2 s2 out2) :
    Step org allow lineOf nextAfter choice fuel pos st X s (adj1 ++ adj2) st2 X2 s2 (out1 ++ out2) := by
  refine ⟨h.prims.trans h'.prims, h.shr.trans h'.shr, fun x hx => h'.P (h.P hx), h'.Q.trans h.Q, ?_, fun hc => h'.chain (h.chain hc), ?_⟩
  · rw [h'.log, h.log, stamp_append, List.append_assoc]
  · intro rest seg hseg
    obtain ⟨seg1, e1, e2⟩ := h.code (adj2 ++ rest) seg hseg
    obtain ⟨seg2, e3, e4⟩ := h'.code rest seg1 e1
    refine ⟨seg2, e3, ?_⟩
    rw [List.append_assoc, e2]
    rw [h.shr.root] at e4
    rw [e4, Option.map_map]
    congr 1
    funext r
    simp

theorem Visit.chain {st' : Sweep K C} {X' : Abs K C} {s' : Grp K C} {out : Out K C} {L0 R0 : List (Grp K C)}
    (h : Visit org allow pos X s L0 a R0 st' X' s' out) (hA : X.A = L0 ++ a :: R0) (hc : X.Chain pos) : X'.Chain pos := by
  rcases h.cases with ⟨a', h1, h2, -⟩ | ⟨-, L0', R0', -, -, -, h4, -⟩
  · unfold Abs.Chain at hc ⊢
    refine Sg.Shrs.chain ?_ (List.map_subset _ h.P) hc
    unfold Abs.sgs
    rw [h1, hA]
    exact Grp.Shrs.sg (List.rel_append (Grp.Shrs.refl _) (.cons h2 (Grp.Shrs.refl _)))
  · exact h4

theorem Core.bounds (hK : Core pos X) (hl : Late pos X) : ∀ x ∈ X.A, x.sg.1 < x.sg.2 ∧ x.sg.1 ≤ pos ∧ pos < x.sg.2 := by
  intro x hx
  obtain ⟨h1, -, h2, -⟩ := hK.lineA x hx
  exact ⟨h1.2, h2, hl.q hK hx⟩

theorem not_coll_of_lt {a b : Grp K C} (ha : a.IsLine) (hb : b.IsLine) (h : a.sg.Lt b.sg) :
    ¬ (det a.p a.q b.p = 0 ∧ det a.p a.q b.q = 0) := lt_irrefl_coll ha.2 hb.2 h

theorem not_coll_of_gt {a b : Grp K C} (ha : a.IsLine) (hb : b.IsLine) (h : b.sg.Lt a.sg) :
    ¬ (det a.p a.q b.p = 0 ∧ det a.p a.q b.q = 0) := by
  rintro ⟨h1, h2⟩
  exact lt_irrefl_coll hb.2 ha.2 h (det_symm ha.2.ne h1 h2)

/-- Looking at the neighbour below. -/
theorem step_below (lineOf : C → Line K) (nextAfter : K → K) (choice : Nat → Nat) (fuel : Nat) (h : LInv org pos st X s L R) :
    ∃ st' X' s' L' R' out, LInv org pos st' X' s' L' R' ∧ Step org allow lineOf nextAfter choice fuel pos st X s ((L.getLast?.map Grp.root).toList)
      st' X' s' out ∧ Grp.Shrs R R' ∧ LOk pos X' s' L' := by
  rcases List.eq_nil_or_concat L with rfl | ⟨L0, a, rfl⟩
  · exact ⟨st, X, s, [], R, [], h, .refl _ _ _ _ _ _ _ _, .refl _, by simp, by simp⟩
  · rw [List.concat_eq_append] at h ⊢
    have hA : X.A = L0 ++ a :: R := by rw [h.A]; simp
    have haA : a ∈ X.A := by rw [hA]; simp
    have hla := (h.core.lineA a haA).1
    obtain ⟨hls, -, sp⟩ := h.core.lineS s (by rw [h.S]; simp)
    have has : a.sg.Lt s.sg := h.lo a (by simp)
    have cL0 : Sg.Chain pos X.W (L0.map Grp.sg) := by
      have := h.cL
      rw [List.map_append, Sg.chain_append] at this
      exact this.1
    have hb := h.core.bounds h.late
    have hsp : (pos, s.q) = s.sg := by unfold Grp.sg; rw [sp]
    have hout0 : ∀ x ∈ L0, ¬ Inside x.p x.q pos := by
      intro x hx
      refine through_below (L := L0.map Grp.sg) (a := a.sg) (u := s.q) ?_ ?_ (by rw [hsp]; exact has) x.sg (List.mem_map_of_mem hx)
      · intro y hy
        have : y ∈ (L0 ++ [a]).map Grp.sg := by simpa using hy
        obtain ⟨z, hz, rfl⟩ := List.mem_map.1 this
        exact hb z (by rw [h.A]; exact List.mem_append_left _ hz)
      · have ho := h.core.order
        unfold Abs.sgs at ho
        rw [h.A, List.map_append, List.map_append] at ho
        exact (List.pairwise_append.1 ho).1
    obtain ⟨st', X', s', out, v, code⟩ := visit lineOf nextAfter choice fuel h.conc h.core h.S h.late hA
      (not_coll_of_lt hla hls has) cL0 h.cR
    have step : Step org allow lineOf nextAfter choice fuel pos st X s (((L0 ++ [a]).getLast?.map Grp.root).toList) st' X' s' out := by
      refine ⟨v.prims, v.shr, v.P, v.Q, v.log, v.chain hA, ?_⟩
      intro rest seg hseg
      have := code rest seg hseg
      simpa using this
    rcases v.cases with ⟨a', h1, h2, h3, h4, h5⟩ | ⟨h1, L0', R0', h2, h3, h4, h5, h6, g2, h7, h8, h9⟩
    · refine ⟨st', X', s', L0 ++ [a'], R, out, ⟨v.conc, v.core, v.S, by rw [h1]; simp, ?_, ?_, ?_, v.late⟩, step, .refl _, ?_, ?_⟩
      · intro x hx
        rcases List.mem_append.1 hx with hx | hx
        · exact (Sg.Shr.refl _).lt v.shr.sg (h.lo x (by simp [hx]))
        · rw [List.mem_singleton] at hx; subst hx
          exact h2.sg.lt v.shr.sg has
      · refine Sg.Shrs.chain (Grp.Shrs.sg (List.rel_append (Grp.Shrs.refl _) (.cons h2 .nil))) (List.map_subset _ v.P) h.cL
      · exact Sg.Shrs.chain (Sg.Shrs.refl _) (List.map_subset _ v.P) h.cR
      · intro x hx
        simp only [List.getLast?_append_cons, List.getLast?_singleton, Option.mem_def, Option.some.injEq] at hx
        subst hx
        exact .inl h3
      · intro x hx
        rcases List.mem_append.1 hx with hx | hx
        · exact hout0 x hx
        · rw [List.mem_singleton] at hx; subst hx
          exact fun hi => h4 (h2.inside hi)
    · have hc := h5
      unfold Abs.Chain Abs.sgs at hc
      rw [h2, List.map_append, Sg.chain_append] at hc
      refine ⟨st', X', s', L0', R0', out, ⟨v.conc, v.core, v.S, h2, ?_, hc.1, hc.2.1, v.late⟩, step, h4, ?_, ?_⟩
      · intro x hx
        obtain ⟨y, hy, hyx⟩ := h3.mem hx
        exact hyx.sg.lt v.shr.sg (h.lo y (by simp [hy]))
      · intro x hx
        obtain ⟨y, hy, hyx⟩ := h3.getLast hx
        have hyL : y ∈ L0 := List.mem_of_getLast? hy
        have hya := (h.core.pairs hA).1 y hyL
        have hby := hb y (by rw [hA]; simp [hyL])
        have e : g2.sg = (pos, a.q) := by unfold Grp.sg; rw [h8, h9]
        have w1 : y.sg.Lt g2.sg := by
          rw [e]; exact below_tail hby.1 hya.1 hya.2 hby.2.1 hby.2.2 h1
        have w2 : g2.sg.Lt s.sg := by
          rw [e]
          have : GeoCrossings.Lt a.p a.q pos s.q := by rw [← sp]; exact has
          have := tail_lt h1 this
          rw [← hsp]; exact this
        refine .inr ⟨g2.sg, List.mem_map_of_mem h7, by rw [e], ?_, ?_⟩
        · exact hyx.sg.lt (.refl _) w1
        · exact Sg.Shr.lt (.refl _) v.shr.sg w2
      · intro x hx hi
        obtain ⟨y, hy, hyx⟩ := h3.mem hx
        exact hout0 y hy (hyx.inside hi)

/-- Looking at the neighbour above. -/
theorem step_above (lineOf : C → Line K) (nextAfter : K → K) (choice : Nat → Nat) (fuel : Nat) (h : LInv org pos st X s L R)
    (hR : ∀ b ∈ R, s.sg.Lt b.sg) (hL : LOk pos X s L) :
    ∃ st' X' s' L' R' out, LInv org pos st' X' s' L' R' ∧ Step org allow lineOf nextAfter choice fuel pos st X s ((R.head?.map Grp.root).toList)
      st' X' s' out ∧ LOk pos X' s' L' ∧ ROk pos X' s' R' := by
  cases R with
  | nil => exact ⟨st, X, s, L, [], [], h, .refl _ _ _ _ _ _ _ _, hL, by simp, by simp, by simp⟩
  | cons b R0 =>
    have hA : X.A = L ++ b :: R0 := h.A
    have hbA : b ∈ X.A := by rw [hA]; simp
    have hlb := (h.core.lineA b hbA).1
    obtain ⟨hls, -, sp⟩ := h.core.lineS s (by rw [h.S]; simp)
    have hsb : s.sg.Lt b.sg := hR b (by simp)
    have cR0 : Sg.Chain pos X.W (R0.map Grp.sg) := by
      have := h.cR
      rw [show b :: R0 = [b] ++ R0 from rfl, List.map_append, Sg.chain_append] at this
      exact this.2.1
    have hb := h.core.bounds h.late
    have hsp : (pos, s.q) = s.sg := by unfold Grp.sg; rw [sp]
    have hout0 : ∀ x ∈ R0, ¬ Inside x.p x.q pos := by
      intro x hx
      refine through_above (R := R0.map Grp.sg) (a := b.sg) (u := s.q) ?_ ?_ (by rw [hsp]; exact hsb) x.sg (List.mem_map_of_mem hx)
      · intro y hy
        have : y ∈ (b :: R0).map Grp.sg := by simpa using hy
        obtain ⟨z, hz, rfl⟩ := List.mem_map.1 this
        exact hb z (by rw [h.A]; exact List.mem_append_right _ hz)
      · have ho := h.core.order
        unfold Abs.sgs at ho
        rw [h.A, List.map_append] at ho
        exact (List.pairwise_append.1 ho).2.1
    obtain ⟨st', X', s', out, v, code⟩ := visit lineOf nextAfter choice fuel h.conc h.core h.S h.late hA
      (not_coll_of_gt hlb hls hsb) h.cL cR0
    have step : Step org allow lineOf nextAfter choice fuel pos st X s (((b :: R0).head?.map Grp.root).toList) st' X' s' out := by
      refine ⟨v.prims, v.shr, v.P, v.Q, v.log, v.chain hA, ?_⟩
      intro rest seg hseg
      have := code rest seg hseg
      simpa using this
    rcases v.cases with ⟨b', h1, h2, h3, h4, h5⟩ | ⟨h1, L0', R0', h2, h3, h4, h5, h6, g2, h7, h8, h9⟩
    · refine ⟨st', X', s', L, b' :: R0, out, ⟨v.conc, v.core, v.S, h1, ?_, ?_, ?_, v.late⟩, step, hL.mono v.shr (.refl _) v.P,
        ?_, ?_, ?_⟩
      · intro x hx; exact (Sg.Shr.refl _).lt v.shr.sg (h.lo x hx)
      · exact Sg.Shrs.chain (Sg.Shrs.refl _) (List.map_subset _ v.P) h.cL
      · exact Sg.Shrs.chain (Grp.Shrs.sg (.cons h2 (Grp.Shrs.refl _))) (List.map_subset _ v.P) h.cR
      · intro x hx
        rcases List.mem_cons.1 hx with rfl | hx
        · exact v.shr.sg.lt h2.sg hsb
        · exact v.shr.sg.lt (.refl _) (hR x (by simp [hx]))
      · intro x hx
        simp only [List.head?_cons, Option.mem_def, Option.some.injEq] at hx
        subst hx
        exact .inl h3.symm
      · intro x hx
        rcases List.mem_cons.1 hx with rfl | hx
        · exact fun hi => h4 (h2.inside hi)
        · exact hout0 x hx
    · have hc := h5
      unfold Abs.Chain Abs.sgs at hc
      rw [h2, List.map_append, Sg.chain_append] at hc
      refine ⟨st', X', s', L0', R0', out, ⟨v.conc, v.core, v.S, h2, ?_, hc.1, hc.2.1, v.late⟩, step, hL.mono v.shr h3 v.P, ?_, ?_, ?_⟩
      · intro x hx
        obtain ⟨y, hy, hyx⟩ := h3.mem hx
        exact hyx.sg.lt v.shr.sg (h.lo y hy)
      · intro x hx
        obtain ⟨y, hy, hyx⟩ := h4.mem hx
        exact v.shr.sg.lt hyx.sg (hR y (by simp [hy]))
      · intro x hx
        obtain ⟨y, hy, hyx⟩ := h4.head hx
        have hyL : y ∈ R0 := List.mem_of_head? hy
        have hya := (h.core.pairs hA).2 y hyL
        have hby := hb y (by rw [hA]; simp [hyL])
        have e : g2.sg = (pos, b.q) := by unfold Grp.sg; rw [h8, h9]
        have w1 : g2.sg.Lt y.sg := by
          rw [e]; exact above_tail hby.1 hya.1 hya.2 hby.2.1 hby.2.2 h1
        have w2 : s.sg.Lt g2.sg := by
          rw [e]
          have : GeoCrossings.Lt pos s.q b.p b.q := by rw [← sp]; exact hsb
          have := lt_tail h1 this
          rw [← hsp]; exact this
        refine .inr ⟨g2.sg, List.mem_map_of_mem h7, by rw [e], ?_, ?_⟩
        · exact v.shr.sg.lt (.refl _) w2
        · exact Sg.Shr.lt (.refl _) hyx.sg w1
      · intro x hx hi
        obtain ⟨y, hy, hyx⟩ := h4.mem hx
        exact hout0 y hy (hyx.inside hi)

end GeoCrossings
