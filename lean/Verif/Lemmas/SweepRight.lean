import Verif.Lemmas.SweepCut

/-! # Handling of the end of a segment -/
set_option linter.unusedSectionVars false
namespace GeoCrossings
open Spec

variable {K C : Type} [Field K] [LinearOrder K] [IsStrictOrderedRing K]
variable {org : C → Pt K} {allow : Prop}

/-- `g'` is `g`, possibly cut. -/
def Grp.Shr (g g' : Grp K C) : Prop := g' = g ∨ ∃ r, Inside g.p g.q r ∧ g' = g.cut r

abbrev Grp.Shrs : List (Grp K C) → List (Grp K C) → Prop := List.Forall₂ Grp.Shr

theorem Grp.Shr.sg {g g' : Grp K C} (h : g.Shr g') : g.sg.Shr g'.sg := by
  rcases h with rfl | ⟨r, hr, rfl⟩
  · exact .refl _
  · exact ⟨rfl, .inr hr⟩

theorem Grp.Shr.root {g g' : Grp K C} (h : g.Shr g') : g'.root = g.root := by
  rcases h with rfl | ⟨r, hr, rfl⟩ <;> rfl

theorem Grp.Shr.p {g g' : Grp K C} (h : g.Shr g') : g'.p = g.p := by
  rcases h with rfl | ⟨r, hr, rfl⟩ <;> rfl

theorem Grp.Shr.trans {a b c : Grp K C} (h : a.Shr b) (h' : b.Shr c) : a.Shr c := by
  rcases h with rfl | ⟨r, hr, rfl⟩
  · exact h'
  · rcases h' with rfl | ⟨r', hr', rfl⟩
    · exact .inr ⟨r, hr, rfl⟩
    · exact .inr ⟨r', hr.of_cut hr', rfl⟩

theorem Grp.Shrs.refl (l : List (Grp K C)) : Grp.Shrs l l := by
  induction l with
  | nil => exact .nil
  | cons a l ih => exact .cons (.inl rfl) ih

theorem Grp.Shrs.trans {a b c : List (Grp K C)} (h : Grp.Shrs a b) (h' : Grp.Shrs b c) : Grp.Shrs a c := by
  induction h generalizing c with
  | nil => cases h'; exact .nil
  | cons h1 _ ih => cases h' with | cons h2 h3 => exact .cons (h1.trans h2) (ih h3)

theorem Grp.Shrs.sg {l l' : List (Grp K C)} (h : Grp.Shrs l l') : Sg.Shrs (l.map Grp.sg) (l'.map Grp.sg) := by
  induction h with
  | nil => exact .nil
  | cons h1 _ ih => exact .cons h1.sg ih

theorem Grp.Shrs.root {l l' : List (Grp K C)} (h : Grp.Shrs l l') : l'.map Grp.root = l.map Grp.root := by
  induction h with
  | nil => rfl
  | cons h1 _ ih => simp [h1.root, ih]

/-- What a few cuts leave in place. -/
structure Grow (pos : Pt K) (X X' : Abs K C) : Prop where
  S : X'.S = X.S
  Q : X'.Q = X.Q
  P : X.P ⊆ X'.P
  D : X'.D = X.D
  log : X'.log = X.log
  E : ∀ e ∈ X'.E, e ∈ X.E ∨ pos < e.point
  Pnew : ∀ g ∈ X'.P, g ∈ X.P ∨ pos < g.p

theorem Grow.refl (pos : Pt K) (X : Abs K C) : Grow pos X X :=
  ⟨rfl, rfl, fun _ h => h, rfl, rfl, fun _ h => .inl h, fun _ h => .inl h⟩

theorem Grow.trans {pos : Pt K} {X Y Z : Abs K C} (h : Grow pos X Y) (h' : Grow pos Y Z) : Grow pos X Z :=
  ⟨h'.S.trans h.S, h'.Q.trans h.Q, fun _ hx => h'.P (h.P hx), h'.D.trans h.D, h'.log.trans h.log,
    fun e he => (h'.E e he).elim (h.E e) .inr, fun g hg => (h'.Pnew g hg).elim (h.Pnew g) .inr⟩

theorem Grow.W {pos : Pt K} {X X' : Abs K C} (h : Grow pos X X') : X.W ⊆ X'.W := List.map_subset _ h.P

section
variable {pos : Pt K} {st : Sweep K C} {X : Abs K C} {L R : List (Grp K C)} {g : Grp K C} {r : Pt K}

/-- Adjusting an active segment to a point of it after the sweep position. -/
theorem cutPoint (lineOf : C → Line K) (hC : Conc org st X) (hK : Core pos X) (hA : X.A = L ++ g :: R) (hr : OnSeg g.p g.q r)
    (hpos : pos < r) (hX : Cross X r) :
    ∃ st' X' g', st.adjustOne lineOf g.root (.point r) = some (st', none) ∧ Conc org st' X' ∧ Core pos X' ∧ Prims org allow pos X X' ∧
      X'.A = L ++ g' :: R ∧ g.Shr g' ∧ g'.q = r ∧ Grow pos X X' := by
  obtain ⟨hl, -, hp, -⟩ := hK.lineA g (by rw [hA]; simp)
  obtain ⟨d, -, h2⟩ := (onSeg_iff hl.2).1 hr
  rcases h2.eq_or_lt with e | h2
  · obtain ⟨st', h1, h2⟩ := hC.keepA lineOf (g := g) (by unfold Abs.live; rw [hA]; simp) hl (adjust_end hl.2.le (.inr e))
    exact ⟨st', X, g, by simpa using h1, h2, hK, .refl X, hA, .inl rfl, e.symm, .refl _ _⟩
  · have hI : Inside g.p g.q r := ⟨hp.trans_lt hpos, h2, d⟩
    obtain ⟨st', g2, h3, h4, h5⟩ := hC.cutA lineOf hA hl (adjust_inside hI.1 hI.2.1)
    refine ⟨st', _, g.cut r, h3, h5, hK.cutA hA hI hpos.le h4, .single (.cutA hA hl hI hX hpos.le h4), rfl, .inr ⟨r, hI, rfl⟩, rfl,
      rfl, rfl, fun x hx => List.mem_cons_of_mem _ hx, rfl, rfl, ?_, ?_⟩
    · intro e he
      simp only [List.mem_cons] at he
      rcases he with rfl | rfl | rfl | he
      · right; simp only [Grp.rightEv, h4.q]; exact hpos.trans h2
      · right; simp only [Grp.leftEv, h4.p]; exact hpos
      · right; exact hpos
      · exact .inl he
    · intro x hx
      rcases List.mem_cons.1 hx with rfl | hx
      · right; rw [h4.p]; exact hpos
      · exact .inl hx

/-- The same for the segment in hand. -/
theorem cutPointS (lineOf : C → Line K) (hC : Conc org st X) (hK : Core pos X) {s : Grp K C} (hS : X.S = [s]) (hr : OnSeg s.p s.q r)
    (hpos : pos < r) (hX : Cross X r) :
    ∃ st' X' s', st.adjustOne lineOf s.root (.point r) = some (st', none) ∧ Conc org st' X' ∧ Core pos X' ∧ Prims org allow pos X X' ∧
      X'.A = X.A ∧ X'.S = [s'] ∧ s.Shr s' ∧ s'.q = r ∧ Grow pos { X with S := [s'] } X' := by
  obtain ⟨hl, -, hp⟩ := hK.lineS s (by rw [hS]; simp)
  obtain ⟨d, -, h2⟩ := (onSeg_iff hl.2).1 hr
  rcases h2.eq_or_lt with e | h2
  · obtain ⟨st', h1, h2⟩ := hC.keepA lineOf (g := s) (by unfold Abs.live; rw [hS]; simp) hl (adjust_end hl.2.le (.inr e))
    refine ⟨st', X, s, by simpa using h1, h2, hK, .refl X, rfl, hS, .inl rfl, e.symm, ?_⟩
    rw [← hS]; exact .refl _ _
  · have hI : Inside s.p s.q r := ⟨hp.le.trans_lt hpos, h2, d⟩
    obtain ⟨st', g2, h3, h4, h5⟩ := hC.cutS lineOf hS hl (adjust_inside hI.1 hI.2.1)
    refine ⟨st', _, s.cut r, h3, h5, hK.cutS hS hI hpos.le h4, .single (.cutS hS hl hI hX hpos.le h4), rfl, rfl, .inr ⟨r, hI, rfl⟩,
      rfl, rfl, rfl, fun x hx => List.mem_cons_of_mem _ hx, rfl, rfl, ?_, ?_⟩
    · intro e he
      simp only [List.mem_cons] at he
      rcases he with rfl | rfl | rfl | he
      · right; simp only [Grp.rightEv, h4.q]; exact hpos.trans h2
      · right; simp only [Grp.leftEv, h4.p]; exact hpos
      · right; exact hpos
      · exact .inl he
    · intro x hx
      rcases List.mem_cons.1 hx with rfl | hx
      · right; rw [h4.p]; exact hpos
      · exact .inl hx

/-- Segments with an order between them have at most one common point. -/
theorem inter_of_lt (nextAfter : K → K) {a b : Grp K C} (ha : a.IsLine) (hb : b.IsLine)
    (h : ¬ (det a.p a.q b.p = 0 ∧ det a.p a.q b.q = 0)) :
    (a.geom.intersectLineOrdered nextAfter b.geom = some none ∧ ∀ r, ¬ (OnSeg a.p a.q r ∧ OnSeg b.p b.q r)) ∨
    ∃ r, a.geom.intersectLineOrdered nextAfter b.geom = some (some (.point r)) ∧ ∀ x, (OnSeg a.p a.q x ∧ OnSeg b.p b.q x) ↔ x = r := by
  rw [ha.1, hb.1, (C17_ordered_eq nextAfter (.line a.p a.q) (.line b.p b.q) ha.2 hb.2).1]
  obtain ⟨res, h1, h2⟩ := intersectLine_isInter (.line a.p a.q) (p := b.p) (q := b.q) ha.2 hb.2
  rw [h1]
  match res, h2 with
  | none, h2 => exact .inl ⟨rfl, h2⟩
  | some (.point r), h2 => exact .inr ⟨r, rfl, fun x => (h2.2 x).symm⟩
  | some (.line c d), h2 =>
    exfalso
    apply h
    obtain ⟨hcd, h2⟩ := h2
    have hcd : c < d := hcd
    obtain ⟨c1, c2⟩ := (h2 c).1 (onSeg_left c d)
    obtain ⟨d1, d2⟩ := (h2 d).1 (onSeg_right c d)
    have e1 := ((onSeg_iff ha.2).1 c1).1
    have e2 := ((onSeg_iff ha.2).1 d1).1
    have e3 := ((onSeg_iff hb.2).1 c2).1
    have e4 := ((onSeg_iff hb.2).1 d2).1
    obtain ⟨e5, e6⟩ := det_symm hb.2.ne e3 e4
    exact ⟨det_trans hcd.ne e1 e2 e5, det_trans hcd.ne e1 e2 e6⟩

/-- Looking at a pair of active segments that have become neighbours. -/
theorem junction (lineOf : C → Line K) (nextAfter : K → K) (hC : Conc org st X) (hK : Core pos X) {a b : Grp K C}
    (hA : X.A = L ++ a :: b :: R) (h1 : Sg.Chain pos X.W ((L ++ [a]).map Grp.sg)) (h2 : Sg.Chain pos X.W ((b :: R).map Grp.sg)) :
    ∃ st' X' a' b',
      (a.geom.intersectLineOrdered nextAfter b.geom = some none ∧ st' = st ∨
        ∃ i st1, a.geom.intersectLineOrdered nextAfter b.geom = some (some i) ∧
          st.adjustOne lineOf a.root i = some (st1, none) ∧ st1.adjustOne lineOf b.root i = some (st', none)) ∧
      Conc org st' X' ∧ Core pos X' ∧ Prims org allow pos X X' ∧ X'.A = L ++ a' :: b' :: R ∧ a.Shr a' ∧ b.Shr b' ∧ X'.Chain pos ∧
      Grow pos X X' := by
  have hla := hK.lineA a (by rw [hA]; simp)
  have hlb := hK.lineA b (by rw [hA]; simp)
  have hab := (hK.pairs hA).2 b (by simp)
  have haL : a ∈ X.live := by unfold Abs.live; rw [hA]; simp
  have hbL : b ∈ X.live := by unfold Abs.live; rw [hA]; simp
  -- it is enough that the pair has become tidy
  have fin : ∀ (X' : Abs K C) (a' b' : Grp K C), X'.A = L ++ a' :: b' :: R → a.Shr a' → b.Shr b' → Grow pos X X' →
      a'.sg.Tidy pos b'.sg → X'.Chain pos := by
    intro X' a' b' hA' ha' hb' hG ht
    unfold Abs.Chain Abs.sgs
    have e : X'.A.map Grp.sg = (L ++ [a']).map Grp.sg ++ (b' :: R).map Grp.sg := by rw [hA']; simp
    rw [e, Sg.chain_append]
    refine ⟨?_, ?_, ?_⟩
    · refine Sg.Shrs.chain ?_ hG.W h1
      rw [List.map_append, List.map_append]
      exact List.rel_append (Sg.Shrs.refl _) (.cons ha'.sg .nil)
    · exact Sg.Shrs.chain (.cons hb'.sg (Sg.Shrs.refl _)) hG.W h2
    · intro x hx y hy
      simp only [List.map_append, List.map_cons, List.map_nil, List.getLast?_concat, Option.mem_def, Option.some.injEq,
        List.head?_cons] at hx hy
      subst hx; subst hy
      exact .inl ht
  rcases inter_of_lt nextAfter hla.1 hlb.1 (lt_irrefl_coll hla.1.2 hlb.1.2 hab.1) with ⟨hi, hn⟩ | ⟨r, hi, hn⟩
  · refine ⟨st, X, a, b, .inl ⟨hi, rfl⟩, hC, hK, .refl X, hA, .inl rfl, .inl rfl, ?_, .refl _ _⟩
    exact fin X a b hA (.inl rfl) (.inl rfl) (.refl _ _) fun r _ m1 m2 => absurd ⟨m1, m2⟩ (hn r)
  · obtain ⟨ra, rb⟩ := (hn r).2 rfl
    rcases le_or_gt r pos with hr | hr
    · -- the common point is behind: it is an end of both
      have hends : (r = a.p ∧ r = b.p) ∨ (r = pos ∧ r = a.q ∧ r = b.q) := hab.2 r hr ra rb
      have ea : r = a.p ∨ r = a.q := by rcases hends with ⟨e, -⟩ | ⟨-, e, -⟩; exacts [.inl e, .inr e]
      have eb : r = b.p ∨ r = b.q := by rcases hends with ⟨-, e⟩ | ⟨-, -, e⟩; exacts [.inl e, .inr e]
      obtain ⟨st1, c1, c2⟩ := hC.keepA lineOf haL hla.1 (adjust_end hla.1.2.le ea)
      obtain ⟨st2, c3, c4⟩ := c2.keepA lineOf hbL hlb.1 (adjust_end hlb.1.2.le eb)
      refine ⟨st2, X, a, b, .inr ⟨_, st1, hi, by simpa using c1, by simpa using c3⟩, c4, hK, .refl X, hA, .inl rfl, .inl rfl, ?_, .refl _ _⟩
      refine fin X a b hA (.inl rfl) (.inl rfl) (.refl _ _) ?_
      intro x hx m1 m2
      exfalso
      have := (hn x).1 ⟨m1, m2⟩
      rw [this] at hx
      exact absurd hx (not_lt.2 hr)
    · have hcross : Cross X r := .inr ⟨a, haL, b, hbL, by rw [hla.1.1, hlb.1.1]; exact hn⟩
      obtain ⟨st1, X1, a', c1, c2, c3, c4, c5, c6, c7, c8⟩ := cutPoint lineOf hC hK hA ra hr hcross
      have hA1 : X1.A = (L ++ [a']) ++ b :: R := by rw [c5]; simp
      have hcross1 : Cross X1 r := .inl ⟨a', by unfold Abs.live; rw [c5]; simp, .inr c7.symm⟩
      obtain ⟨st2, X2, b', d1, d2, d3, d4, d5, d6, d7, d8⟩ := cutPoint lineOf c2 c3 hA1 rb hr hcross1
      have hA2 : X2.A = L ++ a' :: b' :: R := by rw [d5]; simp
      refine ⟨st2, X2, a', b', .inr ⟨_, st1, hi, c1, d1⟩, d2, d3, c4.trans d4, hA2, c6, d6, ?_, c8.trans d8⟩
      refine fin X2 a' b' hA2 c6 d6 (c8.trans d8) ?_
      intro x hx m1 m2
      have k1 : OnSeg a.p a.q x := by
        rcases c6 with e | ⟨z, hz, e⟩
        · rw [e] at m1; exact m1
        · rw [e] at m1; exact hz.on_left m1
      have k2 : OnSeg b.p b.q x := by
        rcases d6 with e | ⟨z, hz, e⟩
        · rw [e] at m2; exact m2
        · rw [e] at m2; exact hz.on_left m2
      have := (hn x).1 ⟨k1, k2⟩
      exact ⟨this.trans c7.symm, this.trans d7.symm⟩

/-- The popped event was not the right end of a stored segment. -/
theorem Core.pop {e : Event K} (h : Core pos { X with E := e :: X.E }) (hp : e.point = pos) (ht : e.ty ≠ .lineLeft)
    (hne : ∀ g ∈ X.A ++ X.P ++ X.S, g.rightEv ≠ e) : Core pos X := by
  refine ⟨h.lineA, h.lineP, h.lineS, h.ptQ, h.order, ?_, ?_, ?_, ?_, ?_, ?_⟩
  · intro g hg
    rcases List.mem_cons.1 (h.evR g hg) with he | he
    · exact absurd he (hne g hg)
    · exact he
  · have := h.evL
    rwa [filter_left_cons ht] at this
  · intro e' he'; exact h.evQ e' (List.mem_cons_of_mem _ he')
  · intro e' he'; exact h.evpos e' (List.mem_cons_of_mem _ he')
  · intro e' he'; exact h.prodR e' (List.mem_cons_of_mem _ he')
  · intro e' he' ht' hp'
    rcases List.mem_cons.1 (h.prodP e' (List.mem_cons_of_mem _ he') ht' hp') with h1 | h1
    · exfalso
      rw [← h1] at hp
      exact hp'.ne hp.symm
    · exact h1

theorem Rep.get_mem {slab : Slab (Seg K C)} {gs : List (Grp K C)} (h : Rep org slab gs) {k : Nat} {s : Seg K C} (hs : slab.get k = some s) :
    ∃ g ∈ gs, s.key = k ∧ s.geom = g.geom ∧ (s.isOverlapping = false → g.root = k) := by
  obtain ⟨g, hg, hk⟩ := List.mem_flatMap.1 (h.cover k (by simp [hs]))
  have hgo := h.grp g hg
  obtain ⟨⟨k', c⟩, hm, rfl⟩ := List.mem_map.1 hk
  obtain ⟨s', h1, h2, -, h3, -⟩ := hgo.linked.get hm
  simp only at h1 hs h2
  rw [hs] at h1; cases h1
  refine ⟨g, hg, h2, h3, ?_⟩
  intro hov
  obtain ⟨c0, l, e⟩ := Grp.exists_cons hgo.ne
  have hL := hgo.linked
  rw [e] at hL hm
  rcases List.mem_cons.1 hm with e' | e'
  · cases e'; rfl
  · obtain ⟨s2, h5, h6⟩ := hL.2.child (k := k') (List.mem_map.2 ⟨_, e', rfl⟩)
    rw [hs] at h5; cases h5
    rw [hov] at h6; cases h6

/-- A stale event is skipped. -/
theorem segmentForEvent_right (hC : Conc org st X) {e : Event K} (ht : e.ty = .lineRight) :
    (∃ g ∈ X.live, g.geom = .line g.p g.q ∧ g.rightEv = e ∧ ∃ s, st.segmentForEvent e = some (some s) ∧ s.key = g.root) ∨
    (∀ g ∈ X.live, g.geom = .line g.p g.q → g.rightEv ≠ e) ∧ st.segmentForEvent e = some none := by
  have key : ∀ g ∈ X.live, g.rightEv = e → ∃ s, st.segments.get e.segmentKey = some s ∧ s.geom = g.geom ∧
      s.isOverlapping = false := by
    intro g hg he
    obtain ⟨s, h1, h2, h3, h4, -⟩ := hC.get hg
    have : g.root = e.segmentKey := by rw [← he]; rfl
    exact ⟨s, this ▸ h1, h2, h3⟩
  have hev : ∀ g : Grp K C, g.rightEv = e → g.q = e.point := fun g h => by rw [← h]; rfl
  cases hs : st.segments.get e.segmentKey with
  | none =>
    right
    refine ⟨fun g hg _ he => ?_, by simp [Sweep.segmentForEvent, ht, hs]⟩
    obtain ⟨s, h1, -⟩ := key g hg he
    rw [hs] at h1; cases h1
  | some s =>
    by_cases hov : s.isOverlapping = true
    · right
      refine ⟨fun g hg _ he => ?_, by simp [Sweep.segmentForEvent, ht, hs, hov]⟩
      obtain ⟨s', h1, -, h2⟩ := key g hg he
      rw [hs] at h1; cases h1
      rw [hov] at h2; cases h2
    · have hov : s.isOverlapping = false := by simpa using hov
      cases hge : s.geom with
      | point z =>
        right
        refine ⟨fun g hg hl he => ?_, by simp [Sweep.segmentForEvent, ht, hs, hov, hge]⟩
        obtain ⟨s', h1, h3, h2⟩ := key g hg he
        rw [hs] at h1; cases h1
        rw [hge, hl] at h3; cases h3
      | line a b =>
        by_cases hb : b = e.point
        · left
          obtain ⟨g, hg, k1, k2, k3⟩ := hC.rep.get_mem hs
          rw [hge] at k2
          have hl : g.geom = .line g.p g.q := by rw [Grp.p, Grp.q, ← k2]; rfl
          refine ⟨g, hg, hl, ?_, s, by simp [Sweep.segmentForEvent, ht, hs, hov, hge, hb], by rw [k1, k3 hov]⟩
          have e1 : g.q = e.point := by rw [Grp.q, ← k2]; exact hb
          simp only [Grp.rightEv, e1, k3 hov, ← ht]
        · right
          refine ⟨fun g hg hl he => ?_, by simp [Sweep.segmentForEvent, ht, hs, hov, hge, hb]⟩
          obtain ⟨s', h1, h3, h2⟩ := key g hg he
          rw [hs] at h1; cases h1
          have := hev g he
          rw [Grp.q, ← h3, hge] at this
          exact hb this

theorem Conc.rep' (hC : Conc org st X) (hA : X.A = L ++ g :: R) : Rep org st.segments (g :: (L ++ R ++ X.P ++ X.S ++ X.Q)) :=
  hC.rep.perm (by unfold Abs.live; rw [hA]; list_perm)

theorem Conc.root_ne (hC : Conc org st X) (hA : X.A = L ++ g :: R) {g' : Grp K C} (hg' : g' ∈ L ++ R ++ X.P ++ X.S ++ X.Q) :
    g'.root ≠ g.root :=
  (hC.rep' hA).root_inj (l1 := []) (l2 := L ++ R ++ X.P ++ X.S ++ X.Q) .rfl hg'

/-- The end of an active segment is taken out. -/
theorem Conc.finish (hC : Conc org st X) (hK : Core pos { X with E := g.rightEv :: X.E }) (hA : X.A = L ++ g :: R) (hq : g.q = pos) :
    ∃ st1 st2 st3 slab out, st.prevKey g.root = some (st1, L.getLast?.map Grp.root) ∧
      st1.nextKey g.root = some (st2, R.head?.map Grp.root) ∧ st2.removeKey g.root = some st3 ∧
      Sweep.emitRight (st3.segments.size + 1) st3.segments (some g.root) = some (slab, out) ∧
      Conc org { st3 with segments := slab } { X with A := L ++ R, D := X.D ++ [g], log := X.log ++ stamp pos out } ∧
      Core pos { X with A := L ++ R, D := X.D ++ [g], log := X.log ++ stamp pos out } ∧
      Prim org allow pos X { X with A := L ++ R, D := X.D ++ [g], log := X.log ++ stamp pos out } ∧ out ≠ [] := by
  have hgl : g ∈ X.live := by unfold Abs.live; rw [hA]; simp
  have hlA := hK.lineA
  have hg := hlA g (by show g ∈ X.A; rw [hA]; simp)
  obtain ⟨pr1, pr2⟩ := hK.pairs (L := L) (R := R) (g := g) hA
  have hmem : ∀ a ∈ L ++ R, a ∈ X.live ∧ a.IsLine := by
    intro a ha
    have : a ∈ X.A := by rw [hA]; rcases List.mem_append.1 ha with h | h <;> simp [h]
    exact ⟨by unfold Abs.live; simp [this], (hlA a this).1⟩
  have hP := hC.placed hgl hg.1 hmem (fun a ha => (pr1 a ha).1) (fun a ha => (pr2 a ha).1)
  obtain ⟨st1, st2, h1, h2, h3⟩ := hC.prev_next (k := g.root) (L := L) (R := R) (M := [g.root]) (by rw [hA]; simp) hP
    (.inr ⟨rfl, hC.cmp_self hgl hg.1⟩)
  have hP2 := h3.placed hgl hg.1 hmem (fun a ha => (pr1 a ha).1) (fun a ha => (pr2 a ha).1)
  obtain ⟨act, h4, h5, h6⟩ := Sweep.removeKey_spec (st := st2) hP2 (h3.cmp_self hgl hg.1) (by rw [h3.act, hA]; simp)
    (by rw [h3.size, hA]; simp)
  obtain ⟨slab, out, h7, h8, h9⟩ := Sweep.emitRight_root (h3.rep' hA)
  have hout := Sweep.outOf.spec (h3.rep' hA) (g := g) (by simp) (l1 := []) rfl h9
  refine ⟨st1, st2, _, slab, out, h1, h2, h4, h7, ⟨h8, ?_, ?_, h3.ev⟩, ?_, ?_, ?_⟩
  · rw [h5]; simp
  · rw [h6]; simp
  · refine ⟨fun a ha => hlA a ?_, hK.lineP, hK.lineS, hK.ptQ, ?_, ?_, ?_, ?_, ?_, ?_, ?_⟩
    · show a ∈ X.A; rw [hA]
      rcases List.mem_append.1 ha with h | h <;> simp [h]
    · have ho := hK.order
      unfold Abs.sgs at ho ⊢
      refine List.Pairwise.sublist (List.Sublist.map _ ?_) ho
      show List.Sublist (L ++ R) X.A
      rw [hA]; simp
    · intro x hx
      have hx' : x ∈ L ++ R ++ X.P ++ X.S := hx
      rcases List.mem_cons.1 (hK.evR x (by
          show x ∈ X.A ++ X.P ++ X.S
          rw [hA]; simp only [List.mem_append, List.mem_cons] at hx' ⊢; tauto)) with e | e
      · exact absurd (congrArg Event.segmentKey e) (hC.root_ne hA (by simp only [List.mem_append] at hx' ⊢; tauto))
      · exact e
    · have := hK.evL
      rwa [filter_left_cons (by simp [Grp.rightEv])] at this
    · intro e' he'; exact hK.evQ e' (List.mem_cons_of_mem _ he')
    · intro e' he'; exact hK.evpos e' (List.mem_cons_of_mem _ he')
    · intro e' he' ht' hp'
      obtain ⟨x, hx, hxq⟩ := hK.prodR e' (List.mem_cons_of_mem _ he') ht' hp'
      refine ⟨x, ?_, hxq⟩
      have hx' : x ∈ X.A ++ X.P ++ X.S := hx
      rw [hA] at hx'
      show x ∈ L ++ R ++ X.P ++ X.S
      simp only [List.mem_append, List.mem_cons] at hx' ⊢
      rcases hx' with ((h | rfl | h) | h) | h
      · tauto
      · rw [hxq] at hq; exact absurd hq hp'.ne'
      · tauto
      · tauto
      · tauto
    · intro e' he' ht' hp'
      rcases List.mem_cons.1 (hK.prodP e' (List.mem_cons_of_mem _ he') ht' hp') with h1 | h1
      · exfalso
        have := congrArg Event.ty h1
        simp [Grp.rightEv] at this
      · exact h1
  · refine .finish hA hq ?_ hout
    intro a ha
    rcases List.mem_append.1 ha with h | h
    · exact (pr1 a h).2.symm
    · exact (pr2 a h).2
  · rintro rfl
    have := hout.1
    simp at this
    exact (hC.rep.grp g hgl).ne this

/-- **End of a segment.** -/
theorem right_real (lineOf : C → Line K) (nextAfter : K → K) (choice : Nat → Nat) (fuel : Nat) (hC : Conc org st X)
    (hK : Core pos { X with E := g.rightEv :: X.E }) (hA : X.A = L ++ g :: R) (hq : g.q = pos)
    (c1 : Sg.Chain pos X.W (L.map Grp.sg)) (c2 : Sg.Chain pos X.W (R.map Grp.sg)) :
    ∃ st' X' out L' R', Sweep.handleEvent lineOf nextAfter choice (fuel + 1) st g.rightEv = some (st', out, true) ∧
      Conc org st' X' ∧ Core pos X' ∧ X'.Chain pos ∧ Prims org allow pos X X' ∧ X'.A = L' ++ R' ∧ Grp.Shrs L L' ∧ Grp.Shrs R R' ∧ out ≠ [] ∧
      Grow pos { X with A := L ++ R, D := X.D ++ [g], log := X.log ++ stamp pos out } X' := by
  obtain ⟨st1, st2, st3, slab, out, h1, h2, h3, h4, h5, h6, h7, h8⟩ := hC.finish (allow := allow) hK hA hq
  have hev : ∃ s, st.segmentForEvent g.rightEv = some (some s) ∧ s.key = g.root := by
    have hgl : g ∈ X.live := by unfold Abs.live; rw [hA]; simp
    have hg := hK.lineA g (by show g ∈ X.A; rw [hA]; simp)
    rcases segmentForEvent_right hC (e := g.rightEv) rfl with ⟨g', k1, k2, k3, s, k4, k5⟩ | ⟨k1, -⟩
    · exact ⟨s, k4, k5.trans (congrArg Event.segmentKey k3)⟩
    · exact absurd rfl (k1 g hgl hg.1.1)
  obtain ⟨s, hs, hk⟩ := hev
  have hty : g.rightEv.ty = .lineRight := rfl
  have hsk : g.rightEv.segmentKey = g.root := rfl
  rcases List.eq_nil_or_concat L with rfl | ⟨L0, a, rfl⟩
  · refine ⟨_, _, out, [], R, ?_, h5, h6, ?_, .single h7, rfl, Grp.Shrs.refl _, Grp.Shrs.refl _, h8, .refl _ _⟩
    · simp only [List.getLast?_nil, Option.map_none] at h1
      simp only [Sweep.handleEvent, hs, hk, hty, hsk, Option.bind_eq_bind, Option.bind_some, h1, h2, h3, h4]
      rfl
    · exact c2
  · cases R with
    | nil =>
      refine ⟨_, _, out, _, [], ?_, h5, h6, ?_, .single h7, rfl, Grp.Shrs.refl _, Grp.Shrs.refl _, h8, .refl _ _⟩
      · simp only [List.head?_nil, Option.map_none] at h2
        simp only [Sweep.handleEvent, hs, hk, hty, hsk, Option.bind_eq_bind, Option.bind_some, h1, h2, h3, h4]
        simp
      · unfold Abs.Chain Abs.sgs; simpa [Abs.W] using c1
    | cons b R0 =>
      obtain ⟨st', X', a', b', j1, j2, j3, j4, j5, j6, j7, j8, j9⟩ := junction lineOf nextAfter h5 h6 (L := L0) (R := R0) (a := a)
        (b := b) (by simp) (by simpa [Abs.W] using c1) c2
      obtain ⟨sa, ga1, ga2, -⟩ := h5.get (g := a) (by unfold Abs.live; simp)
      obtain ⟨sb, gb1, gb2, -⟩ := h5.get (g := b) (by unfold Abs.live; simp)
      refine ⟨st', X', out, L0 ++ [a'], b' :: R0, ?_, j2, j3, j8, (Prims.single h7).trans j4, by rw [j5]; simp, ?_,
        List.Forall₂.cons j7 (Grp.Shrs.refl _), h8, j9⟩
      · simp only [List.concat_eq_append, List.getLast?_append_cons, List.getLast?_singleton, Option.map_some] at h1
        simp only [List.head?_cons, Option.map_some] at h2
        simp only at ga1 gb1
        simp only [Sweep.handleEvent, hs, hk, hty, hsk, Option.bind_eq_bind, Option.bind_some, h1, h2, h3, h4, ga1, gb1, ga2, gb2]
        rcases j1 with ⟨i1, rfl⟩ | ⟨i, s1, i1, i2, i3⟩
        · simp only [i1, Option.bind_some]; rfl
        · simp only [i1, i2, i3, Option.bind_some]; rfl
      · rw [List.concat_eq_append]
        exact List.rel_append (Grp.Shrs.refl _) (.cons j6 .nil)

/-- A stale end of a segment. -/
theorem right_stale (lineOf : C → Line K) (nextAfter : K → K) (choice : Nat → Nat) (fuel : Nat) (hC : Conc org st X) {e : Event K}
    (hK : Core pos { X with E := e :: X.E }) (ht : e.ty = .lineRight) (hp : e.point = pos)
    (hne : ∀ g ∈ X.A, g.rightEv ≠ e) :
    Sweep.handleEvent lineOf nextAfter choice (fuel + 1) st e = some (st, [], false) ∧ Core pos X := by
  have hq : ∀ g : Grp K C, g.rightEv = e → g.q = pos := fun g h => by rw [← hp, ← h]; rfl
  have hne' : ∀ g ∈ X.A ++ X.P ++ X.S, g.rightEv ≠ e := by
    intro g hg
    rcases List.mem_append.1 hg with hg | hg
    · rcases List.mem_append.1 hg with hg | hg
      · exact hne g hg
      · intro he
        obtain ⟨h1, -, h2⟩ := hK.lineP g hg
        exact absurd h1.2 (not_lt.2 ((hq g he).le.trans h2))
    · intro he
      obtain ⟨h1, -, h2⟩ := hK.lineS g hg
      exact absurd h1.2 (not_lt.2 ((hq g he).le.trans h2.ge))
  refine ⟨?_, hK.pop hp (by rw [ht]; simp) hne'⟩
  rcases segmentForEvent_right hC ht with ⟨g, k1, k2, k3, -⟩ | ⟨-, k1⟩
  · exfalso
    unfold Abs.live at k1
    rcases List.mem_append.1 k1 with hg | hg
    · exact hne' g hg k3
    · obtain ⟨k, c, h1, h2⟩ := hK.ptQ g hg
      rw [k2] at h1; cases h1
  · simp only [Sweep.handleEvent, k1, Option.bind_eq_bind, Option.bind_some]; rfl

end
end GeoCrossings
