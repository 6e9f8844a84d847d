import Verif.Lemmas.PairOrder
import Verif.Lemmas.SweepRep
import Verif.Props.Intersect
import Verif.Props.SplitSegment

/-! # Geometry of cutting and advancing, for lists of active segments -/
set_option linter.unusedSectionVars false
namespace GeoCrossings
open Spec

variable {K : Type} [Field K] [LinearOrder K] [IsStrictOrderedRing K]

/-- `r` is strictly inside the segment. -/
def Inside (p q r : Pt K) : Prop := p < r ∧ r < q ∧ det p q r = 0

theorem Inside.onSeg {p q r : Pt K} (h : Inside p q r) : OnSeg p q r :=
  (onSeg_iff (h.1.trans h.2.1)).2 ⟨h.2.2, h.1.le, h.2.1.le⟩

theorem Inside.lt {p q r : Pt K} (h : Inside p q r) : p < q := h.1.trans h.2.1

/-- How determinants with a cut segment relate to those with the whole one. -/
theorem Inside.param {p q r : Pt K} (h : Inside p q r) : ∃ t : K, 0 < t ∧ t < 1 ∧
    (∀ x, det p r x = t * det p q x) ∧ (∀ x, det r q x = (1 - t) * det p q x) ∧
    (∀ a b, det a b r = (1 - t) * det a b p + t * det a b q) := by
  obtain ⟨t, t0, t1, hx, hy⟩ := h.onSeg
  refine ⟨t, ?_, ?_, ?_, ?_, ?_⟩
  · rcases t0.eq_or_lt with e | e
    · exfalso
      refine h.1.ne (Pt.ext' ?_ ?_).symm
      · rw [hx, ← e]; ring
      · rw [hy, ← e]; ring
    · exact e
  · rcases t1.eq_or_lt with e | e
    · exfalso
      refine h.2.1.ne (Pt.ext' ?_ ?_)
      · rw [hx, e]; ring
      · rw [hy, e]; ring
    · exact e
  · intro x; unfold det; rw [hx, hy]; ring
  · intro x; unfold det; rw [hx, hy]; ring
  · intro a b; unfold det; rw [hx, hy]; ring

theorem Inside.on_left {p q r x : Pt K} (h : Inside p q r) (hx : OnSeg p r x) : OnSeg p q x :=
  (onSeg_split h.lt h.onSeg h.1 h.2.1 x).2 (.inl hx)

theorem Inside.on_right {p q r x : Pt K} (h : Inside p q r) (hx : OnSeg r q x) : OnSeg p q x :=
  (onSeg_split h.lt h.onSeg h.1 h.2.1 x).2 (.inr hx)

theorem lt_irrefl_coll {p1 q1 p2 q2 : Pt K} (w1 : p1 < q1) (w2 : p2 < q2) (h : Lt p1 q1 p2 q2) :
    ¬ (det p1 q1 p2 = 0 ∧ det p1 q1 q2 = 0) := by
  intro hc
  have := (pcmp_eq_iff w1 w2).2 hc
  rw [(pcmp_lt_iff w1 w2).2 h] at this
  cases this

theorem lt_asymm {p1 q1 p2 q2 : Pt K} (w1 : p1 < q1) (w2 : p2 < q2) (h : Lt p1 q1 p2 q2) : ¬ Lt p2 q2 p1 q1 := by
  intro h'
  have := (pcmp_gt_iff w1 w2).2 h'
  rw [(pcmp_lt_iff w1 w2).2 h] at this
  cases this

theorem lt_trichotomy' {p1 q1 p2 q2 : Pt K} (w1 : p1 < q1) (w2 : p2 < q2) :
    Lt p1 q1 p2 q2 ∨ (det p1 q1 p2 = 0 ∧ det p1 q1 q2 = 0) ∨ Lt p2 q2 p1 q1 := by
  rw [← pcmp_lt_iff w1 w2, ← pcmp_gt_iff w1 w2, ← pcmp_eq_iff w1 w2]
  by_cases h : p2 < p1
  · simp only [LineOrPoint.pcmp, if_pos h, pcmpLineLine_some (h.trans w1) w1, Option.map_some]
    cases ((compare 0 (det p2 q2 p1)).then (compare 0 (det p2 q2 q1))) <;> simp
  · simp only [LineOrPoint.pcmp, if_neg h, pcmpLineLine_some ((not_lt.1 h).trans_lt w2) w2]
    cases ((compare 0 (det p1 q1 p2)).then (compare 0 (det p1 q1 q2))) <;> simp

theorem lt_cut_left {p1 q1 p2 q2 r : Pt K} (h : Lt p1 q1 p2 q2) (hr : Inside p1 q1 r) : Lt p1 r p2 q2 := by
  obtain ⟨t, t0, t1, e1, e2, e3⟩ := hr.param
  rcases h with ⟨hp, h⟩ | ⟨hp, h⟩
  · refine .inl ⟨hp, ?_⟩
    rw [e1, e1]
    rcases h with h | ⟨h, h'⟩
    · exact .inl (mul_pos t0 h)
    · exact .inr ⟨by rw [h, mul_zero], mul_pos t0 h'⟩
  · refine .inr ⟨hp, ?_⟩
    rcases h with h | ⟨h, h'⟩
    · exact .inl h
    · refine .inr ⟨h, ?_⟩
      rw [e3, h, mul_zero, zero_add]
      exact mul_neg_of_pos_of_neg t0 h'

theorem lt_cut_right {p1 q1 p2 q2 r : Pt K} (h : Lt p1 q1 p2 q2) (hr : Inside p2 q2 r) : Lt p1 q1 p2 r := by
  obtain ⟨t, t0, t1, e1, e2, e3⟩ := hr.param
  rcases h with ⟨hp, h⟩ | ⟨hp, h⟩
  · refine .inl ⟨hp, ?_⟩
    rcases h with h | ⟨h, h'⟩
    · exact .inl h
    · refine .inr ⟨h, ?_⟩
      rw [e3, h, mul_zero, zero_add]
      exact mul_pos t0 h'
  · refine .inr ⟨hp, ?_⟩
    rw [e1, e1]
    rcases h with h | ⟨h, h'⟩
    · exact .inl (mul_neg_of_pos_of_neg t0 h)
    · exact .inr ⟨by rw [h, mul_zero], mul_neg_of_pos_of_neg t0 h'⟩

theorem apart_cut_left {pos p1 q1 p2 q2 r : Pt K} (h : Apart pos p1 q1 p2 q2) (hr : Inside p1 q1 r) :
    Apart pos p1 r p2 q2 := by
  intro x hx h1 h2
  rcases h x hx (hr.on_left h1) h2 with e | ⟨e1, e2, -⟩
  · exact .inl e
  · exfalso
    have := ((onSeg_iff hr.1).1 h1).2.2
    rw [e2] at this
    exact absurd hr.2.1 (not_lt.2 this)

theorem tidy_cut_left {pos p1 q1 p2 q2 r : Pt K} (h : Tidy pos p1 q1 p2 q2) (hr : Inside p1 q1 r) :
    Tidy pos p1 r p2 q2 := by
  intro x hx h1 h2
  obtain ⟨e2, -⟩ := h x hx (hr.on_left h1) h2
  exfalso
  have := ((onSeg_iff hr.1).1 h1).2.2
  rw [e2] at this
  exact absurd hr.2.1 (not_lt.2 this)

theorem apart_cut_right {pos p1 q1 p2 q2 r : Pt K} (h : Apart pos p1 q1 p2 q2) (hr : Inside p2 q2 r) :
    Apart pos p1 q1 p2 r := (apart_cut_left h.symm hr).symm

theorem tidy_cut_right {pos p1 q1 p2 q2 r : Pt K} (h : Tidy pos p1 q1 p2 q2) (hr : Inside p2 q2 r) :
    Tidy pos p1 q1 p2 r := (tidy_cut_left h.symm hr).symm

/-- Two segments that meet in one point only, after the sweep position, are tidy once both are cut there. -/
theorem tidy_of_point {pos p1 q1 p2 q2 r r1 r2 : Pt K} (w1 : p1 < q1) (w2 : p2 < q2)
    (h : ∀ x, OnSeg p1 q1 x → OnSeg p2 q2 x → x = r)
    (h1 : (r1 = q1 ∧ (pos < r → r = q1)) ∨ (r1 = r ∧ Inside p1 q1 r))
    (h2 : (r2 = q2 ∧ (pos < r → r = q2)) ∨ (r2 = r ∧ Inside p2 q2 r)) : Tidy pos p1 r1 p2 r2 := by
  intro x hx m1 m2
  have k1 : OnSeg p1 q1 x := by
    rcases h1 with ⟨rfl, -⟩ | ⟨rfl, h1⟩
    · exact m1
    · exact h1.on_left m1
  have k2 : OnSeg p2 q2 x := by
    rcases h2 with ⟨rfl, -⟩ | ⟨rfl, h2⟩
    · exact m2
    · exact h2.on_left m2
  have e := h x k1 k2
  subst e
  refine ⟨?_, ?_⟩
  · rcases h1 with ⟨rfl, h⟩ | ⟨rfl, -⟩
    · exact h hx
    · rfl
  · rcases h2 with ⟨rfl, h⟩ | ⟨rfl, -⟩
    · exact h hx
    · rfl

/-- The right piece of a segment cut at `p` is below a segment starting at `p` if the whole was, and conversely above. -/
theorem tail_lt {p1 q1 p u : Pt K} (h : Inside p1 q1 p) (hl : Lt p1 q1 p u) : Lt p q1 p u := by
  obtain ⟨t, t0, t1, e1, e2, e3⟩ := h.param
  rw [lt_right_iff h.1.le, h.2.2] at hl
  rw [lt_right_iff le_rfl, det_left, e2]
  simp only [lt_irrefl, true_and, false_or] at hl ⊢
  exact mul_pos (by linarith) hl

theorem lt_tail {p1 q1 p u : Pt K} (h : Inside p1 q1 p) (hl : Lt p u p1 q1) : Lt p u p q1 := by
  obtain ⟨t, t0, t1, e1, e2, e3⟩ := h.param
  rw [lt_left_iff h.1.le, h.2.2] at hl
  rw [lt_left_iff le_rfl, det_left, e2]
  simp only [lt_irrefl, true_and, false_or] at hl ⊢
  exact mul_neg_of_pos_of_neg (by linarith) hl

/-- What is below a segment passing through the sweep position is below its right piece. -/
theorem below_tail {p p1 q1 p2 q2 : Pt K} (w1 : p1 < q1) (hlt : Lt p1 q1 p2 q2)
    (hJ : Apart p p1 q1 p2 q2) (a1 : p1 ≤ p) (b1 : p < q1) (h2 : Inside p2 q2 p) : Lt p1 q1 p q2 := by
  rcases place w1 h2.lt hlt hJ a1 b1 h2.1.le h2.2.1 h2.2.1 with h | h
  · exact h
  · rw [lt_left_iff h2.1.le, h2.2.2, det_right] at h
    simp at h

theorem above_tail {p p1 q1 p2 q2 : Pt K} (w2 : p2 < q2) (hlt : Lt p1 q1 p2 q2)
    (hJ : Apart p p1 q1 p2 q2) (a2 : p2 ≤ p) (b2 : p < q2) (h1 : Inside p1 q1 p) : Lt p q1 p2 q2 := by
  rcases place h1.lt w2 hlt hJ h1.1.le h1.2.1 a2 b2 h1.2.1 with h | h
  · rw [lt_right_iff h1.1.le, h1.2.2, det_right] at h
    simp at h
  · exact h

/-! ## Lists -/

/-- A segment by its ends, the first one first. -/
abbrev Sg (K : Type) := Pt K × Pt K

def Sg.Lt (a b : Sg K) : Prop := GeoCrossings.Lt a.1 a.2 b.1 b.2
def Sg.Apart (pos : Pt K) (a b : Sg K) : Prop := GeoCrossings.Apart pos a.1 a.2 b.1 b.2
def Sg.Tidy (pos : Pt K) (a b : Sg K) : Prop := GeoCrossings.Tidy pos a.1 a.2 b.1 b.2

/-- `b` is `a`, possibly cut. -/
def Sg.Shr (a b : Sg K) : Prop := b.1 = a.1 ∧ (b.2 = a.2 ∨ Inside a.1 a.2 b.2)

theorem Sg.Shr.refl (a : Sg K) : a.Shr a := ⟨rfl, .inl rfl⟩

theorem Inside.of_cut {p q r x : Pt K} (h : Inside p q r) (hx : Inside p r x) : Inside p q x :=
  ⟨hx.1, hx.2.1.trans h.2.1, ((onSeg_iff h.lt).1 (h.on_left hx.onSeg)).1⟩

theorem Sg.Shr.trans {a b c : Sg K} (h : a.Shr b) (h' : b.Shr c) : a.Shr c := by
  obtain ⟨a1, a2⟩ := a; obtain ⟨b1, b2⟩ := b; obtain ⟨c1, c2⟩ := c
  obtain ⟨h1, h2⟩ := h
  obtain ⟨h3, h4⟩ := h'
  simp only at h1 h2 h3 h4
  subst h1; subst h3
  refine ⟨rfl, ?_⟩
  rcases h4 with rfl | h4
  · exact h2
  · rcases h2 with rfl | h2
    · exact .inr h4
    · exact .inr (h2.of_cut h4)

theorem Sg.Shr.lt {a b a' b' : Sg K} (ha : a.Shr a') (hb : b.Shr b') (h : a.Lt b) : a'.Lt b' := by
  obtain ⟨a1, a2⟩ := a; obtain ⟨b1, b2⟩ := b; obtain ⟨c1, c2⟩ := a'; obtain ⟨d1, d2⟩ := b'
  obtain ⟨h1, h2⟩ := ha
  obtain ⟨h3, h4⟩ := hb
  simp only at h1 h2 h3 h4
  subst h1; subst h3
  have h5 : Sg.Lt (c1, c2) (d1, b2) := by
    rcases h2 with rfl | h2
    · exact h
    · exact lt_cut_left h h2
  rcases h4 with rfl | h4
  · exact h5
  · exact lt_cut_right h5 h4

theorem Sg.Shr.apart {pos : Pt K} {a b a' b' : Sg K} (ha : a.Shr a') (hb : b.Shr b') (h : a.Apart pos b) : a'.Apart pos b' := by
  obtain ⟨a1, a2⟩ := a; obtain ⟨b1, b2⟩ := b; obtain ⟨c1, c2⟩ := a'; obtain ⟨d1, d2⟩ := b'
  obtain ⟨h1, h2⟩ := ha
  obtain ⟨h3, h4⟩ := hb
  simp only at h1 h2 h3 h4
  subst h1; subst h3
  have h5 : Sg.Apart pos (c1, c2) (d1, b2) := by
    rcases h2 with rfl | h2
    · exact h
    · exact apart_cut_left h h2
  rcases h4 with rfl | h4
  · exact h5
  · exact apart_cut_right h5 h4

theorem Sg.Shr.tidy {pos : Pt K} {a b a' b' : Sg K} (ha : a.Shr a') (hb : b.Shr b') (h : a.Tidy pos b) : a'.Tidy pos b' := by
  obtain ⟨a1, a2⟩ := a; obtain ⟨b1, b2⟩ := b; obtain ⟨c1, c2⟩ := a'; obtain ⟨d1, d2⟩ := b'
  obtain ⟨h1, h2⟩ := ha
  obtain ⟨h3, h4⟩ := hb
  simp only at h1 h2 h3 h4
  subst h1; subst h3
  have h5 : Sg.Tidy pos (c1, c2) (d1, b2) := by
    rcases h2 with rfl | h2
    · exact h
    · exact tidy_cut_left h h2
  rcases h4 with rfl | h4
  · exact h5
  · exact tidy_cut_right h5 h4

/-- Adjacent segments have been looked at, or something starting here is still to be put between them. -/
def Sg.Ok (pos : Pt K) (W : List (Sg K)) (a b : Sg K) : Prop :=
  a.Tidy pos b ∨ ∃ c ∈ W, c.1 = pos ∧ a.Lt c ∧ c.Lt b

theorem Sg.Ok.mono {pos : Pt K} {W W' : List (Sg K)} {a b a' b' : Sg K} (h : a.Ok pos W b) (hW : W ⊆ W')
    (ha : a.Shr a') (hb : b.Shr b') : a'.Ok pos W' b' := by
  rcases h with h | ⟨c, h1, h2, h3, h4⟩
  · exact .inl (Sg.Shr.tidy ha hb h)
  · exact .inr ⟨c, hW h1, h2, Sg.Shr.lt ha (.refl c) h3, Sg.Shr.lt (.refl c) hb h4⟩

abbrev Sg.Shrs : List (Sg K) → List (Sg K) → Prop := List.Forall₂ Sg.Shr

theorem Sg.Shrs.refl (l : List (Sg K)) : Sg.Shrs l l := by
  induction l with
  | nil => exact .nil
  | cons a l ih => exact .cons (.refl a) ih

theorem Sg.Shrs.trans {l1 l2 l3 : List (Sg K)} (h : Sg.Shrs l1 l2) (h' : Sg.Shrs l2 l3) : Sg.Shrs l1 l3 := by
  induction h generalizing l3 with
  | nil => cases h'; exact .nil
  | cons h1 _ ih => cases h' with | cons h2 h3 => exact .cons (h1.trans h2) (ih h3)

theorem Sg.Shrs.pairwise {pos : Pt K} {l l' : List (Sg K)} (h : Sg.Shrs l l') (hp : l.Pairwise fun a b => a.Lt b ∧ a.Apart pos b) :
    l'.Pairwise fun a b => a.Lt b ∧ a.Apart pos b := by
  induction h with
  | nil => exact .nil
  | cons h1 h2 ih =>
    rename_i a a' l l'
    rw [List.pairwise_cons] at hp ⊢
    refine ⟨?_, ih hp.2⟩
    intro b' hb'
    have : ∃ b ∈ l, b.Shr b' := by
      clear ih hp
      induction h2 with
      | nil => cases hb'
      | cons h3 _ ih =>
        rcases List.mem_cons.1 hb' with rfl | hb'
        · exact ⟨_, by simp, h3⟩
        · obtain ⟨b, hb, hs⟩ := ih hb'
          exact ⟨b, by simp [hb], hs⟩
    obtain ⟨b, hb, hs⟩ := this
    exact ⟨Sg.Shr.lt h1 hs (hp.1 b hb).1, Sg.Shr.apart h1 hs (hp.1 b hb).2⟩

/-- Adjacent pairs are in order. -/
def Sg.Chain (pos : Pt K) (W l : List (Sg K)) : Prop := l.IsChain (Sg.Ok pos W)

theorem Sg.Shrs.chain {pos : Pt K} {W W' l l' : List (Sg K)} (h : Sg.Shrs l l') (hW : W ⊆ W') (hp : Sg.Chain pos W l) :
    Sg.Chain pos W' l' := by
  unfold Sg.Chain at *
  induction h with
  | nil => exact .nil
  | cons h1 h2 ih =>
    cases h2 with
    | nil => exact .singleton _
    | cons h3 h4 =>
      rw [List.isChain_cons_cons] at hp ⊢
      exact ⟨hp.1.mono hW h1 h3, ih hp.2⟩

theorem Sg.chain_append {pos : Pt K} {W l1 l2 : List (Sg K)} :
    Sg.Chain pos W (l1 ++ l2) ↔ Sg.Chain pos W l1 ∧ Sg.Chain pos W l2 ∧ ∀ x ∈ l1.getLast?, ∀ y ∈ l2.head?, x.Ok pos W y :=
  List.isChain_append

/-- Moving the sweep position: adjacent pairs being tidy keeps all pairs apart. -/
theorem advance_aux {r pos : Pt K} (hr : pos < r) : ∀ (l : List (Sg K)) (a : Sg K),
    (∀ x ∈ a :: l, x.1 < x.2 ∧ x.1 ≤ pos ∧ r ≤ x.2) → (a :: l).IsChain (fun a b => a.Lt b ∧ a.Apart pos b ∧ a.Tidy pos b) →
    (det a.1 a.2 r < 0 → ∀ b ∈ l, det b.1 b.2 r < 0) ∧
    (det a.1 a.2 r = 0 → ∀ b ∈ l, det b.1 b.2 r ≤ 0 ∧ (det b.1 b.2 r = 0 → r = a.2 ∧ r = b.2)) := by
  intro l
  induction l with
  | nil => intro a _ _; simp
  | cons b l ih =>
    intro a hx hc
    rw [List.isChain_cons_cons] at hc
    obtain ⟨⟨hlt, hap, hti⟩, hc⟩ := hc
    obtain ⟨ha1, ha2, ha3⟩ := hx a (by simp)
    obtain ⟨hb1, hb2, hb3⟩ := hx b (by simp)
    obtain ⟨i1, i2⟩ := ih b (fun x hx' => hx x (List.mem_cons_of_mem _ hx')) hc
    have hJ : Apart r a.1 a.2 b.1 b.2 := by
      intro x hxr m1 m2
      rcases le_or_gt x pos with h | h
      · rcases hap x h m1 m2 with e | ⟨e1, e2, e3⟩
        · exact .inl e
        · exfalso
          have h5 : a.2 ≤ pos := by rw [← e2, e1]
          exact absurd (hr.trans_le ha3) (not_lt.2 h5)
      · obtain ⟨e1, e2⟩ := hti x h m1 m2
        refine .inr ⟨le_antisymm hxr (e1 ▸ ha3), e1, e2⟩
    obtain ⟨m1, m2⟩ := mono ha1 hb1 hlt hJ (ha2.trans hr.le) ha3 (hb2.trans hr.le) hb3
    refine ⟨fun h x hx' => ?_, fun h x hx' => ?_⟩
    · rcases List.mem_cons.1 hx' with rfl | hx'
      · exact m1 h
      · exact i1 (m1 h) x hx'
    · have key : det b.1 b.2 r = 0 → r = a.2 ∧ r = b.2 := fun h' =>
        hti r hr ((onSeg_iff ha1).2 ⟨h, ha2.trans hr.le, ha3⟩) ((onSeg_iff hb1).2 ⟨h', hb2.trans hr.le, hb3⟩)
      rcases List.mem_cons.1 hx' with rfl | hx'
      · exact ⟨m2 h, key⟩
      · rcases (m2 h).lt_or_eq with h' | h'
        · have := i1 h' x hx'
          exact ⟨this.le, fun h'' => absurd h'' this.ne⟩
        · obtain ⟨j1, j2⟩ := i2 h' x hx'
          exact ⟨j1, fun h'' => ⟨(key h').1, (j2 h'').2⟩⟩

theorem advance {pos pos' : Pt K} (hpos : pos < pos') (l : List (Sg K))
    (hx : ∀ x ∈ l, x.1 < x.2 ∧ x.1 ≤ pos ∧ pos' ≤ x.2) (hp : l.Pairwise fun a b => a.Lt b ∧ a.Apart pos b)
    (hc : l.IsChain (fun a b => a.Tidy pos b)) : l.Pairwise fun a b => a.Lt b ∧ a.Apart pos' b := by
  induction l with
  | nil => exact .nil
  | cons a l ih =>
    have hc2 : (a :: l).IsChain (fun a b => a.Lt b ∧ a.Apart pos b ∧ a.Tidy pos b) := by
      have : ∀ l : List (Sg K), l.Pairwise (fun a b => a.Lt b ∧ a.Apart pos b) → l.IsChain (fun a b => a.Tidy pos b) →
          l.IsChain (fun a b => a.Lt b ∧ a.Apart pos b ∧ a.Tidy pos b) := by
        intro l hp hc
        induction hc with
        | nil => exact .nil
        | singleton => exact .singleton _
        | cons_cons h1 _ ih =>
          rw [List.pairwise_cons] at hp
          have := hp.1 _ (List.mem_cons_self ..)
          exact .cons_cons ⟨this.1, this.2, h1⟩ (ih hp.2)
      exact this _ hp hc
    rw [List.pairwise_cons] at hp ⊢
    refine ⟨fun b hb => ⟨(hp.1 b hb).1, ?_⟩, ih (fun x hx' => hx x (List.mem_cons_of_mem _ hx')) hp.2 hc.tail⟩
    intro r hr m1 m2
    obtain ⟨ha1, ha2, ha3⟩ := hx a (by simp)
    obtain ⟨hb1, hb2, hb3⟩ := hx b (by simp [hb])
    rcases le_or_gt r pos with h | h
    · rcases (hp.1 b hb).2 r h m1 m2 with e | ⟨e1, e2, e3⟩
      · exact .inl e
      · exfalso
        have h5 : a.2 ≤ pos := by rw [← e2, e1]
        exact absurd (hpos.trans_le ha3) (not_lt.2 h5)
    · have d1 := (onSeg_iff ha1).1 m1
      have d2 := (onSeg_iff hb1).1 m2
      obtain ⟨-, j2⟩ := advance_aux h l a (fun x hx' => ⟨(hx x hx').1, (hx x hx').2.1, hr.trans (hx x hx').2.2⟩) hc2
      obtain ⟨e1, e2⟩ := (j2 d1.1 b hb).2 d2.1
      exact .inr ⟨le_antisymm hr (e1 ▸ ha3), e1, e2⟩

/-- Where a segment starting at the sweep position belongs. -/
theorem separate {p u : Pt K} (wu : p < u) (l : List (Sg K)) (hx : ∀ x ∈ l, x.1 < x.2 ∧ x.1 ≤ p ∧ p < x.2)
    (hp : l.Pairwise fun a b => a.Lt b ∧ a.Apart p b) :
    ∃ L M R, l = L ++ M ++ R ∧ (∀ a ∈ L, Sg.Lt a (p, u)) ∧ (∀ b ∈ R, Sg.Lt (p, u) b) ∧
      (M = [] ∨ ∃ g, M = [g] ∧ det g.1 g.2 p = 0 ∧ det g.1 g.2 u = 0) := by
  induction l with
  | nil => exact ⟨[], [], [], rfl, by simp, by simp, .inl rfl⟩
  | cons a l ih =>
    rw [List.pairwise_cons] at hp
    obtain ⟨ha1, ha2, ha3⟩ := hx a (by simp)
    have hpl : ∀ b ∈ l, Sg.Lt a (p, u) ∨ Sg.Lt (p, u) b := by
      intro b hb
      obtain ⟨hb1, hb2, hb3⟩ := hx b (by simp [hb])
      exact place ha1 hb1 (hp.1 b hb).1 (hp.1 b hb).2 ha2 ha3 hb2 hb3 wu
    rcases lt_trichotomy' ha1 wu with h | h | h
    · obtain ⟨L, M, R, e1, e2, e3, e4⟩ := ih (fun x hx' => hx x (List.mem_cons_of_mem _ hx')) hp.2
      refine ⟨a :: L, M, R, by simp [e1], ?_, e3, e4⟩
      intro x hx'
      rcases List.mem_cons.1 hx' with rfl | hx'
      · exact h
      · exact e2 x hx'
    · refine ⟨[], [a], l, rfl, by simp, ?_, .inr ⟨a, rfl, h⟩⟩
      intro b hb
      rcases hpl b hb with h' | h'
      · exact absurd h (lt_irrefl_coll ha1 wu h')
      · exact h'
    · refine ⟨[], [], a :: l, rfl, by simp, ?_, .inl rfl⟩
      intro b hb
      rcases List.mem_cons.1 hb with rfl | hb
      · exact h
      · rcases hpl b hb with h' | h'
        · exact absurd h (lt_asymm ha1 wu h')
        · exact h'

/-- Where a point event belongs. -/
theorem separate_point {p : Pt K} (l : List (Sg K)) (hx : ∀ x ∈ l, x.1 < x.2 ∧ x.1 ≤ p ∧ p ≤ x.2)
    (hp : l.Pairwise fun a b => a.Lt b ∧ a.Apart p b) :
    ∃ L R, l = L ++ R ∧ (∀ a ∈ L, 0 < det a.1 a.2 p) ∧ (∀ b ∈ R, det b.1 b.2 p ≤ 0) := by
  induction l with
  | nil => exact ⟨[], [], rfl, by simp, by simp⟩
  | cons a l ih =>
    rw [List.pairwise_cons] at hp
    obtain ⟨ha1, ha2, ha3⟩ := hx a (by simp)
    by_cases h : 0 < det a.1 a.2 p
    · obtain ⟨L, R, e1, e2, e3⟩ := ih (fun x hx' => hx x (List.mem_cons_of_mem _ hx')) hp.2
      refine ⟨a :: L, R, by simp [e1], ?_, e3⟩
      intro x hx'
      rcases List.mem_cons.1 hx' with rfl | hx'
      · exact h
      · exact e2 x hx'
    · refine ⟨[], a :: l, rfl, by simp, ?_⟩
      intro b hb
      rcases List.mem_cons.1 hb with rfl | hb
      · exact not_lt.1 h
      · obtain ⟨hb1, hb2, hb3⟩ := hx b (by simp [hb])
        exact (place_point ha1 hb1 (hp.1 b hb).1 (hp.1 b hb).2 ha2 ha3 hb2 hb3).resolve_left h

/-- Only the neighbour of the sweep position can pass through it: from below. -/
theorem through_below {p u : Pt K} {L : List (Sg K)} {a : Sg K} (hx : ∀ x ∈ L ++ [a], x.1 < x.2 ∧ x.1 ≤ p ∧ p < x.2)
    (hp : (L ++ [a]).Pairwise fun a b => a.Lt b ∧ a.Apart p b) (ha : a.Lt (p, u)) :
    ∀ b ∈ L, ¬ Inside b.1 b.2 p := by
  intro b hb hi
  obtain ⟨hb1, hb2, hb3⟩ := hx b (by simp [hb])
  obtain ⟨ha1, ha2, ha3⟩ := hx a (by simp)
  have hba := (List.pairwise_append.1 hp).2.2 b hb a (by simp)
  have h0 : 0 ≤ det a.1 a.2 p := by
    have : GeoCrossings.Lt a.1 a.2 p u := ha
    rw [lt_right_iff ha2] at this
    rcases this with h | ⟨h, -⟩
    · exact h.le
    · exact h.ge
  have h1 := (mono hb1 ha1 hba.1 hba.2 hb2 hb3.le ha2 ha3.le).2 hi.2.2
  have h2 := le_antisymm h1 h0
  rcases hba.2 p le_rfl hi.onSeg ((onSeg_iff ha1).2 ⟨h2, ha2, ha3.le⟩) with ⟨e1, -⟩ | ⟨-, e1, -⟩
  · exact hi.1.ne e1.symm
  · exact hb3.ne e1

theorem through_above {p u : Pt K} {R : List (Sg K)} {a : Sg K} (hx : ∀ x ∈ a :: R, x.1 < x.2 ∧ x.1 ≤ p ∧ p < x.2)
    (hp : (a :: R).Pairwise fun a b => a.Lt b ∧ a.Apart p b) (ha : Sg.Lt (p, u) a) :
    ∀ b ∈ R, ¬ Inside b.1 b.2 p := by
  intro b hb hi
  obtain ⟨hb1, hb2, hb3⟩ := hx b (by simp [hb])
  obtain ⟨ha1, ha2, ha3⟩ := hx a (by simp)
  have hab := (List.pairwise_cons.1 hp).1 b hb
  have h0 : det a.1 a.2 p ≤ 0 := by
    have : GeoCrossings.Lt p u a.1 a.2 := ha
    rw [lt_left_iff ha2] at this
    rcases this with h | ⟨h, -⟩
    · exact h.le
    · exact h.le
  obtain ⟨m1, m2⟩ := mono ha1 hb1 hab.1 hab.2 ha2 ha3.le hb2 hb3.le
  have h2 : det a.1 a.2 p = 0 := by
    rcases h0.lt_or_eq with h | h
    · exact absurd hi.2.2 (m1 h).ne
    · exact h
  rcases hab.2 p le_rfl ((onSeg_iff ha1).2 ⟨h2, ha2, ha3.le⟩) hi.onSeg with ⟨-, e1⟩ | ⟨-, e1, -⟩
  · exact hi.1.ne e1.symm
  · exact ha3.ne e1

/-- A segment starting at the sweep position is apart from an active one that does not pass through it. -/
theorem apart_start {p u : Pt K} {a : Sg K} (ha : a.1 < a.2) (h1 : a.1 ≤ p) (h2 : p < a.2) (wu : p < u) (hn : ¬ Inside a.1 a.2 p) :
    a.Apart p (p, u) := by
  intro r hr m1 m2
  have e : r = p := le_antisymm hr ((onSeg_iff wu).1 m2).2.1
  subst e
  refine .inl ⟨?_, rfl⟩
  have h := (onSeg_iff ha).1 m1
  by_contra hc
  exact hn ⟨lt_of_le_of_ne h1 (Ne.symm hc), h2, h.1⟩

end GeoCrossings
