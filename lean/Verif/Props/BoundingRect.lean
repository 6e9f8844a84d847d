import Verif.Props.Monotone

/-! # C44: the bounding rectangle of a monotone polygon -/
set_option linter.unusedSectionVars false
namespace GeoCrossings
open Spec

variable {K : Type _} [Field K] [LinearOrder K] [IsStrictOrderedRing K]

theorem chainBelow_y {l : List (Pt K)} {r : Pt K} (h : ChainBelow l r) : ∃ v ∈ l, v.y < r.y := by
  obtain ⟨a, b, h1, -, -, y, h2, h3⟩ := h
  obtain ⟨v, hv, h4⟩ := (onChain_y ⟨a, b, h1, h3⟩).1
  exact ⟨v, hv, lt_of_le_of_lt h4 h2⟩

theorem vertex_not_between {l : List (Pt K)} {a b v : Pt K} (h : l.Pairwise (· < ·)) (hab : EdgeOf l a b) (hv : v ∈ l) : v ≤ a ∨ b ≤ v := by
  obtain ⟨pre, post, rfl⟩ := hab
  rw [List.pairwise_append] at h
  simp only [List.mem_append, List.mem_cons] at hv
  rcases hv with hv | rfl | rfl | hv
  · exact .inl (h.2.2 v hv a (by simp)).le
  · exact .inl le_rfl
  · exact .inr le_rfl
  · exact .inr ((List.pairwise_cons.1 (List.pairwise_cons.1 h.2.1).2).1 v hv).le

/-- A chain is nowhere below another one: then no vertex of the lower chain is above all of the upper chain. -/
theorem nowhere_bot {top bot : List (Pt K)} (hm : MonotonePair top bot) (ha : NowhereBelow top bot) {M : K} (hM : ∀ v ∈ top, v.y ≤ M) :
    ∀ v ∈ bot, v.y ≤ M := by
  obtain ⟨s, e, -, lt, lb, st, sb⟩ := hm
  intro v hv
  by_contra hc
  have hc := not_le.1 hc
  obtain ⟨b1, b2⟩ := sorted_bounds lb sb hv
  rcases (Pt.x_le_of_le b2).lt_or_eq with k | k
  · obtain ⟨a, b, h1, h2, h3⟩ := exists_column lt (Pt.x_le_of_le b1) k
    obtain ⟨c, d, h4, h5, h6⟩ := exists_column lb (Pt.x_le_of_le b1) k
    have hr : ChainBelow top ⟨v.x, (M + v.y) / 2⟩ := by
      have on := onSeg_of_hgt (h2.trans_lt h3) h2 h3.le
      obtain ⟨w, hw, hwy⟩ := (onChain_y ⟨a, b, h1, on⟩).2
      refine ⟨a, b, h1, ?_, ?_, _, ?_, on⟩
      · rw [min_eq_left (h2.trans h3.le)]; exact h2
      · rw [max_eq_right (h2.trans h3.le)]; exact h3
      · have := hwy.trans (hM w hw)
        simp only at this ⊢
        linarith
    obtain ⟨c', d', h7, h8⟩ := ha _ hr
    have hcd' := Pt.x_le_of_le (edgeOf_lt sb h7).le
    have h9 : c'.x < d'.x := by
      rcases hcd'.lt_or_eq with k | k
      · exact k
      · obtain ⟨k1, k2, -⟩ := h8
        rw [k, min_self] at k1
        rw [k, max_self] at k2
        exact absurd k1 (not_le.2 k2)
    obtain ⟨p1, p2, p3⟩ := (passesBelow_iff_of_lt h9).1 h8
    simp only at p1 p2
    obtain ⟨rfl, rfl⟩ := edgeOf_unique sb h7 h4 p1 p2 h5 h6
    have hvc : v ≤ c' := (vertex_not_between sb h7 hv).resolve_right fun h => absurd (Pt.x_le_of_le h) (not_le.2 p2)
    have ex : c'.x = v.x := le_antisymm p1 (Pt.x_le_of_le hvc)
    have ey : v.y ≤ c'.y := by
      rcases hvc.lt_or_eq with h | h
      · exact (Pt.y_lt_of_lt_of_eq h ex.symm).le
      · rw [h]
    have : det c' d' ⟨v.x, (M + v.y) / 2⟩ = (d'.x - c'.x) * ((M + v.y) / 2 - c'.y) := by unfold det; simp only; rw [← ex]; ring
    rw [this] at p3
    have := mul_nonneg (sub_pos.2 h9).le (by linarith : 0 ≤ c'.y - (M + v.y) / 2)
    linarith
  · have : v.y ≤ e.y := by
      rcases b2.lt_or_eq with h | h
      · exact (Pt.y_lt_of_lt_of_eq h k).le
      · rw [h]
    exact absurd (this.trans (hM e (List.mem_of_getLast? lt.2))) (not_le.2 hc)

/-- The edge with which a chain reaches an abscissa. -/
theorem exists_column' : ∀ {l : List (Pt K)} {s e : Pt K}, Leads l s e → ∀ {x : K}, s.x < x → x ≤ e.x →
    ∃ a b, EdgeOf l a b ∧ a.x < x ∧ x ≤ b.x
  | [], _, _, h, _, _, _ => by simp [Leads] at h
  | [a], s, e, h, x, h1, h2 => by
    simp only [Leads, List.head?_cons, List.getLast?_singleton, Option.some.injEq] at h
    rw [← h.1, h.2] at h1
    exact absurd h1 (not_lt.2 h2)
  | a :: b :: l, s, e, h, x, h1, h2 => by
    obtain ⟨ha, he⟩ := h
    simp only [List.head?_cons, Option.some.injEq] at ha
    subst ha
    rcases le_or_gt x b.x with k | k
    · exact ⟨a, b, ⟨[], l, rfl⟩, h1, k⟩
    · obtain ⟨c, d, h3, h4⟩ := exists_column' (l := b :: l) (s := b) (e := e) ⟨rfl, by simpa using he⟩ k h2
      exact ⟨c, d, edgeOf_cons h3, h4⟩

theorem nowhere_top {top bot : List (Pt K)} (hm : MonotonePair top bot) (ha : NowhereBelow top bot) {μ : K} (hμ : ∀ v ∈ bot, μ ≤ v.y) :
    ∀ v ∈ top, μ ≤ v.y := by
  obtain ⟨s, e, -, lt, lb, st, sb⟩ := hm
  intro v hv
  by_contra hc
  have hc := not_le.1 hc
  obtain ⟨b1, b2⟩ := sorted_bounds lt st hv
  rcases (Pt.x_le_of_le b1).lt_or_eq with k | k
  · obtain ⟨c, d, h1, h2, h3⟩ := exists_column' lt k (Pt.x_le_of_le b2)
    have hdv : d ≤ v := (vertex_not_between st h1 hv).resolve_left fun h => absurd (Pt.x_le_of_le h) (not_le.2 h2)
    have ex : d.x = v.x := le_antisymm (Pt.x_le_of_le hdv) h3
    have ey : d.y ≤ v.y := by
      rcases hdv.lt_or_eq with h | h
      · exact (Pt.y_lt_of_lt_of_eq h ex).le
      · rw [h]
    -- a point of this edge that is still lower
    obtain ⟨t, t0, t1, h4⟩ : ∃ t, 0 < t ∧ t < 1 ∧ d.y + t * (c.y - d.y) < μ := by
      by_contra hn
      push Not at hn
      have := (nonneg_ends (p := d.y - μ) (q := c.y - μ) fun t t0 t1 => by have := hn t t0 t1; linarith).1
      linarith
    have hw : 0 < d.x - c.x := by rw [ex]; linarith
    set x := d.x + t * (c.x - d.x) with hx
    set y := d.y + t * (c.y - d.y) with hy
    have x1 : c.x < x := by
      have := mul_lt_mul_of_pos_right t1 hw
      rw [hx]; linarith
    have x2 : x < d.x := by
      have := mul_pos t0 hw
      rw [hx]; linarith
    have hr : ChainBelow top ⟨x, (y + μ) / 2⟩ := by
      refine ⟨c, d, h1, (passesBelow_iff_of_lt (x1.trans x2)).2 ⟨x1.le, x2, ?_⟩⟩
      have : det c d ⟨x, (y + μ) / 2⟩ = (d.x - c.x) * ((μ - y) / 2) := by unfold det; simp only; rw [hx, hy]; ring
      rw [this]
      exact mul_pos hw (by linarith)
    obtain ⟨w, hw', h5⟩ := chainBelow_y (ha _ hr)
    have := hμ w hw'
    simp only at h5
    linarith
  · have : s.y ≤ v.y := by
      rcases b1.lt_or_eq with h | h
      · exact (Pt.y_lt_of_lt_of_eq h k).le
      · rw [h]
    exact absurd ((hμ s (List.mem_of_head? lb.1)).trans this) (not_le.2 hc)

/-- **C44.** For an accepted polygon with `top` nowhere below `bot`, the rectangle of `bounding_rect` contains every vertex and
each of its sides touches one; it panics exactly if all vertices have the same abscissa or all the same ordinate. -/
theorem C44_bounding_rect (m : MonoPoly K) (h : MonotonePair m.top m.bot) (ha : NowhereBelow m.top m.bot) :
    (∀ lo hi, m.boundingRect = some (lo, hi) →
      (∀ v, v ∈ m.top ∨ v ∈ m.bot → lo.x ≤ v.x ∧ v.x ≤ hi.x ∧ lo.y ≤ v.y ∧ v.y ≤ hi.y) ∧
      (∃ v ∈ m.top, v.x = lo.x) ∧ (∃ v ∈ m.top, v.x = hi.x) ∧ (∃ v ∈ m.bot, v.y = lo.y) ∧ (∃ v ∈ m.top, v.y = hi.y)) ∧
    (m.boundingRect = none ↔
      (∀ v w, (v ∈ m.top ∨ v ∈ m.bot) → (w ∈ m.top ∨ w ∈ m.bot) → v.x = w.x) ∨
      (∀ v w, (v ∈ m.top ∨ v ∈ m.bot) → (w ∈ m.top ∨ w ∈ m.bot) → v.y = w.y)) := by
  have hp := h
  obtain ⟨s, e, hse, ht, hb, st, sb⟩ := h
  have l2t := two_le_length ht hse
  have l2b := two_le_length hb hse
  have smt : s ∈ m.top := List.mem_of_head? ht.1
  have smb : s ∈ m.bot := List.mem_of_head? hb.1
  have emt : e ∈ m.top := List.mem_of_getLast? ht.2
  have emb : e ∈ m.bot := List.mem_of_getLast? hb.2
  obtain ⟨M1, M2, M3⟩ := maxY_spec s.y m.top
  obtain ⟨m1, m2, m3⟩ := minY_spec (maxY s.y m.top) m.bot
  set M := maxY s.y m.top with hM
  set μ := minY M m.bot with hμ
  have M3' : ∃ v ∈ m.top, v.y = M := M3.elim (fun h => ⟨s, smt, h.symm⟩) id
  have m3' : ∃ v ∈ m.bot, v.y = μ := by
    refine m3.elim (fun h => ?_) id
    have : μ ≤ s.y := m2 s smb
    exact ⟨s, smb, le_antisymm (by rw [h]; exact M1) this⟩
  have bt : ∀ v ∈ m.top, s.x ≤ v.x ∧ v.x ≤ e.x := fun v hv =>
    ⟨Pt.x_le_of_le (sorted_bounds ht st hv).1, Pt.x_le_of_le (sorted_bounds ht st hv).2⟩
  have bb : ∀ v ∈ m.bot, s.x ≤ v.x ∧ v.x ≤ e.x := fun v hv =>
    ⟨Pt.x_le_of_le (sorted_bounds hb sb hv).1, Pt.x_le_of_le (sorted_bounds hb sb hv).2⟩
  have yt : ∀ v ∈ m.top, μ ≤ v.y := nowhere_top hp ha m2
  have yb : ∀ v ∈ m.bot, v.y ≤ M := nowhere_bot hp ha M2
  have hbr : m.boundingRect = if s.x < e.x ∧ μ < M then some (⟨s.x, μ⟩, ⟨e.x, M⟩) else none := by
    simp [MonoPoly.boundingRect, ht.1, ht.2, hM, hμ]
  have sxe : s.x ≤ e.x := (bt s smt).2
  have bx : ∀ v, v ∈ m.top ∨ v ∈ m.bot → s.x ≤ v.x ∧ v.x ≤ e.x := fun v hv => hv.elim (bt v) (bb v)
  have by' : ∀ v, v ∈ m.top ∨ v ∈ m.bot → μ ≤ v.y ∧ v.y ≤ M := fun v hv =>
    hv.elim (fun h => ⟨yt v h, M2 v h⟩) (fun h => ⟨m2 v h, yb v h⟩)
  constructor
  · intro lo hi heq
    rw [hbr] at heq
    split_ifs at heq with hc
    simp only [Option.some.injEq, Prod.mk.injEq] at heq
    obtain ⟨rfl, rfl⟩ := heq
    exact ⟨fun v hv => ⟨(bx v hv).1, (bx v hv).2, (by' v hv).1, (by' v hv).2⟩,
      ⟨s, smt, rfl⟩, ⟨e, emt, rfl⟩, m3', M3'⟩
  · rw [hbr]
    constructor
    · intro heq
      split_ifs at heq with hc
      by_cases hx : s.x < e.x
      · right
        have hy : M ≤ μ := not_lt.1 fun h => hc ⟨hx, h⟩
        intro v w hv hw
        have h1 := by' v hv; have h2 := by' w hw
        exact le_antisymm (h1.2.trans (hy.trans h2.1)) (h2.2.trans (hy.trans h1.1))
      · left
        intro v w hv hw
        have h1 := bx v hv; have h2 := bx w hw
        exact le_antisymm (h1.2.trans ((not_lt.1 hx).trans h2.1)) (h2.2.trans ((not_lt.1 hx).trans h1.1))
    · rintro (hx | hy)
      · rw [if_neg]
        rintro ⟨h, -⟩
        exact absurd (hx s e (.inl smt) (.inl emt)) h.ne
      · rw [if_neg]
        rintro ⟨-, h⟩
        obtain ⟨v, hv, hv'⟩ := m3'
        obtain ⟨w, hw, hw'⟩ := M3'
        have := hy v w (.inr hv) (.inl hw)
        rw [hv', hw'] at this
        exact absurd this h.ne

/-- A triangle and its bounding rectangle. -/
example : MonoPoly.boundingRect ⟨[(⟨0, 0⟩ : Pt ℚ), ⟨1, 2⟩, ⟨3, 1⟩], [⟨0, 0⟩, ⟨3, 1⟩]⟩ = some (⟨0, 0⟩, ⟨3, 2⟩) := by
  decide +kernel

/-- Two chains that begin with overlapping vertical edges: the upper one is nowhere below the lower one. -/
example : let m : MonoPoly ℚ := ⟨[⟨0, 0⟩, ⟨0, 2⟩, ⟨3, 1⟩], [⟨0, 0⟩, ⟨0, 1⟩, ⟨3, 1⟩]⟩
    MonotonePair m.top m.bot ∧ NowhereBelow m.top m.bot ∧ ¬ LiesAbove m.top m.bot ∧ m.boundingRect = some (⟨0, 0⟩, ⟨3, 2⟩) := by
  refine ⟨⟨⟨0, 0⟩, ⟨3, 1⟩, by decide +kernel, ⟨rfl, rfl⟩, ⟨rfl, rfl⟩, by decide +kernel, by decide +kernel⟩, ?_, ?_, by decide +kernel⟩
  · rintro r ⟨a, b, h, hp⟩
    rw [edgeOf_cons_iff, edgeOf_cons_iff] at h
    rcases h with ⟨rfl, rfl⟩ | ⟨rfl, rfl⟩ | h
    · obtain ⟨k1, k2, -⟩ := hp
      norm_num at k1 k2
      linarith
    · obtain ⟨h1, h2, h3⟩ := (passesBelow_iff_of_lt (by norm_num)).1 hp
      refine ⟨⟨0, 1⟩, ⟨3, 1⟩, ⟨[⟨0, 0⟩], [], rfl⟩, (passesBelow_iff_of_lt (by norm_num)).2 ⟨h1, h2, ?_⟩⟩
      unfold det at h3 ⊢
      simp only at h1 h2 h3 ⊢
      linarith
    · exact absurd h edgeOf_singleton
  · intro h
    have := h 0 0 1 ⟨⟨0, 0⟩, ⟨0, 2⟩, ⟨[], [⟨3, 1⟩], rfl⟩, onSeg_left _ _⟩ ⟨⟨0, 0⟩, ⟨0, 1⟩, ⟨[], [⟨3, 1⟩], rfl⟩, onSeg_right _ _⟩
    norm_num at this

/-- **C44.** `bounding_rect` does not panic on a polygon with a point between its chains. -/
theorem C44_bounding_rect_returns (m : MonoPoly K) (h : MonotonePair m.top m.bot) (ha : NowhereBelow m.top m.bot)
    (hr : ∃ r, ChainBelow m.bot r ∧ ¬ ChainBelow m.top r) : ∃ lo hi, m.boundingRect = some (lo, hi) := by
  obtain ⟨r, hb, ht⟩ := hr
  cases hbr : m.boundingRect with
  | some p => exact ⟨p.1, p.2, rfl⟩
  | none =>
    exfalso
    obtain ⟨s, e, hse, lt, lb, st, sb⟩ := id h
    obtain ⟨c, d, hcd, hp⟩ := hb
    have hx : c.x < d.x := by
      rcases (Pt.x_le_of_le (edgeOf_lt sb hcd).le).lt_or_eq with k | k
      · exact k
      · obtain ⟨k1, k2, -⟩ := hp
        rw [k, min_self] at k1
        rw [k, max_self] at k2
        exact absurd k1 (not_le.2 k2)
    obtain ⟨mc, md⟩ := edgeOf_mem hcd
    rcases (C44_bounding_rect m h ha).2.1 hbr with k | k
    · exact absurd (k c d (.inr mc) (.inr md)) hx.ne
    · obtain ⟨p1, p2, p3⟩ := (passesBelow_iff_of_lt hx).1 hp
      have b1 := Pt.x_le_of_le (sorted_bounds lb sb mc).1
      have b2 := Pt.x_le_of_le (sorted_bounds lb sb md).2
      obtain ⟨a, b, hab, h1, h2⟩ := exists_column lt (b1.trans p1) (p2.trans_le b2)
      obtain ⟨ma, mb⟩ := edgeOf_mem hab
      refine ht ⟨a, b, hab, (passesBelow_iff_of_lt (h1.trans_lt h2)).2 ⟨h1, h2, ?_⟩⟩
      have e1 : det c d r = (d.x - c.x) * (r.y - c.y) := by unfold det; rw [k d c (.inr md) (.inr mc)]; ring
      have e2 : det a b r = (b.x - a.x) * (r.y - c.y) := by
        unfold det; rw [k b c (.inl mb) (.inr mc), k a c (.inl ma) (.inr mc)]; ring
      rw [e1] at p3
      rw [e2]
      exact mul_pos (by linarith) ((mul_pos_iff_of_pos_left (sub_pos.2 hx)).1 p3)

/-- **C44.** `bounding_rect` returns for every piece of a valid polygon. -/
theorem C44_pieces {K : Type} [Field K] [LinearOrder K] [IsStrictOrderedRing K] (dbg : Bool)
    (srt : List (Event K) → List (Event K)) {p : Polygon K} (h : ValidPolygon p.ext p.ints) :
    ∃ out, Monotone.monotoneChains dbg srt p = some out ∧ ∀ m ∈ out, ∃ lo hi, m.boundingRect = some (lo, hi) ∧
      ∀ v, v ∈ m.top ∨ v ∈ m.bot → lo.x ≤ v.x ∧ v.x ≤ hi.x ∧ lo.y ≤ v.y ∧ v.y ≤ hi.y := by
  obtain ⟨out, o1, D⟩ := Monotone.monotoneChains_ok dbg srt h
  refine ⟨out, o1, fun m hm => ?_⟩
  obtain ⟨lo, hi, e⟩ := C44_bounding_rect_returns m (D.pair m hm) (D.nowhere hm) (D.between hm)
  exact ⟨lo, hi, e, ((C44_bounding_rect m (D.pair m hm) (D.nowhere hm)).1 lo hi e).1⟩

end GeoCrossings
