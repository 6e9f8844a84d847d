import Verif.Spec.Geom
import Verif.Lemmas.SweepOrder

/-! # Segments as collinear lexicographic intervals, and the intersection of two segments -/
set_option linter.unusedSectionVars false
namespace GeoCrossings
open Spec

variable {K : Type _} [Field K] [LinearOrder K] [IsStrictOrderedRing K]

theorem Pt.ext' {a b : Pt K} (hx : a.x = b.x) (hy : a.y = b.y) : a = b := by
  cases a; cases b; simp_all

/-- A point collinear with two distinct points is an affine combination of them. -/
theorem exists_param {p q r : Pt K} (hne : p ≠ q) (h : det p q r = 0) :
    ∃ t : K, r.x = p.x + t * (q.x - p.x) ∧ r.y = p.y + t * (q.y - p.y) := by
  unfold det at h
  by_cases hx : q.x - p.x = 0
  · have hy : q.y - p.y ≠ 0 := by
      intro hy; exact hne (Pt.ext' (by linarith) (by linarith))
    have h' : r.x - p.x = 0 := by
      have : (q.y - p.y) * (r.x - p.x) = 0 := by rw [hx] at h; linarith
      exact (mul_eq_zero.1 this).resolve_left hy
    refine ⟨(r.y - p.y) / (q.y - p.y), ?_, ?_⟩
    · rw [hx]; linarith
    · field_simp; ring
  · refine ⟨(r.x - p.x) / (q.x - p.x), ?_, ?_⟩
    · field_simp; ring
    · field_simp; linear_combination h

theorem det_param {p q r a b : Pt K} {t : K} (hx : r.x = p.x + t * (q.x - p.x)) (hy : r.y = p.y + t * (q.y - p.y)) :
    det a b r = (1 - t) * det a b p + t * det a b q := by
  unfold det; rw [hx, hy]; ring

/-- A segment is the part of its supporting line between its ends in sweep order. -/
theorem onSeg_iff {p q r : Pt K} (h : p < q) : OnSeg p q r ↔ det p q r = 0 ∧ p ≤ r ∧ r ≤ q := by
  constructor
  · rintro ⟨t, t0, t1, hx, hy⟩
    refine ⟨by rw [det_param hx hy]; simp, ?_, ?_⟩
    · rw [Pt.le_def]
      rcases h with h | ⟨h, h'⟩
      · rcases t0.eq_or_lt with rfl | t0
        · right; rw [hx, hy]; simp
        · left; rw [hx]; have := mul_pos t0 (sub_pos.2 h); linarith
      · right; rw [hx, hy, h]
        have := mul_nonneg t0 (sub_pos.2 h').le
        constructor
        · simp
        · linarith
    · rw [Pt.le_def]
      have s0 : 0 ≤ 1 - t := by linarith
      rcases h with h | ⟨h, h'⟩
      · rcases t1.eq_or_lt with rfl | t1
        · right; rw [hx, hy]; simp
        · left; rw [hx]
          have := mul_pos (sub_pos.2 t1) (sub_pos.2 h)
          linear_combination this
      · right; rw [hx, hy, h]
        have := mul_nonneg s0 (sub_pos.2 h').le
        constructor
        · simp
        · linear_combination this
  · rintro ⟨hd, h1, h2⟩
    obtain ⟨t, hx, hy⟩ := exists_param h.ne hd
    rcases h with h | ⟨h, h'⟩
    · have hpos := sub_pos.2 h
      refine ⟨t, ?_, ?_, hx, hy⟩
      · by_contra hc
        have := mul_neg_of_neg_of_pos (not_le.1 hc) hpos
        have := Pt.x_le_of_le h1
        linarith
      · by_contra hc
        have h3 := mul_pos (sub_pos.2 (not_le.1 hc)) hpos
        have := Pt.x_le_of_le h2
        linarith
    · have hpos := sub_pos.2 h'
      have hrx : p.x = r.x := by rw [hx, h]; simp
      refine ⟨t, ?_, ?_, hx, hy⟩
      · by_contra hc
        have := mul_neg_of_neg_of_pos (not_le.1 hc) hpos
        have := Pt.y_le_of_le_of_eq h1 hrx
        linarith
      · by_contra hc
        have h3 := mul_pos (sub_pos.2 (not_le.1 hc)) hpos
        have := Pt.y_le_of_le_of_eq h2 (by rw [← hrx, h])
        linarith

theorem onSeg_left (p q : Pt K) : OnSeg p q p := ⟨0, le_rfl, zero_le_one, by simp, by simp⟩
theorem onSeg_right (p q : Pt K) : OnSeg p q q := ⟨1, zero_le_one, le_rfl, by simp, by simp⟩

/-- Two distinct points on a line determine it. -/
theorem det_trans {a b p q r : Pt K} (hne : p ≠ q) (h1 : det a b p = 0) (h2 : det a b q = 0) (h3 : det p q r = 0) :
    det a b r = 0 := by
  obtain ⟨t, hx, hy⟩ := exists_param hne h3
  rw [det_param hx hy, h1, h2]; ring

/-- If both `p, q` lie on the line `a b`, then `a, b` lie on the line `p q`. -/
theorem det_symm {a b p q : Pt K} (hab : a ≠ b) (h1 : det a b p = 0) (h2 : det a b q = 0) :
    det p q a = 0 ∧ det p q b = 0 := by
  rcases lt_or_gt_of_ne hab with h | h
  · exact collinear_comm h ⟨h1, h2⟩
  · have := collinear_comm (p1 := b) (q1 := a) (p2 := p) (q2 := q) h
      ⟨by rw [det_swap12, h1, neg_zero], by rw [det_swap12, h2, neg_zero]⟩
    exact ⟨this.2, this.1⟩

/-- `x` and `y` are not strictly on the same side of zero. -/
def Opp (x y : K) : Prop := ¬ (0 < x ∧ 0 < y) ∧ ¬ (x < 0 ∧ y < 0)

theorem opp_of_param {x y t : K} (t0 : 0 ≤ t) (t1 : t ≤ 1) (h : (1 - t) * x + t * y = 0) : Opp x y := by
  constructor
  · rintro ⟨hx, hy⟩
    have h1 := mul_nonneg (sub_nonneg.2 t1) hx.le
    have h2 := mul_nonneg t0 hy.le
    have e1 : (1 - t) * x = 0 := by linarith
    have e2 : t * y = 0 := by linarith
    have := (mul_eq_zero.1 e2).resolve_right hy.ne'
    rw [this] at e1; linarith
  · rintro ⟨hx, hy⟩
    have h1 := mul_nonpos_of_nonneg_of_nonpos (sub_nonneg.2 t1) hx.le
    have h2 := mul_nonpos_of_nonneg_of_nonpos t0 hy.le
    have e1 : (1 - t) * x = 0 := by linarith
    have e2 : t * y = 0 := by linarith
    have := (mul_eq_zero.1 e2).resolve_right hy.ne
    rw [this] at e1; linarith

theorem param_of_opp {x y t : K} (ho : Opp x y) (hne : ¬ (x = 0 ∧ y = 0)) (h : (1 - t) * x + t * y = 0) :
    0 ≤ t ∧ t ≤ 1 := by
  have hxy : x - y ≠ 0 := by
    intro hxy
    have hxy : x = y := by linarith
    subst hxy
    have : x = 0 := by linear_combination h
    exact hne ⟨this, this⟩
  have ht : t * (x - y) = x := by linear_combination -h
  have hs : (1 - t) * (y - x) = y := by linear_combination -h
  rcases lt_or_gt_of_ne hxy with hl | hl
  · -- x < y
    have hx : x ≤ 0 := by
      by_contra hc
      exact ho.1 ⟨not_le.1 hc, by linarith [not_le.1 hc]⟩
    have hy : 0 ≤ y := by
      by_contra hc
      exact ho.2 ⟨by linarith [not_le.1 hc], not_le.1 hc⟩
    constructor
    · by_contra hc
      have := mul_pos_of_neg_of_neg (not_le.1 hc) hl
      linarith
    · by_contra hc
      have := mul_neg_of_neg_of_pos (show 1 - t < 0 by linarith [not_le.1 hc]) (show 0 < y - x by linarith)
      linarith
  · have hx : 0 ≤ x := by
      by_contra hc
      exact ho.2 ⟨not_le.1 hc, by linarith [not_le.1 hc]⟩
    have hy : y ≤ 0 := by
      by_contra hc
      exact ho.1 ⟨by linarith [not_le.1 hc], not_le.1 hc⟩
    constructor
    · by_contra hc
      have := mul_neg_of_neg_of_pos (not_le.1 hc) hl
      linarith
    · by_contra hc
      have := mul_pos_of_neg_of_neg (show 1 - t < 0 by linarith [not_le.1 hc]) (show y - x < 0 by linarith)
      linarith

/-- A common point of the two supporting lines lies on the segment `q₁ q₂` if the ends of that segment are not strictly
on one side of the other line. -/
theorem onSeg_of_opp {a b p q z : Pt K} (hne : p ≠ q) (hz : det p q z = 0) (hz' : det a b z = 0)
    (ho : Opp (det a b p) (det a b q)) (hnz : ¬ (det a b p = 0 ∧ det a b q = 0)) : OnSeg p q z := by
  obtain ⟨t, hx, hy⟩ := exists_param hne hz
  rw [det_param hx hy] at hz'
  obtain ⟨t0, t1⟩ := param_of_opp ho hnz hz'
  exact ⟨t, t0, t1, hx, hy⟩

/-- If two segments have a common point, neither lies strictly on one side of the other. -/
theorem opp_of_common {a b p q r : Pt K} (h1 : det a b r = 0) (h2 : OnSeg p q r) : Opp (det a b p) (det a b q) := by
  obtain ⟨t, t0, t1, hx, hy⟩ := h2
  rw [det_param hx hy] at h1
  exact opp_of_param t0 t1 h1

theorem opp_iff_orient (a b p q : Pt K) :
    Opp (det a b p) (det a b q) ↔ ¬ (orient2d a b p = orient2d a b q ∧ orient2d a b p ≠ .collinear) := by
  have c1 := orient2d_ccw a b p; have c2 := orient2d_cw a b p; have c3 := orient2d_coll a b p
  have d1 := orient2d_ccw a b q; have d2 := orient2d_cw a b q; have d3 := orient2d_coll a b q
  unfold Opp
  rw [← c1, ← c2, ← d1, ← d2]
  cases orient2d a b p <;> cases orient2d a b q <;> simp

/-! ## Bounding rectangles -/

theorem inRect_iff {p q c : Pt K} (h : p < q) (hc : det p q c = 0) : inRect ⟨p, q⟩ c = true ↔ p ≤ c ∧ c ≤ q := by
  rw [← true_and (p ≤ c ∧ c ≤ q), ← eq_true hc, ← onSeg_iff h]
  simp only [inRect, Bool.and_eq_true, decide_eq_true_eq]
  constructor
  · rintro ⟨⟨h1, h2⟩, h3, h4⟩
    rw [onSeg_iff h]
    refine ⟨hc, ?_⟩
    obtain ⟨t, hx, hy⟩ := exists_param h.ne hc
    rcases h with h | ⟨h, h'⟩
    · rw [min_eq_left h.le] at h1; rw [max_eq_right h.le] at h2
      have hpos := sub_pos.2 h
      constructor
      · rcases h1.eq_or_lt with e | e
        · right
          refine ⟨e, ?_⟩
          have : t * (q.x - p.x) = 0 := by linarith
          have := (mul_eq_zero.1 this).resolve_right hpos.ne'
          rw [hy, this]; simp
        · exact .inl e
      · rcases h2.eq_or_lt with e | e
        · right
          refine ⟨e, ?_⟩
          have : (1 - t) * (q.x - p.x) = 0 := by linear_combination hx - e
          have := (mul_eq_zero.1 this).resolve_right hpos.ne'
          have : t = 1 := by linarith
          rw [hy, this]; simp
        · exact .inl e
    · rw [min_eq_left h'.le] at h3; rw [max_eq_right h'.le] at h4
      rw [h, min_self] at h1; rw [h, max_self] at h2
      have e := le_antisymm h1 h2
      exact ⟨.inr ⟨by rw [h, e], h3⟩, .inr ⟨e.symm, h4⟩⟩
  · rintro ⟨t, t0, t1, hx, hy⟩
    have key : ∀ u v w : K, w = u + t * (v - u) → min u v ≤ w ∧ w ≤ max u v := by
      intro u v w hw
      have s0 : 0 ≤ 1 - t := by linarith
      rcases le_total u v with h | h
      · rw [min_eq_left h, max_eq_right h]
        have h1 := mul_nonneg t0 (sub_nonneg.2 h)
        have h2 := mul_nonneg s0 (sub_nonneg.2 h)
        exact ⟨by linarith, by linear_combination h2 + hw⟩
      · rw [min_eq_right h, max_eq_left h]
        have h1 := mul_nonneg t0 (sub_nonneg.2 h)
        have h2 := mul_nonneg s0 (sub_nonneg.2 h)
        exact ⟨by linear_combination h2 - hw, by linarith⟩
    exact ⟨key _ _ _ hx, key _ _ _ hy⟩

theorem onSeg_bounds {p q r : Pt K} (h : OnSeg p q r) :
    (min p.x q.x ≤ r.x ∧ r.x ≤ max p.x q.x) ∧ (min p.y q.y ≤ r.y ∧ r.y ≤ max p.y q.y) := by
  obtain ⟨t, t0, t1, hx, hy⟩ := h
  have key : ∀ u v w : K, w = u + t * (v - u) → min u v ≤ w ∧ w ≤ max u v := by
    intro u v w hw
    have s0 : 0 ≤ 1 - t := by linarith
    rcases le_total u v with h | h
    · rw [min_eq_left h, max_eq_right h]
      have h1 := mul_nonneg t0 (sub_nonneg.2 h)
      have h2 := mul_nonneg s0 (sub_nonneg.2 h)
      exact ⟨by linarith, by linear_combination h2 + hw⟩
    · rw [min_eq_right h, max_eq_left h]
      have h1 := mul_nonneg t0 (sub_nonneg.2 h)
      have h2 := mul_nonneg s0 (sub_nonneg.2 h)
      exact ⟨by linear_combination h2 - hw, by linarith⟩
  exact ⟨key _ _ _ hx, key _ _ _ hy⟩

theorem rectsMeet_of_common {p q a b r : Pt K} (h1 : OnSeg p q r) (h2 : OnSeg a b r) :
    rectsMeet ⟨p, q⟩ ⟨a, b⟩ = true := by
  have h1 := onSeg_bounds h1
  have h2 := onSeg_bounds h2
  simp only [rectsMeet, Bool.and_eq_true, decide_eq_true_eq]
  exact ⟨(max_le h1.1.1 h2.1.1).trans (le_min h1.1.2 h2.1.2), (max_le h1.2.1 h2.2.1).trans (le_min h1.2.2 h2.2.2)⟩


/-! ## The intersection of two segments -/

/-- `res` is the intersection of the two point sets. -/
def IsInter (res : Option (LineOrPoint K)) (A B : Pt K → Prop) : Prop :=
  match res with
  | none => ∀ r, ¬ (A r ∧ B r)
  | some g => g.WF ∧ ∀ r, On g r ↔ A r ∧ B r

/-- The conversion applied to the result of `line_intersection` in `intersect_line` (line_or_point.rs:105-108). -/
def LineIntersection.toGeom : LineIntersection K → LineOrPoint K
  | .singlePoint i => .ofCoord i
  | .collinear l => .ofLine l

theorem ofLine_lt {a b : Pt K} (h : a < b) : LineOrPoint.ofLine ⟨a, b⟩ = .line a b := by
  unfold LineOrPoint.ofLine
  rw [show compare (Line.mk a b).start (Line.mk a b).stop = .lt from compare_lt_iff_lt.2 h]

theorem ofLine_gt {a b : Pt K} (h : b < a) : LineOrPoint.ofLine ⟨a, b⟩ = .line b a := by
  unfold LineOrPoint.ofLine
  rw [show compare (Line.mk a b).start (Line.mk a b).stop = .gt from compare_gt_iff_gt.2 h]

theorem collinearIntersection_spec {p1 p2 q1 q2 : Pt K} (hp : p1 < p2) (hq : q1 < q2)
    (d1 : det p1 p2 q1 = 0) (d2 : det p1 p2 q2 = 0) :
    IsInter ((collinearIntersection ⟨p1, p2⟩ ⟨q1, q2⟩).map LineIntersection.toGeom) (OnSeg p1 p2) (OnSeg q1 q2) := by
  obtain ⟨e1, e2⟩ := det_symm hp.ne d1 d2
  have hline : ∀ r, det p1 p2 r = 0 ↔ det q1 q2 r = 0 := fun r =>
    ⟨det_trans hp.ne e1 e2, det_trans hq.ne d1 d2⟩
  have h1 : inRect ⟨p1, p2⟩ q1 = decide (p1 ≤ q1 ∧ q1 ≤ p2) := by
    rw [Bool.eq_iff_iff, inRect_iff hp d1, decide_eq_true_iff]
  have h2 : inRect ⟨p1, p2⟩ q2 = decide (p1 ≤ q2 ∧ q2 ≤ p2) := by
    rw [Bool.eq_iff_iff, inRect_iff hp d2, decide_eq_true_iff]
  have h3 : inRect ⟨q1, q2⟩ p1 = decide (q1 ≤ p1 ∧ p1 ≤ q2) := by
    rw [Bool.eq_iff_iff, inRect_iff hq e1, decide_eq_true_iff]
  have h4 : inRect ⟨q1, q2⟩ p2 = decide (q1 ≤ p2 ∧ p2 ≤ q2) := by
    rw [Bool.eq_iff_iff, inRect_iff hq e2, decide_eq_true_iff]
  have hpt : ∀ z, det p1 p2 z = 0 → (∀ r, (p1 ≤ r ∧ r ≤ p2) ∧ (q1 ≤ r ∧ r ≤ q2) ↔ r = z) →
      IsInter (some (.point z)) (OnSeg p1 p2) (OnSeg q1 q2) := by
    intro z hz h
    refine ⟨trivial, fun r => ?_⟩
    rw [onSeg_iff hp, onSeg_iff hq, ← hline]
    simp only [On]
    rw [← h r]
    constructor
    · intro hr
      have : r = z := (h r).1 hr
      subst this
      exact ⟨⟨hz, hr.1⟩, hz, hr.2⟩
    · rintro ⟨⟨-, a⟩, -, b⟩; exact ⟨a, b⟩
  have hln : ∀ a b, det p1 p2 a = 0 → det p1 p2 b = 0 → a < b →
      (∀ r, (p1 ≤ r ∧ r ≤ p2) ∧ (q1 ≤ r ∧ r ≤ q2) ↔ (a ≤ r ∧ r ≤ b)) →
      IsInter (some (.line a b)) (OnSeg p1 p2) (OnSeg q1 q2) := by
    intro a b ha hb hab h
    refine ⟨hab, fun r => ?_⟩
    have hl : det a b r = 0 ↔ det p1 p2 r = 0 := by
      obtain ⟨f1, f2⟩ := det_symm hp.ne ha hb
      exact ⟨det_trans hab.ne ha hb, det_trans hp.ne f1 f2⟩
    simp only [On]
    rw [onSeg_iff hp, onSeg_iff hq, onSeg_iff hab, ← hline, hl, ← h r]
    constructor
    · rintro ⟨a, b, c⟩; exact ⟨⟨a, b⟩, a, c⟩
    · rintro ⟨⟨a, b⟩, -, c⟩; exact ⟨a, b, c⟩
  unfold collinearIntersection
  simp only [h1, h2, h3, h4, Bool.and_eq_true, decide_eq_true_eq]
  split_ifs with c1 c2 c3 c4 c5 c6 c7 c8 c9 c10
  · simp only [Option.map_some, LineIntersection.toGeom, ofLine_lt hq]
    exact hln _ _ d1 d2 hq fun r => ⟨fun h => h.2, fun h => ⟨⟨c1.1.1.trans h.1, h.2.trans c1.2.2⟩, h⟩⟩
  · simp only [Option.map_some, LineIntersection.toGeom, ofLine_lt hp]
    exact hln _ _ (det_left _ _) (det_right _ _) hp fun r => ⟨fun h => h.1, fun h => ⟨h, ⟨c2.1.1.trans h.1, h.2.trans c2.2.2⟩⟩⟩
  · exfalso
    have e := le_antisymm c3.1.1 c3.2.1
    rcases le_total p2 q2 with h | h
    · exact c2 ⟨⟨e ▸ le_rfl, c3.2.2⟩, (e ▸ hp.le), h⟩
    · exact c1 ⟨⟨e ▸ le_rfl, c3.1.2⟩, (e ▸ hq.le), h⟩
  · exfalso
    have e := le_antisymm c3.1.1 c3.2.1
    rcases le_total p2 q2 with h | h
    · exact c2 ⟨⟨e ▸ le_rfl, c3.2.2⟩, (e ▸ hp.le), h⟩
    · exact c1 ⟨⟨e ▸ le_rfl, c3.1.2⟩, (e ▸ hq.le), h⟩
  · simp only [Option.map_some, LineIntersection.toGeom, LineOrPoint.ofCoord]
    refine hpt _ d1 fun r => ?_
    obtain ⟨e, -, -⟩ := c6
    constructor
    · rintro ⟨⟨a, b⟩, c, d⟩; exact le_antisymm (e ▸ b) c
    · rintro rfl; exact ⟨c5.1, le_rfl, hq.le⟩
  · have hlt : q1 < p2 := by
      rcases c5.1.2.eq_or_lt with e | e
      · exfalso; apply c6
        refine ⟨e, ?_, ?_⟩
        · intro h; exact c1 ⟨c5.1, h⟩
        · intro h; exact c2 ⟨h, c5.2⟩
      · exact e
    simp only [Option.map_some, LineIntersection.toGeom, ofLine_lt hlt]
    refine hln _ _ d1 (det_right _ _) hlt fun r => ⟨fun h => ⟨h.2.1, h.1.2⟩, fun h => ⟨⟨c5.1.1.trans h.1, h.2⟩, h.1, h.2.trans c5.2.2⟩⟩
  · simp only [Option.map_some, LineIntersection.toGeom, LineOrPoint.ofCoord]
    refine hpt _ d2 fun r => ?_
    obtain ⟨e, -, -⟩ := c8
    constructor
    · rintro ⟨⟨a, b⟩, c, d⟩; exact le_antisymm d (e ▸ a)
    · rintro rfl; exact ⟨c7.1, hq.le, le_rfl⟩
  · have hlt : p1 < q2 := by
      rcases c7.1.1.eq_or_lt with e | e
      · exfalso; apply c8
        refine ⟨e.symm, ?_, ?_⟩
        · intro h; exact c1 ⟨h, c7.1⟩
        · intro h; exact c2 ⟨c7.2, h⟩
      · exact e
    simp only [Option.map_some, LineIntersection.toGeom, ofLine_gt hlt]
    refine hln _ _ (det_left _ _) d2 hlt fun r => ⟨fun h => ⟨h.1.1, h.2.2⟩, fun h => ⟨⟨h.1, h.2.trans c7.1.2⟩, c7.2.1.trans h.1, h.2⟩⟩
  · exfalso
    have e := le_antisymm c9.1.2 c9.2.2
    rcases le_total p1 q1 with h | h
    · exact c1 ⟨⟨h, e ▸ hq.le⟩, c9.1⟩
    · exact c2 ⟨⟨h, e ▸ hp.le⟩, c9.2⟩
  · exfalso
    have e := le_antisymm c9.1.2 c9.2.2
    rcases le_total p1 q1 with h | h
    · exact c1 ⟨⟨h, e ▸ hq.le⟩, c9.1⟩
    · exact c2 ⟨⟨h, e ▸ hp.le⟩, c9.2⟩
  · intro r ⟨hr, hr'⟩
    rw [onSeg_iff hp] at hr; rw [onSeg_iff hq] at hr'
    obtain ⟨-, a, b⟩ := hr
    obtain ⟨-, c, d⟩ := hr'
    have k1 : q1 ≤ p2 := c.trans b
    have k2 : p1 ≤ q2 := a.trans d
    rcases le_total p1 q1 with h | h <;> rcases le_total p2 q2 with h' | h'
    · exact c5 ⟨⟨h, k1⟩, k1, h'⟩
    · exact c1 ⟨⟨h, k1⟩, k2, h'⟩
    · exact c2 ⟨⟨h, k2⟩, k1, h'⟩
    · exact c7 ⟨⟨k2, h'⟩, h, k2⟩

theorem onSeg_det {p q r : Pt K} (h : OnSeg p q r) : det p q r = 0 := by
  obtain ⟨t, -, -, hx, hy⟩ := h
  rw [det_param hx hy]; simp

theorem ofLine_swap (a b : Pt K) : LineOrPoint.ofLine ⟨a, b⟩ = LineOrPoint.ofLine ⟨b, a⟩ := by
  rcases lt_trichotomy a b with h | rfl | h
  · rw [ofLine_lt h, ofLine_gt h]
  · rfl
  · rw [ofLine_gt h, ofLine_lt h]

theorem inRect_swap (a b c : Pt K) : inRect ⟨a, b⟩ c = inRect ⟨b, a⟩ c := by
  simp only [inRect, min_comm, max_comm]

theorem onSeg_swap {a b r : Pt K} : OnSeg a b r ↔ OnSeg b a r := by
  have : ∀ a b : Pt K, OnSeg a b r → OnSeg b a r := by
    rintro a b ⟨t, h0, h1, hx, hy⟩
    exact ⟨1 - t, by linarith, by linarith, by rw [hx]; ring, by rw [hy]; ring⟩
  exact ⟨this _ _, this _ _⟩

theorem collinearIntersection_swap_left (p1 p2 : Pt K) (q : Line K) :
    (collinearIntersection ⟨p1, p2⟩ q).map LineIntersection.toGeom = (collinearIntersection ⟨p2, p1⟩ q).map LineIntersection.toGeom := by
  unfold collinearIntersection
  simp only [inRect_swap p1 p2]
  cases inRect ⟨p2, p1⟩ q.start <;> cases inRect ⟨p2, p1⟩ q.stop <;> cases inRect q p1 <;> cases inRect q p2 <;>
    simp [LineIntersection.toGeom, ofLine_swap p1 p2]

theorem collinearIntersection_swap_right (p : Line K) (q1 q2 : Pt K) :
    (collinearIntersection p ⟨q1, q2⟩).map LineIntersection.toGeom = (collinearIntersection p ⟨q2, q1⟩).map LineIntersection.toGeom := by
  unfold collinearIntersection
  simp only [inRect_swap q1 q2]
  cases inRect ⟨q2, q1⟩ p.start <;> cases inRect ⟨q2, q1⟩ p.stop <;> cases inRect p q1 <;> cases inRect p q2 <;>
    simp [LineIntersection.toGeom, ofLine_swap q1 q2]

theorem collinearIntersection_ne {p1 p2 q1 q2 : Pt K} (hp : p1 ≠ p2) (hq : q1 ≠ q2)
    (d1 : det p1 p2 q1 = 0) (d2 : det p1 p2 q2 = 0) :
    IsInter ((collinearIntersection ⟨p1, p2⟩ ⟨q1, q2⟩).map LineIntersection.toGeom) (OnSeg p1 p2) (OnSeg q1 q2) := by
  have sw : ∀ a b : Pt K, (OnSeg a b) = (OnSeg b a) := fun a b => funext fun r => propext onSeg_swap
  rcases lt_or_gt_of_ne hp with h | h <;> rcases lt_or_gt_of_ne hq with h' | h'
  · exact collinearIntersection_spec h h' d1 d2
  · rw [collinearIntersection_swap_right, sw q1]
    exact collinearIntersection_spec h h' d2 d1
  · rw [collinearIntersection_swap_left, sw p1]
    exact collinearIntersection_spec h h' (by rw [det_swap12, d1, neg_zero]) (by rw [det_swap12, d2, neg_zero])
  · rw [collinearIntersection_swap_left, collinearIntersection_swap_right, sw p1, sw q1]
    exact collinearIntersection_spec h h' (by rw [det_swap12, d2, neg_zero]) (by rw [det_swap12, d1, neg_zero])

/-- Segments on different lines have at most one common point. -/
theorem inter_point {p1 p2 q1 q2 z : Pt K} (_hp : p1 ≠ p2) (hq : q1 ≠ q2)
    (hne : ¬ (det p1 p2 q1 = 0 ∧ det p1 p2 q2 = 0)) (h1 : OnSeg p1 p2 z) (h2 : OnSeg q1 q2 z) :
    IsInter (some (.point z)) (OnSeg p1 p2) (OnSeg q1 q2) := by
  refine ⟨trivial, fun r => ⟨?_, ?_⟩⟩
  · rintro rfl; exact ⟨h1, h2⟩
  · rintro ⟨h3, h4⟩
    by_contra hrz
    simp only [On] at hrz
    have := det_symm hq (onSeg_det h4) (onSeg_det h2)
    exact hne ⟨det_trans hrz (onSeg_det h3) (onSeg_det h1) this.1, det_trans hrz (onSeg_det h3) (onSeg_det h1) this.2⟩

theorem lineIntersection_ne {p1 p2 q1 q2 : Pt K} (hp : p1 ≠ p2) (hq : q1 ≠ q2) :
    IsInter ((lineIntersection ⟨p1, p2⟩ ⟨q1, q2⟩).map LineIntersection.toGeom) (OnSeg p1 p2) (OnSeg q1 q2) := by
  have none_of : (∀ r, OnSeg p1 p2 r → OnSeg q1 q2 r → False) →
      IsInter ((none : Option (LineIntersection K)).map LineIntersection.toGeom) (OnSeg p1 p2) (OnSeg q1 q2) :=
    fun h r hr => h r hr.1 hr.2
  have coll_all : det p1 p2 q1 = 0 ∧ det p1 p2 q2 = 0 ↔ det q1 q2 p1 = 0 ∧ det q1 q2 p2 = 0 :=
    ⟨fun h => det_symm hp h.1 h.2, fun h => det_symm hq h.1 h.2⟩
  unfold lineIntersection
  simp only
  by_cases c0 : (!rectsMeet ⟨p1, p2⟩ ⟨q1, q2⟩) = true
  · rw [if_pos c0]
    refine none_of fun r h1 h2 => ?_
    rw [rectsMeet_of_common h1 h2] at c0; simp at c0
  rw [if_neg c0]
  by_cases c1 : orient2d p1 p2 q1 = orient2d p1 p2 q2 ∧ orient2d p1 p2 q1 ≠ .collinear
  · rw [if_pos c1]
    refine none_of fun r h1 h2 => ?_
    exact (opp_iff_orient _ _ _ _).1 (opp_of_common (onSeg_det h1) h2) c1
  rw [if_neg c1]
  by_cases c2 : orient2d q1 q2 p1 = orient2d q1 q2 p2 ∧ orient2d q1 q2 p1 ≠ .collinear
  · rw [if_pos c2]
    refine none_of fun r h1 h2 => ?_
    exact (opp_iff_orient _ _ _ _).1 (opp_of_common (onSeg_det h2) h1) c2
  rw [if_neg c2]
  by_cases c3 : orient2d p1 p2 q1 = .collinear ∧ orient2d p1 p2 q2 = .collinear ∧
      orient2d q1 q2 p1 = .collinear ∧ orient2d q1 q2 p2 = .collinear
  · rw [if_pos c3]
    obtain ⟨a, b, -, -⟩ := c3
    exact collinearIntersection_ne hp hq ((orient2d_coll _ _ _).1 a) ((orient2d_coll _ _ _).1 b)
  rw [if_neg c3]
  by_cases c4 : orient2d p1 p2 q1 = .collinear ∨ orient2d p1 p2 q2 = .collinear ∨
      orient2d q1 q2 p1 = .collinear ∨ orient2d q1 q2 p2 = .collinear
  · rw [if_pos c4]
    -- not all collinear, but some end point lies on the other line
    have o1 := (opp_iff_orient _ _ _ _).2 c1
    have o2 := (opp_iff_orient _ _ _ _).2 c2
    simp only [orient2d_coll] at c3 c4 ⊢
    have hne : ¬ (det p1 p2 q1 = 0 ∧ det p1 p2 q2 = 0) := by
      intro h; exact c3 ⟨h.1, h.2, (coll_all.1 h)⟩
    have hne' : ¬ (det q1 q2 p1 = 0 ∧ det q1 q2 p2 = 0) := fun h => hne (coll_all.2 h)
    simp only [Option.map_some, LineIntersection.toGeom, LineOrPoint.ofCoord]
    apply inter_point hp hq hne
    · split_ifs with e1 e2 e3 e4 e5
      · exact onSeg_left _ _
      · exact onSeg_right _ _
      · exact onSeg_of_opp hp e3 (det_left _ _) o2 hne'
      · exact onSeg_of_opp hp e4 (det_right _ _) o2 hne'
      · exact onSeg_left _ _
      · exact onSeg_right _ _
    · split_ifs with e1 e2 e3 e4 e5
      · rcases e1 with e | e <;> rw [e]
        · exact onSeg_left _ _
        · exact onSeg_right _ _
      · rcases e2 with e | e <;> rw [e]
        · exact onSeg_left _ _
        · exact onSeg_right _ _
      · exact onSeg_left _ _
      · exact onSeg_right _ _
      · exact onSeg_of_opp hq e5 (det_left _ _) o1 hne
      · have e6 : det q1 q2 p2 = 0 := ((c4.resolve_left e3).resolve_left e4).resolve_left e5
        exact onSeg_of_opp hq e6 (det_right _ _) o1 hne
  · rw [if_neg c4]
    -- proper crossing
    have o1 := (opp_iff_orient _ _ _ _).2 c1
    have o2 := (opp_iff_orient _ _ _ _).2 c2
    simp only [orient2d_coll] at c3 c4 ⊢
    push Not at c4
    have hne : ¬ (det p1 p2 q1 = 0 ∧ det p1 p2 q2 = 0) := fun h => c4.1 h.1
    have hne' : ¬ (det q1 q2 p1 = 0 ∧ det q1 q2 p2 = 0) := fun h => c4.2.2.1 h.1
    have hden : det q1 q2 p1 - det q1 q2 p2 ≠ 0 := by
      intro h
      rcases lt_or_gt_of_ne c4.2.2.1 with h' | h'
      · exact o2.2 ⟨h', by linarith⟩
      · exact o2.1 ⟨h', by linarith⟩
    simp only [Option.map_some, LineIntersection.toGeom, LineOrPoint.ofCoord]
    obtain ⟨z, hz⟩ : ∃ z, z = properIntersection ⟨p1, p2⟩ ⟨q1, q2⟩ := ⟨_, rfl⟩
    have hx : z.x = p1.x + det q1 q2 p1 / (det q1 q2 p1 - det q1 q2 p2) * (p2.x - p1.x) := by rw [hz]; rfl
    have hy : z.y = p1.y + det q1 q2 p1 / (det q1 q2 p1 - det q1 q2 p2) * (p2.y - p1.y) := by rw [hz]; rfl
    have z1 : det q1 q2 z = 0 := by
      rw [det_param hx hy]; field_simp; ring
    have z2 : det p1 p2 z = 0 := by
      rw [det_param hx hy]; simp
    rw [← hz]
    exact inter_point hp hq hne (onSeg_of_opp hp z2 z1 o2 hne') (onSeg_of_opp hq z1 z2 o1 hne)

theorem lineIntersection_spec {p1 p2 q1 q2 : Pt K} (hp : p1 < p2) (hq : q1 < q2) :
    IsInter ((lineIntersection ⟨p1, p2⟩ ⟨q1, q2⟩).map LineIntersection.toGeom) (OnSeg p1 p2) (OnSeg q1 q2) :=
  lineIntersection_ne hp.ne hq.ne

theorem onSeg_refl_iff {p x : Pt K} : OnSeg p p x ↔ x = p := by
  constructor
  · rintro ⟨t, h0, h1, hx, hy⟩
    cases x; cases p
    simp_all
  · rintro rfl; exact onSeg_left _ _

theorem inRect_onSeg {a b c : Pt K} (hc : det a b c = 0) : inRect ⟨a, b⟩ c = true ↔ OnSeg a b c := by
  rcases lt_trichotomy a b with h | rfl | h
  · rw [inRect_iff h hc, onSeg_iff h]; simp [hc]
  · rw [onSeg_refl_iff]
    simp only [inRect, min_self, max_self, Bool.and_eq_true, decide_eq_true_eq]
    constructor
    · rintro ⟨⟨h1, h2⟩, h3, h4⟩
      cases a; cases c
      simp only [Pt.mk.injEq]
      exact ⟨le_antisymm h2 h1, le_antisymm h4 h3⟩
    · rintro rfl; exact ⟨⟨le_rfl, le_rfl⟩, le_rfl, le_rfl⟩
  · have hc' : det b a c = 0 := by rw [det_swap12, hc, neg_zero]
    rw [inRect_swap, inRect_iff h hc', onSeg_swap, onSeg_iff h]; simp [hc']

theorem ofLine_self (p : Pt K) : LineOrPoint.ofLine ⟨p, p⟩ = .point p := by
  unfold LineOrPoint.ofLine
  rw [show compare (Line.mk p p).start (Line.mk p p).stop = .eq from compare_eq_iff_eq.2 rfl]

/-- `line_intersection` computes the intersection of any two lines, in any direction and degenerate or not. -/
theorem lineIntersection_isInter (a b : Line K) :
    IsInter ((lineIntersection a b).map LineIntersection.toGeom) (OnSeg a.start a.stop) (OnSeg b.start b.stop) := by
  obtain ⟨p1, p2⟩ := a
  obtain ⟨q1, q2⟩ := b
  by_cases hp : p1 = p2
  · subst hp
    have hpt : OnSeg q1 q2 p1 → IsInter (some (.point p1)) (OnSeg p1 p1) (OnSeg q1 q2) := by
      intro h
      refine ⟨trivial, fun r => ?_⟩
      rw [onSeg_refl_iff]
      exact ⟨fun e => ⟨e, by rw [show r = p1 from e]; exact h⟩, fun e => e.1⟩
    have hno : ¬ OnSeg q1 q2 p1 → IsInter (none : Option (LineOrPoint K)) (OnSeg p1 p1) (OnSeg q1 q2) := by
      rintro h r ⟨h1, h2⟩
      rw [onSeg_refl_iff] at h1
      exact h (h1 ▸ h2)
    have oc : ∀ r : Pt K, orient2d p1 p1 r = .collinear := fun r => (orient2d_coll _ _ _).2 (det_self _ _)
    unfold lineIntersection
    simp only [oc, ne_eq, not_true_eq_false, and_false, if_false, true_and, true_or, if_true, and_self]
    by_cases c0 : (!rectsMeet ⟨p1, p1⟩ ⟨q1, q2⟩) = true
    · rw [if_pos c0]
      refine hno fun h => ?_
      rw [rectsMeet_of_common (onSeg_left p1 p1) h] at c0; simp at c0
    rw [if_neg c0]
    by_cases c2 : orient2d q1 q2 p1 = .collinear
    · rw [if_neg (by simp [c2]), if_pos c2]
      have hd := (orient2d_coll _ _ _).1 c2
      unfold collinearIntersection
      simp only
      by_cases e1 : (inRect ⟨p1, p1⟩ q1 && inRect ⟨p1, p1⟩ q2) = true
      · rw [if_pos e1]
        rw [Bool.and_eq_true, inRect_onSeg (det_self _ _), inRect_onSeg (det_self _ _), onSeg_refl_iff, onSeg_refl_iff] at e1
        obtain ⟨rfl, rfl⟩ := e1
        simp only [Option.map_some, LineIntersection.toGeom, ofLine_self]
        exact hpt (onSeg_left _ _)
      rw [if_neg e1, Bool.and_self]
      by_cases e2 : inRect ⟨q1, q2⟩ p1 = true
      · rw [if_pos e2]
        simp only [Option.map_some, LineIntersection.toGeom, ofLine_self]
        exact hpt ((inRect_onSeg hd).1 e2)
      · rw [if_neg e2]
        simp only [Bool.not_eq_true] at e2
        simp only [e2, Bool.and_false, Bool.false_eq_true, if_false]
        refine hno fun h => ?_
        rw [(inRect_onSeg hd).2 h] at e2; cases e2
    · rw [if_pos (by simpa using c2)]
      exact hno fun h => c2 ((orient2d_coll _ _ _).2 (onSeg_det h))
  · by_cases hq : q1 = q2
    · subst hq
      have hpt : OnSeg p1 p2 q1 → IsInter (some (.point q1)) (OnSeg p1 p2) (OnSeg q1 q1) := by
        intro h
        refine ⟨trivial, fun r => ?_⟩
        rw [onSeg_refl_iff]
        exact ⟨fun e => ⟨by rw [show r = q1 from e]; exact h, e⟩, fun e => e.2⟩
      have hno : ¬ OnSeg p1 p2 q1 → IsInter (none : Option (LineOrPoint K)) (OnSeg p1 p2) (OnSeg q1 q1) := by
        rintro h r ⟨h1, h2⟩
        rw [onSeg_refl_iff] at h2
        exact h (h2 ▸ h1)
      have oc : ∀ r : Pt K, orient2d q1 q1 r = .collinear := fun r => (orient2d_coll _ _ _).2 (det_self _ _)
      unfold lineIntersection
      simp only [oc, ne_eq, not_true_eq_false, and_false, if_false, true_and, and_true, or_true, if_true, and_self]
      by_cases c0 : (!rectsMeet ⟨p1, p2⟩ ⟨q1, q1⟩) = true
      · rw [if_pos c0]
        refine hno fun h => ?_
        rw [rectsMeet_of_common h (onSeg_left q1 q1)] at c0; simp at c0
      rw [if_neg c0]
      by_cases c2 : orient2d p1 p2 q1 = .collinear
      · rw [if_neg (by simp [c2]), if_pos c2]
        have hd := (orient2d_coll _ _ _).1 c2
        unfold collinearIntersection
        simp only
        rw [Bool.and_self]
        by_cases e2 : inRect ⟨p1, p2⟩ q1 = true
        · rw [if_pos e2]
          simp only [Option.map_some, LineIntersection.toGeom, ofLine_self]
          exact hpt ((inRect_onSeg hd).1 e2)
        rw [if_neg e2, if_neg, Bool.not_eq_true] at *
        · simp only [e2, Bool.false_and, Bool.false_eq_true, if_false]
          refine hno fun h => ?_
          rw [(inRect_onSeg hd).2 h] at e2; cases e2
        · intro e
          rw [Bool.and_eq_true, inRect_onSeg (det_self _ _), inRect_onSeg (det_self _ _), onSeg_refl_iff, onSeg_refl_iff] at e
          exact hp (e.1.trans e.2.symm)
      · rw [if_pos (by simpa using c2)]
        exact hno fun h => c2 ((orient2d_coll _ _ _).2 (onSeg_det h))
    · exact lineIntersection_ne hp hq

end GeoCrossings
