import Verif.Props.Scanner

/-!
# One chain nowhere below another
-/
set_option linter.unusedSectionVars false
namespace GeoCrossings
open Spec

variable {K : Type _} [Field K] [LinearOrder K] [IsStrictOrderedRing K]

/-- Two edges of an increasing chain in one column are equal. -/
theorem edgeOf_unique {l : List (Pt K)} {a b c d : Pt K} (h : l.Pairwise (· < ·)) (h1 : EdgeOf l a b) (h2 : EdgeOf l c d)
    {x : K} (ha : a.x ≤ x) (hb : x < b.x) (hc : c.x ≤ x) (hd : x < d.x) : a = c ∧ b = d := by
  induction l with
  | nil => obtain ⟨pre, post, e⟩ := h1; simp at e
  | cons p l ih =>
    cases l with
    | nil => exact absurd h1 edgeOf_singleton
    | cons q l =>
      have hp := List.pairwise_cons.1 h
      have key : ∀ {c d : Pt K}, EdgeOf (q :: l) c d → q.x ≤ c.x := by
        rintro c d ⟨pre, post, e⟩
        cases pre with
        | nil => simp at e; rw [e.1]
        | cons z pre =>
          simp at e
          refine Pt.x_le_of_le ((List.pairwise_cons.1 hp.2).1 c ?_).le
          rw [e.2]; simp
      rw [edgeOf_cons_iff] at h1 h2
      rcases h1 with ⟨rfl, rfl⟩ | h1 <;> rcases h2 with ⟨rfl, rfl⟩ | h2
      · exact ⟨rfl, rfl⟩
      · exact absurd ((key h2).trans hc) (not_le.2 hb)
      · exact absurd ((key h1).trans ha) (not_le.2 hd)
      · exact ih hp.2 h1 h2

theorem onSeg_x_bounds {a b r : Pt K} (h : a < b) (hr : OnSeg a b r) : a.x ≤ r.x ∧ r.x ≤ b.x := by
  obtain ⟨-, h1, h2⟩ := (onSeg_iff h).1 hr
  exact ⟨Pt.x_le_of_le h1, Pt.x_le_of_le h2⟩

/-- `det` at a point of the column of a point on the line. -/
theorem det_column {a b r : Pt K} (h : det a b r = 0) (y : K) : det a b ⟨r.x, y⟩ = (b.x - a.x) * (y - r.y) := by
  have : det a b ⟨r.x, y⟩ = det a b r + (b.x - a.x) * (y - r.y) := by simp only [det]; ring
  rw [this, h, zero_add]

theorem det_line {a b : Pt K} {x1 y1 x2 y2 : K} (h1 : det a b ⟨x1, y1⟩ = 0) (h2 : det a b ⟨x2, y2⟩ = 0) (s : K) :
    det a b ⟨x1 + s * (x2 - x1), y1 + s * (y2 - y1)⟩ = 0 := by
  have : det a b ⟨x1 + s * (x2 - x1), y1 + s * (y2 - y1)⟩ = (1 - s) * det a b ⟨x1, y1⟩ + s * det a b ⟨x2, y2⟩ := by
    simp only [det]; ring
  rw [this, h1, h2]; ring

/-- A linear function that is not negative in the inside of an interval is not negative at its ends. -/
theorem nonneg_ends {p q : K} (h : ∀ s, 0 < s → s < 1 → 0 ≤ p + s * (q - p)) : 0 ≤ p ∧ 0 ≤ q := by
  have key : ∀ p q : K, (∀ s, 0 < s → s < 1 → 0 ≤ p + s * (q - p)) → 0 ≤ p := by
    intro p q h
    by_contra hp
    have hp := not_le.1 hp
    rcases le_or_gt q 0 with hq | hq
    · have := h (1 / 2) (by norm_num) (by norm_num)
      linarith
    · have hd : 0 < 2 * (q - p) := by linarith
      have := h (-p / (2 * (q - p))) (div_pos (by linarith) hd) (by rw [div_lt_one hd]; linarith)
      have e : -p / (2 * (q - p)) * (q - p) = -p / 2 := by
        have : q - p ≠ 0 := by linarith
        field_simp
      rw [e] at this
      linarith
  refine ⟨key p q h, key q p fun s h0 h1 => ?_⟩
  have := h (1 - s) (by linarith) (by linarith)
  linarith

/-- With `top` nowhere below `bot`, nor is the upper side of a trapezoid below its lower side. -/
theorem follows_nowhere {m : MonoPoly K} (hm : MonotonePair m.top m.bot) (ha : NowhereBelow m.top m.bot) {t : Trapz K} (h : Follows m t)
    (hw : t.left.x < t.right.x) : t.left.bot ≤ t.left.top ∧ t.right.bot ≤ t.right.top := by
  obtain ⟨-, -, -, -, -, st, sb⟩ := hm
  obtain ⟨⟨a, b, h1, h2, h3⟩, ⟨c, d, h4, h5, h6⟩⟩ := h
  have wab := edgeOf_lt st h1
  have wcd := edgeOf_lt sb h4
  obtain ⟨a1, -⟩ := onSeg_x_bounds wab h2
  obtain ⟨-, b1⟩ := onSeg_x_bounds wab h3
  obtain ⟨c1, -⟩ := onSeg_x_bounds wcd h5
  obtain ⟨-, d1⟩ := onSeg_x_bounds wcd h6
  simp only at a1 b1 c1 d1
  have := nonneg_ends (p := t.left.top - t.left.bot) (q := t.right.top - t.right.bot) fun s s0 s1 => by
    by_contra hn
    have hn := not_le.1 hn
    set x := t.left.x + s * (t.right.x - t.left.x) with hx
    set yt := t.left.top + s * (t.right.top - t.left.top) with hyt
    set yb := t.left.bot + s * (t.right.bot - t.left.bot) with hyb
    have hlt : yt < yb := by rw [hyt, hyb]; linarith
    have hd : 0 < t.right.x - t.left.x := sub_pos.2 hw
    have x1 : t.left.x < x := by rw [hx]; have := mul_pos s0 hd; linarith
    have x2 : x < t.right.x := by
      rw [hx]
      have := mul_lt_mul_of_pos_right s1 hd
      linarith
    have dt : det a b ⟨x, yt⟩ = 0 := det_line ((onSeg_iff wab).1 h2).1 ((onSeg_iff wab).1 h3).1 s
    have db : det c d ⟨x, yb⟩ = 0 := det_line ((onSeg_iff wcd).1 h5).1 ((onSeg_iff wcd).1 h6).1 s
    have ab : a.x < b.x := by linarith
    have cd : c.x < d.x := by linarith
    obtain ⟨c', d', h7, h8⟩ := ha ⟨x, (yt + yb) / 2⟩ ⟨a, b, h1, (passesBelow_iff_of_lt ab).2
      ⟨by simp only; linarith, by simp only; linarith, by
        have := det_column dt ((yt + yb) / 2)
        simp only at this
        rw [this]
        exact mul_pos (by linarith) (by linarith)⟩⟩
    have h9 : c'.x ≤ x ∧ x < d'.x ∧ 0 < det c' d' ⟨x, (yt + yb) / 2⟩ := by
      have := Pt.x_le_of_le (edgeOf_lt sb h7).le
      rcases this.lt_or_eq with k | k
      · exact (passesBelow_iff_of_lt k).1 h8
      · obtain ⟨k1, k2, -⟩ := h8
        rw [k, min_self] at k1
        rw [k, max_self] at k2
        exact absurd k1 (not_le.2 k2)
    obtain ⟨rfl, rfl⟩ := edgeOf_unique sb h7 h4 (x := x) h9.1 h9.2.1 (by linarith) (by linarith)
    have := det_column db ((yt + yb) / 2)
    simp only at this
    rw [this] at h9
    have := mul_neg_of_pos_of_neg (sub_pos.2 cd) (by linarith : (yt + yb) / 2 - yb < 0)
    linarith [h9.2.2]
  exact ⟨by linarith [this.1], by linarith [this.2]⟩

theorem exists_column : ∀ {l : List (Pt K)} {s e : Pt K}, Leads l s e → ∀ {x : K}, s.x ≤ x → x < e.x →
    ∃ a b, EdgeOf l a b ∧ a.x ≤ x ∧ x < b.x
  | [], _, _, h, _, _, _ => by simp [Leads] at h
  | [a], s, e, h, x, h1, h2 => by
    simp only [Leads, List.head?_cons, List.getLast?_singleton, Option.some.injEq] at h
    rw [← h.1, h.2] at h1
    exact absurd h1 (not_le.2 h2)
  | a :: b :: l, s, e, h, x, h1, h2 => by
    obtain ⟨ha, he⟩ := h
    simp only [List.head?_cons, Option.some.injEq] at ha
    subst ha
    rcases lt_or_ge x b.x with k | k
    · exact ⟨a, b, ⟨[], l, rfl⟩, h1, k⟩
    · obtain ⟨c, d, h3, h4⟩ := exists_column (l := b :: l) (s := b) (e := e) ⟨rfl, by simpa using he⟩ k h2
      exact ⟨c, d, edgeOf_cons h3, h4⟩

theorem LiesAbove.nowhereBelow {top bot : List (Pt K)} (hm : MonotonePair top bot) (ha : LiesAbove top bot) : NowhereBelow top bot := by
  obtain ⟨s, e, -, lt, lb, st, sb⟩ := hm
  rintro r ⟨a, b, h1, h2⟩
  have wab := edgeOf_lt st h1
  obtain ⟨h3, h4, h, h5, h6⟩ := h2
  have xab := Pt.x_le_of_le wab.le
  rw [min_eq_left xab] at h3
  rw [max_eq_right xab] at h4
  have b1 := Pt.x_le_of_le (sorted_bounds lt st (edgeOf_mem h1).1).1
  have b2 := Pt.x_le_of_le (sorted_bounds lt st (edgeOf_mem h1).2).2
  obtain ⟨c, d, h7, h8, h9⟩ := exists_column lb (b1.trans h3) (h4.trans_le b2)
  have on := onSeg_of_hgt (h8.trans_lt h9) h8 h9.le
  have := ha _ _ _ ⟨a, b, h1, h6⟩ ⟨c, d, h7, on⟩
  refine ⟨c, d, h7, ?_, ?_, _, lt_of_le_of_lt this h5, on⟩
  · rw [min_eq_left (h8.trans h9.le)]; exact h8
  · rw [max_eq_right (h8.trans h9.le)]; exact h9

theorem Contiguous.width {a b : K} : ∀ {ts : List (Trapz K)} {a : K}, Contiguous a ts b → ∀ t ∈ ts, t.left.x < t.right.x
  | [], _, _, t, ht => by simp at ht
  | z :: ts, _, h, t, ht => by
    rcases List.mem_cons.1 ht with rfl | ht
    · exact h.2.1
    · exact Contiguous.width (a := a) h.2.2 t ht

theorem Contiguous.cover {b x : K} : ∀ {ts : List (Trapz K)} {a : K}, Contiguous a ts b → a ≤ x → x < b →
    ∃ t ∈ ts, t.left.x ≤ x ∧ x < t.right.x
  | [], _, h, h1, h2 => by
    simp only [Contiguous] at h
    rw [h] at h1
    exact absurd h1 (not_le.2 h2)
  | z :: ts, _, h, h1, h2 => by
    rcases lt_or_ge x z.right.x with k | k
    · exact ⟨z, by simp, by rw [h.1]; exact h1, k⟩
    · obtain ⟨t, ht, h3⟩ := Contiguous.cover h.2.2 k h2
      exact ⟨t, by simp [ht], h3⟩

theorem sum_nonneg' : ∀ {l : List K}, (∀ x ∈ l, 0 ≤ x) → 0 ≤ l.sum
  | [], _ => by simp
  | a :: l, h => by
    rw [List.sum_cons]
    exact add_nonneg (h a (by simp)) (sum_nonneg' fun x hx => h x (by simp [hx]))

theorem sum_pos' {l : List K} (h : ∀ x ∈ l, 0 ≤ x) {x : K} (hx : x ∈ l) (h0 : 0 < x) : 0 < l.sum := by
  induction l with
  | nil => simp at hx
  | cons a l ih =>
    rw [List.sum_cons]
    rcases List.mem_cons.1 hx with rfl | hx
    · exact add_pos_of_pos_of_nonneg h0 (sum_nonneg' fun x hx => h x (by simp [hx]))
    · exact add_pos_of_nonneg_of_pos (h a (by simp)) (ih (fun x hx => h x (by simp [hx])) hx)

/-- The area of a polygon whose upper chain is nowhere below its lower chain is not negative; it is positive if there is a point
between the chains. -/
theorem area_between {m : MonoPoly K} (hm : MonotonePair m.top m.bot) (ha : NowhereBelow m.top m.bot) :
    0 ≤ areaUnder m.top - areaUnder m.bot ∧
    ∀ r, ChainBelow m.bot r → ¬ ChainBelow m.top r → 0 < areaUnder m.top - areaUnder m.bot := by
  obtain ⟨p, e, -, lt, lb, st, sb⟩ := id hm
  obtain ⟨s0, h0, -, -, -, hx0⟩ := scanner_new hm
  obtain ⟨-, s, ts, -, h2, h3, -, h5⟩ := C45_contiguous hm lt.1 lt.2 (.init h0) e.x
  have hx := hx0 p lt.1
  have pe : p.x ≤ e.x := Pt.x_le_of_le (sorted_bounds lt st (List.mem_of_head? lt.1)).2
  have he : s.curr.x = e.x := by
    rw [h5, hx]
    rcases pe.lt_or_eq with k | k
    · rw [if_pos k, min_self]
    · rw [if_neg (by rw [k]; exact lt_irrefl _), k]
  rw [List.nil_append] at h2
  obtain ⟨hf, har⟩ := C46_follows_and_area hm h2
  obtain ⟨har, -⟩ := har e lt.2 he
  rw [← har]
  have hv : ∀ t ∈ ts, t.left.bot ≤ t.left.top ∧ t.right.bot ≤ t.right.top := fun t ht =>
    follows_nowhere hm ha (hf t ht) (Contiguous.width (a := 0) h3 t ht)
  have hnn : ∀ x ∈ ts.map Trapz.area, 0 ≤ x := by
    intro x hx
    obtain ⟨t, ht, rfl⟩ := List.mem_map.1 hx
    have w := Contiguous.width (a := 0) h3 t ht
    obtain ⟨v1, v2⟩ := hv t ht
    unfold Trapz.area
    exact mul_nonneg (div_nonneg (by linarith) (by norm_num)) (by linarith)
  refine ⟨sum_nonneg' hnn, fun r hb ht => ?_⟩
  obtain ⟨c, d, hcd, hpass⟩ := hb
  have wcd := edgeOf_lt sb hcd
  have b3 : c.x < d.x := by
    rcases (Pt.x_le_of_le wcd.le).lt_or_eq with k | k
    · exact k
    · obtain ⟨k1, k2, -⟩ := hpass
      rw [k, min_self] at k1
      rw [k, max_self] at k2
      exact absurd k1 (not_le.2 k2)
  obtain ⟨p1, p2, p3⟩ := (passesBelow_iff_of_lt b3).1 hpass
  have b1 := Pt.x_le_of_le (sorted_bounds lb sb (edgeOf_mem hcd).1).1
  have b2 := Pt.x_le_of_le (sorted_bounds lb sb (edgeOf_mem hcd).2).2
  rw [hx, he] at h3
  obtain ⟨t, htm, t1, t2⟩ := Contiguous.cover h3 (b1.trans p1) (p2.trans_le b2)
  refine sum_pos' hnn (List.mem_map_of_mem htm) ?_
  obtain ⟨v1, v2⟩ := hv t htm
  obtain ⟨⟨a, b, f1, f2, f3⟩, ⟨c', d', f4, f5, f6⟩⟩ := hf t htm
  have wab := edgeOf_lt st f1
  have wcd' := edgeOf_lt sb f4
  obtain ⟨q1, -⟩ := onSeg_x_bounds wab f2
  obtain ⟨-, q2⟩ := onSeg_x_bounds wab f3
  obtain ⟨q3, -⟩ := onSeg_x_bounds wcd' f5
  obtain ⟨-, q4⟩ := onSeg_x_bounds wcd' f6
  simp only at q1 q2 q3 q4
  obtain ⟨rfl, rfl⟩ := edgeOf_unique sb f4 hcd (x := r.x) (q3.trans t1) (t2.trans_le q4) p1 p2
  set w := t.right.x - t.left.x with hw
  have hw0 : 0 < w := by rw [hw]; linarith
  set k := (r.x - t.left.x) / w with hk
  have hkw : k * w = r.x - t.left.x := by rw [hk]; field_simp
  have k0 : 0 ≤ k := div_nonneg (by linarith) hw0.le
  have k1 : k < 1 := by rw [hk, div_lt_one hw0, hw]; linarith
  have ex : t.left.x + k * (t.right.x - t.left.x) = r.x := by rw [← hw, hkw]; ring
  have dt := det_line ((onSeg_iff wab).1 f2).1 ((onSeg_iff wab).1 f3).1 k
  have db := det_line ((onSeg_iff wcd').1 f5).1 ((onSeg_iff wcd').1 f6).1 k
  rw [ex] at dt db
  have ab : a.x < b.x := by linarith
  have h6 : ¬ 0 < det a b r := fun hd => ht ⟨a, b, f1, (passesBelow_iff_of_lt ab).2 ⟨by linarith, by linarith, hd⟩⟩
  have et := det_column dt r.y
  have eb := det_column db r.y
  simp only at et eb
  have er : (⟨r.x, r.y⟩ : Pt K) = r := rfl
  rw [er] at et eb
  rw [et] at h6
  rw [eb] at p3
  have y1 : r.y ≤ t.left.top + k * (t.right.top - t.left.top) := by
    by_contra hn
    exact h6 (mul_pos (by linarith) (by linarith))
  have y2 : t.left.bot + k * (t.right.bot - t.left.bot) < r.y := by
    have := (mul_pos_iff_of_pos_left (sub_pos.2 b3)).1 p3
    linarith
  have hD : 0 < (1 - k) * (t.left.top - t.left.bot) + k * (t.right.top - t.right.bot) := by
    have : (1 - k) * (t.left.top - t.left.bot) + k * (t.right.top - t.right.bot) =
      (t.left.top + k * (t.right.top - t.left.top)) - (t.left.bot + k * (t.right.bot - t.left.bot)) := by ring
    rw [this]; linarith
  have hsum : 0 < (t.left.top - t.left.bot) + (t.right.top - t.right.bot) := by
    have a1 : (1 - k) * (t.left.top - t.left.bot) ≤ t.left.top - t.left.bot := by
      have := mul_nonneg k0 (sub_nonneg.2 v1)
      linarith
    have a2 : k * (t.right.top - t.right.bot) ≤ t.right.top - t.right.bot := by
      have := mul_nonneg (by linarith : (0 : K) ≤ 1 - k) (sub_nonneg.2 v2)
      linarith
    linarith
  unfold Trapz.area
  exact mul_pos (div_pos hsum (by norm_num)) hw0

end GeoCrossings
