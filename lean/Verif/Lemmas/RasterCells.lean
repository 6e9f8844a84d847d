import Verif.Lemmas.RasterTotal
import Verif.Lemmas.MonoArea

/-! # The points of the swept trapezoids are those between the chains -/
set_option linter.unusedSectionVars false
namespace GeoCrossings
open Spec GeoCrossings.Monotone

variable {K : Type} [Field K] [LinearOrder K] [IsStrictOrderedRing K]

/-- The height of the upper side of `t` at the abscissa `x`. -/
def Trapz.topAt (t : Trapz K) (x : K) : K := t.left.top + (x - t.left.x) / (t.right.x - t.left.x) * (t.right.top - t.left.top)

/-- The height of the lower side of `t` at the abscissa `x`. -/
def Trapz.botAt (t : Trapz K) (x : K) : K := t.left.bot + (x - t.left.x) / (t.right.x - t.left.x) * (t.right.bot - t.left.bot)

theorem inTrapz_iff {t : Trapz K} (hw : t.left.x < t.right.x) {r : Pt K} :
    InTrapz t r ↔ (t.left.x ≤ r.x ∧ r.x ≤ t.right.x) ∧ t.botAt r.x ≤ r.y ∧ r.y ≤ t.topAt r.x := by
  have hd : 0 < t.right.x - t.left.x := sub_pos.2 hw
  constructor
  · rintro ⟨s, s0, s1, hx, h1, h2⟩
    have e : (r.x - t.left.x) / (t.right.x - t.left.x) = s := by
      rw [hx, add_sub_cancel_left]; exact mul_div_cancel_right₀ _ hd.ne'
    refine ⟨⟨?_, ?_⟩, ?_, ?_⟩
    · rw [hx]; have := mul_nonneg s0 hd.le; linarith
    · rw [hx]; have := mul_le_mul_of_nonneg_right s1 hd.le; linarith
    · rw [Trapz.botAt, e]; exact h1
    · rw [Trapz.topAt, e]; exact h2
  · rintro ⟨⟨x0, x1⟩, h1, h2⟩
    refine ⟨(r.x - t.left.x) / (t.right.x - t.left.x), div_nonneg (by linarith) hd.le, (div_le_one hd).2 (by linarith), ?_, h1, h2⟩
    rw [div_mul_cancel₀ _ hd.ne']; ring

/-- Over the inner abscissas of a trapezoid, a point is above the chain iff it is above the side on the chain. -/
theorem chainBelow_at {l : List (Pt K)} (hs : l.Pairwise (· < ·)) {a b : Pt K} (he : EdgeOf l a b) {x1 y1 x2 y2 : K} (hx : x1 < x2)
    (h1 : OnSeg a b ⟨x1, y1⟩) (h2 : OnSeg a b ⟨x2, y2⟩) {r : Pt K} (r1 : x1 ≤ r.x) (r2 : r.x < x2) :
    ChainBelow l r ↔ y1 + (r.x - x1) / (x2 - x1) * (y2 - y1) < r.y := by
  have hlt := edgeOf_lt hs he
  have b1 := onSeg_x_bounds hlt h1
  have b2 := onSeg_x_bounds hlt h2
  simp only at b1 b2
  have ab : a.x < b.x := by linarith
  have hd : 0 < x2 - x1 := sub_pos.2 hx
  have dt := det_line ((onSeg_iff hlt).1 h1).1 ((onSeg_iff hlt).1 h2).1 ((r.x - x1) / (x2 - x1))
  have ex : x1 + (r.x - x1) / (x2 - x1) * (x2 - x1) = r.x := by rw [div_mul_cancel₀ _ hd.ne']; ring
  rw [ex] at dt
  have dc := det_column dt r.y
  simp only at dc
  have key : PassesBelow r a b ↔ y1 + (r.x - x1) / (x2 - x1) * (y2 - y1) < r.y := by
    rw [passesBelow_iff_of_lt ab]
    constructor
    · rintro ⟨-, -, h⟩
      rw [dc] at h
      have := (mul_pos_iff_of_pos_left (sub_pos.2 ab)).1 h
      linarith
    · intro h
      refine ⟨by linarith, by linarith, ?_⟩
      rw [dc]
      exact mul_pos (sub_pos.2 ab) (by linarith)
  rw [← key]
  constructor
  · rintro ⟨c, d, h3, h4⟩
    have hc : c.x ≤ r.x ∧ r.x < d.x := by
      have k := Pt.x_le_of_le (edgeOf_lt hs h3).le
      obtain ⟨k1, k2, -⟩ := h4
      rw [min_eq_left k] at k1
      rw [max_eq_right k] at k2
      exact ⟨k1, k2⟩
    obtain ⟨rfl, rfl⟩ := edgeOf_unique hs h3 he (x := r.x) hc.1 hc.2 (by linarith) (by linarith)
    exact h4
  · exact fun h => ⟨a, b, he, h⟩

/-- Over the inner abscissas of a trapezoid, and off its lower side, its points are those inside the polygon. -/
theorem inTrapz_inside {m : MonoPoly K} (hm : MonotonePair m.top m.bot) (ha : NowhereBelow m.top m.bot) {ring : List (Pt K)}
    (hr : m.intoPolygon = some ring) {t : Trapz K} (hf : Follows m t) {r : Pt K} (r1 : t.left.x ≤ r.x) (r2 : r.x < t.right.x) :
    InTrapz t r ∧ r.y ≠ t.botAt r.x ↔ EvenOdd [ring] r := by
  obtain ⟨-, -, -, -, -, st, sb⟩ := id hm
  rw [(evenOdd_ring hm (fun x h => (chainBelow_iff sb).1 (ha x ((chainBelow_iff st).2 h))) hr r).1, ← chainBelow_iff sb, ← chainBelow_iff st,
    inTrapz_iff (r1.trans_lt r2)]
  obtain ⟨⟨a, b, h1, h2, h3⟩, ⟨c, d, h4, h5, h6⟩⟩ := hf
  rw [chainBelow_at st h1 (r1.trans_lt r2) h2 h3 r1 r2, chainBelow_at sb h4 (r1.trans_lt r2) h5 h6 r1 r2]
  show _ ↔ t.botAt r.x < r.y ∧ ¬ t.topAt r.x < r.y
  constructor
  · rintro ⟨⟨-, h, h'⟩, h''⟩
    exact ⟨lt_of_le_of_ne h (Ne.symm h''), not_lt.2 h'⟩
  · rintro ⟨h, h'⟩
    exact ⟨⟨⟨r1, r2.le⟩, h.le, not_lt.1 h'⟩, h.ne'⟩

/-- A point inside the ring of a piece is between its ends. -/
theorem inside_range {m : MonoPoly K} (hm : MonotonePair m.top m.bot) (ha : NowhereBelow m.top m.bot) {ring : List (Pt K)}
    (hr : m.intoPolygon = some ring) {p e : Pt K} (hp : m.top.head? = some p) (he : m.top.getLast? = some e) {r : Pt K}
    (h : EvenOdd [ring] r) : p.x ≤ r.x ∧ r.x < e.x := by
  obtain ⟨p', e', -, lt, lb, st, sb⟩ := id hm
  rw [lt.1] at hp
  rw [lt.2] at he
  obtain rfl := Option.some.inj hp
  obtain rfl := Option.some.inj he
  obtain ⟨c, d, h1, h2⟩ := (chainBelow_iff sb).2 ((evenOdd_ring hm (fun x h => (chainBelow_iff sb).1 (ha x ((chainBelow_iff st).2 h))) hr r).1.1 h).1
  have k := Pt.x_le_of_le (edgeOf_lt sb h1).le
  obtain ⟨k1, k2, -⟩ := h2
  rw [min_eq_left k] at k1
  rw [max_eq_right k] at k2
  have b1 := Pt.x_le_of_le (sorted_bounds lb sb (edgeOf_mem h1).1).1
  have b2 := Pt.x_le_of_le (sorted_bounds lb sb (edgeOf_mem h1).2).2
  exact ⟨b1.trans k1, k2.trans_le b2⟩

end GeoCrossings
