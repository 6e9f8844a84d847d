import Verif.Lemmas.Raster
import Verif.Props.Scanner

/-! # The flipped trapezoid of `cross_area` -/
set_option linter.unusedSectionVars false
namespace GeoCrossings
open Spec

variable {K : Type _} [Field K] [LinearOrder K] [IsStrictOrderedRing K] [FloorSemiring K]

/-- A trapezoid as the scanner delivers it: positive width, top not below bottom. -/
structure ValidTrapz (t : Trapz K) : Prop where
  width : t.left.x < t.right.x
  left : t.left.bot ≤ t.left.top
  right : t.right.bot ≤ t.right.top

/-- The part of a trapezoid at one height is convex. -/
theorem inTrapz_convex {t : Trapz K} {u w v x : K} (h1 : InTrapz t ⟨w, u⟩) (h2 : InTrapz t ⟨v, u⟩) (hx : w ≤ x) (hx' : x ≤ v) :
    InTrapz t ⟨x, u⟩ := by
  obtain ⟨r, r0, r1, e1, b1, t1⟩ := h1
  obtain ⟨s, s0, s1, e2, b2, t2⟩ := h2
  simp only at e1 b1 t1 e2 b2 t2
  rcases (hx.trans hx').lt_or_eq with k | k
  · have hd : 0 < v - w := sub_pos.2 k
    have c0 : 0 ≤ (x - w) / (v - w) := div_nonneg (sub_nonneg.2 hx) hd.le
    have c1 : (x - w) / (v - w) ≤ 1 := (div_le_one hd).2 (by linarith)
    have ex : x = w + (x - w) / (v - w) * (v - w) := by field_simp; ring
    generalize (x - w) / (v - w) = c at c0 c1 ex
    refine ⟨r + c * (s - r), by nlinarith, by nlinarith, ?_, ?_, ?_⟩
    · simp only; rw [ex, e1, e2]; ring
    · simp only
      have a1 := mul_le_mul_of_nonneg_left b1 (sub_nonneg.2 c1)
      have a2 := mul_le_mul_of_nonneg_left b2 c0
      linarith
    · simp only
      have a1 := mul_le_mul_of_nonneg_left t1 (sub_nonneg.2 c1)
      have a2 := mul_le_mul_of_nonneg_left t2 c0
      linarith
  · have : x = w := le_antisymm (hx'.trans k.ge) hx
    rw [this]; exact ⟨r, r0, r1, e1, b1, t1⟩

/-- The flipped trapezoid is accepted by `MonoPoly::new`, and reaches from the lowest to the highest corner. -/
theorem flip_mono {t : Trapz K} (h : ValidTrapz t) :
    MonotonePair (flipCoords t).1 (flipCoords t).2 ∧
    ∃ p e, (flipCoords t).1.head? = some p ∧ (flipCoords t).1.getLast? = some e ∧
      p.x = min t.left.bot t.right.bot ∧ e.x = max t.left.top t.right.top := by
  obtain ⟨⟨lx, lt, lb⟩, ⟨rx, rt, rb⟩⟩ := t
  obtain ⟨w, h1, h2⟩ := h
  simp only at w h1 h2 ⊢
  unfold flipCoords
  simp only [MonotonePair, Leads]
  rcases le_or_gt lb rb with c1 | c1 <;> rcases le_or_gt lt rt with c2 | c2 <;> rcases h2.lt_or_eq with c3 | c3 <;>
    rcases h1.lt_or_eq with c4 | c4
  all_goals try subst c3
  all_goals try subst c4
  all_goals simp [*, Pt.lt_def, not_le.2, not_lt.2]
  all_goals grind


/-- The edges of the flipped upper chain, which is the right boundary of the trapezoid. -/
theorem flip_top_edge {t : Trapz K} (h : ValidTrapz t) {a b : Pt K} (he : EdgeOf (flipCoords t).1 a b) :
    (a = ⟨t.left.bot, t.left.x⟩ ∧ b = ⟨t.right.bot, t.right.x⟩) ∨
    (a = ⟨t.right.bot, t.right.x⟩ ∧ b = ⟨t.right.top, t.right.x⟩) ∨
    (a = ⟨t.right.top, t.right.x⟩ ∧ b = ⟨t.left.top, t.left.x⟩) := by
  obtain ⟨⟨lx, lt, lb⟩, ⟨rx, rt, rb⟩⟩ := t
  obtain ⟨w, h1, h2⟩ := h
  simp only at w h1 h2 ⊢
  revert he
  unfold flipCoords
  rcases le_or_gt lb rb with c1 | c1 <;> rcases le_or_gt lt rt with c2 | c2 <;> rcases h2.lt_or_eq with c3 | c3 <;>
    rcases h1.lt_or_eq with c4 | c4
  all_goals try subst c3
  all_goals try subst c4
  all_goals simp [*, not_le.2, edgeOf_cons_iff, edgeOf_singleton]
  all_goals grind

/-- The edges of the flipped lower chain, which is the left boundary of the trapezoid. -/
theorem flip_bot_edge {t : Trapz K} (h : ValidTrapz t) {a b : Pt K} (he : EdgeOf (flipCoords t).2 a b) :
    (a = ⟨t.right.bot, t.right.x⟩ ∧ b = ⟨t.left.bot, t.left.x⟩) ∨
    (a = ⟨t.left.bot, t.left.x⟩ ∧ b = ⟨t.left.top, t.left.x⟩) ∨
    (a = ⟨t.left.top, t.left.x⟩ ∧ b = ⟨t.right.top, t.right.x⟩) := by
  obtain ⟨⟨lx, lt, lb⟩, ⟨rx, rt, rb⟩⟩ := t
  obtain ⟨w, h1, h2⟩ := h
  simp only at w h1 h2 ⊢
  revert he
  unfold flipCoords
  rcases le_or_gt lb rb with c1 | c1 <;> rcases le_or_gt lt rt with c2 | c2 <;> rcases h2.lt_or_eq with c3 | c3 <;>
    rcases h1.lt_or_eq with c4 | c4
  all_goals try subst c3
  all_goals try subst c4
  all_goals simp [*, not_le.2, edgeOf_cons_iff, edgeOf_singleton]
  all_goals grind

/-- On a slanted edge of the right boundary: a point of the boundary is in the trapezoid, and no point of the trapezoid at the
same height is further right. -/
theorem flip_top_support {t : Trapz K} (h : ValidTrapz t) {a b : Pt K} (he : EdgeOf (flipCoords t).1 a b) (hab : a.x < b.x)
    {u v : K} (hv : OnSeg a b ⟨u, v⟩) : InTrapz t ⟨v, u⟩ ∧ ∀ x, InTrapz t ⟨x, u⟩ → x ≤ v := by
  obtain ⟨r, r0, r1, hu, hv⟩ := hv
  have hw := h.width
  have hl := h.left
  have hr := h.right
  rcases flip_top_edge h he with ⟨rfl, rfl⟩ | ⟨rfl, rfl⟩ | ⟨rfl, rfl⟩ <;> simp only at hu hv hab
  · refine ⟨⟨r, r0, r1, by simp only; linarith, by simp only; linarith, by simp only; nlinarith⟩, ?_⟩
    rintro x ⟨s, s0, s1, hx, h1, h2⟩
    simp only at hx h1 h2
    have : s ≤ r := by
      by_contra hc; push Not at hc
      have := mul_lt_mul_of_pos_right hc (sub_pos.2 hab)
      linarith
    rw [hx, hv]
    have := mul_le_mul_of_nonneg_right this (sub_nonneg.2 hw.le)
    linarith
  · refine ⟨⟨1, zero_le_one, le_rfl, by simp only; linarith, by simp only; nlinarith, by simp only; nlinarith⟩, ?_⟩
    rintro x ⟨s, s0, s1, hx, h1, h2⟩
    simp only at hx h1 h2
    have : v = t.right.x := by linarith
    rw [hx, this]
    have := mul_le_mul_of_nonneg_right s1 (sub_nonneg.2 hw.le)
    linarith
  · refine ⟨⟨1 - r, by linarith, by linarith, by simp only; linarith, by simp only; nlinarith, by simp only; linarith⟩, ?_⟩
    rintro x ⟨s, s0, s1, hx, h1, h2⟩
    simp only at hx h1 h2
    have : s ≤ 1 - r := by
      by_contra hc; push Not at hc
      have := mul_lt_mul_of_pos_right hc (sub_pos.2 hab)
      linarith
    rw [hx, hv]
    have := mul_le_mul_of_nonneg_right this (sub_nonneg.2 hw.le)
    linarith

/-- The same for the left boundary. -/
theorem flip_bot_support {t : Trapz K} (h : ValidTrapz t) {a b : Pt K} (he : EdgeOf (flipCoords t).2 a b) (hab : a.x < b.x)
    {u v : K} (hv : OnSeg a b ⟨u, v⟩) : InTrapz t ⟨v, u⟩ ∧ ∀ x, InTrapz t ⟨x, u⟩ → v ≤ x := by
  obtain ⟨r, r0, r1, hu, hv⟩ := hv
  have hw := h.width
  have hl := h.left
  have hr := h.right
  rcases flip_bot_edge h he with ⟨rfl, rfl⟩ | ⟨rfl, rfl⟩ | ⟨rfl, rfl⟩ <;> simp only at hu hv hab
  · refine ⟨⟨1 - r, by linarith, by linarith, by simp only; linarith, by simp only; linarith, by simp only; nlinarith⟩, ?_⟩
    rintro x ⟨s, s0, s1, hx, h1, h2⟩
    simp only at hx h1 h2
    have : 1 - r ≤ s := by
      by_contra hc; push Not at hc
      have := mul_lt_mul_of_pos_right hc (sub_pos.2 hab)
      linarith
    rw [hx, hv]
    have := mul_le_mul_of_nonneg_right this (sub_nonneg.2 hw.le)
    linarith
  · refine ⟨⟨0, le_rfl, zero_le_one, by simp only; linarith, by simp only; nlinarith, by simp only; nlinarith⟩, ?_⟩
    rintro x ⟨s, s0, s1, hx, h1, h2⟩
    simp only at hx h1 h2
    have : v = t.left.x := by linarith
    rw [hx, this]
    have := mul_nonneg s0 (sub_nonneg.2 hw.le)
    linarith
  · refine ⟨⟨r, r0, r1, by simp only; linarith, by simp only; nlinarith, by simp only; linarith⟩, ?_⟩
    rintro x ⟨s, s0, s1, hx, h1, h2⟩
    simp only at hx h1 h2
    have : r ≤ s := by
      by_contra hc; push Not at hc
      have := mul_lt_mul_of_pos_right hc (sub_pos.2 hab)
      linarith
    rw [hx, hv]
    have := mul_le_mul_of_nonneg_right this (sub_nonneg.2 hw.le)
    linarith

theorem onSeg_between {a b p q : Pt K} (hp : OnSeg a b p) (hq : OnSeg a b q) {c : K} (c0 : 0 ≤ c) (c1 : c ≤ 1) :
    OnSeg a b ⟨p.x + c * (q.x - p.x), p.y + c * (q.y - p.y)⟩ := by
  obtain ⟨r, r0, r1, h1, h2⟩ := hp
  obtain ⟨s, s0, s1, h3, h4⟩ := hq
  refine ⟨r + c * (s - r), ?_, ?_, ?_, ?_⟩
  · nlinarith
  · nlinarith
  · simp only; rw [h1, h3]; ring
  · simp only; rw [h2, h4]; ring

theorem onSeg_x_lt {a b p q : Pt K} (hab : a < b) (hp : OnSeg a b p) (hq : OnSeg a b q) (hpq : p.x < q.x) : a.x < b.x := by
  rcases Pt.lt_def.1 hab with k | ⟨k, -⟩
  · exact k
  · obtain ⟨r, r0, r1, h1, h2⟩ := hp
    obtain ⟨s, s0, s1, h3, h4⟩ := hq
    rw [h1, h3, k] at hpq
    simp at hpq

/-- The area of a piece the flipped scanner delivers is the area of that slab of the trapezoid. -/
theorem flip_piece {t : Trapz K} (h : ValidTrapz t) {A : K → K → K} (hA : BandArea t A) {m : MonoPoly K}
    (hm : m = ⟨(flipCoords t).1, (flipCoords t).2⟩) {z : Trapz K} (hz : z.left.x < z.right.x) (hf : Follows m z) :
    A z.left.x z.right.x = z.area := by
  subst hm
  obtain ⟨⟨a, b, e1, o1, o2⟩, ⟨c, d, e2, o3, o4⟩⟩ := hf
  simp only at e1 e2
  obtain ⟨_, _, -, -, -, st, sb⟩ := (flip_mono h).1
  have x1 := onSeg_x_lt (edgeOf_lt st e1) o1 o2 hz
  have x2 := onSeg_x_lt (edgeOf_lt sb e2) o3 o4 hz
  have hd : 0 < z.right.x - z.left.x := sub_pos.2 hz
  rw [hA.slab z.left.x z.right.x z.left.bot z.left.top z.right.bot z.right.top hz
    ((flip_top_support h e1 x1 o1).2 _ (flip_bot_support h e2 x2 o3).1)
    ((flip_top_support h e1 x1 o2).2 _ (flip_bot_support h e2 x2 o4).1)]
  · unfold Trapz.area; simp only; rw [one_add_one_eq_two]; ring
  · intro u u0 u1 x
    have c0 : 0 ≤ (u - z.left.x) / (z.right.x - z.left.x) := div_nonneg (by linarith) hd.le
    have c1 : (u - z.left.x) / (z.right.x - z.left.x) ≤ 1 := (div_le_one hd).2 (by linarith)
    have eu : z.left.x + (u - z.left.x) / (z.right.x - z.left.x) * (z.right.x - z.left.x) = u := by field_simp; ring
    have ot := onSeg_between o1 o2 c0 c1
    have ob := onSeg_between o3 o4 c0 c1
    simp only [eu] at ot ob
    have st' := flip_top_support h e1 x1 ot
    have sb' := flip_bot_support h e2 x2 ob
    constructor
    · intro hx; exact ⟨sb'.2 x hx, st'.2 x hx⟩
    · rintro ⟨k1, k2⟩
      exact inTrapz_convex sb'.1 st'.1 k1 k2


/-- The assertion in `Trapz::area` holds of every piece the flipped scanner delivers. -/
theorem flip_checked {t : Trapz K} (h : ValidTrapz t) {m : MonoPoly K} (hm : m = ⟨(flipCoords t).1, (flipCoords t).2⟩)
    {us : List (Trapz K)} {a b : K} (hc : Contiguous a us b) (hf : ∀ z ∈ us, Follows m z) :
    ∀ z ∈ us, z.areaChecked = some z.area := by
  induction us generalizing a with
  | nil => simp
  | cons z us ih =>
    obtain ⟨rfl, hz, h3⟩ := hc
    rw [List.forall_mem_cons] at hf ⊢
    refine ⟨?_, ih h3 hf.2⟩
    subst hm
    obtain ⟨⟨a, b, e1, o1, o2⟩, ⟨c, d, e2, o3, o4⟩⟩ := hf.1
    simp only at e1 e2
    obtain ⟨_, _, -, -, -, st, sb⟩ := (flip_mono h).1
    have x1 := onSeg_x_lt (edgeOf_lt st e1) o1 o2 hz
    have x2 := onSeg_x_lt (edgeOf_lt sb e2) o3 o4 hz
    rw [Trapz.areaChecked, if_pos ⟨sub_nonneg.2 ((flip_top_support h e1 x1 o1).2 _ (flip_bot_support h e2 x2 o3).1),
      sub_nonneg.2 ((flip_top_support h e1 x1 o2).2 _ (flip_bot_support h e2 x2 o4).1)⟩]

theorem bandArea_self {t : Trapz K} {A : K → K → K} (hA : BandArea t A) (a : K) : A a a = 0 :=
  hA.empty a a le_rfl fun _ h1 h2 => absurd (h1.trans h2) (lt_irrefl _)

theorem contiguous_le {a b : K} {us : List (Trapz K)} (h : Contiguous a us b) : a ≤ b := by
  induction us generalizing a with
  | nil => exact le_of_eq h
  | cons z us ih => exact h.1 ▸ h.2.1.le.trans (ih h.2.2)

theorem flip_pieces {t : Trapz K} (h : ValidTrapz t) {A : K → K → K} (hA : BandArea t A) {m : MonoPoly K}
    (hm : m = ⟨(flipCoords t).1, (flipCoords t).2⟩) {us : List (Trapz K)} {a b : K} (hc : Contiguous a us b)
    (hf : ∀ z ∈ us, Follows m z) : A a b = (us.map Trapz.area).sum := by
  induction us generalizing a with
  | nil => cases hc; exact bandArea_self hA _
  | cons z us ih =>
    obtain ⟨rfl, h2, h3⟩ := hc
    rw [List.map_cons, List.sum_cons, ← ih h3 fun z hz => hf z (by simp [hz]), ← flip_piece h hA hm h2 (hf z (by simp))]
    exact (hA.add _ _ _ h2.le (contiguous_le h3)).symm

omit [IsStrictOrderedRing K] [FloorSemiring K] in
theorem fill_one (j : Nat) (us : List (Trapz K)) (hus : ∀ z ∈ us, z.areaChecked = some z.area) (arr : List K)
    {v : K} (hv : arr[j]? = some v) :
    us.foldlM (fun (a : List K) t => do
      let v ← a[j]?
      let r ← t.areaChecked
      pure (a.set j (v + r))) arr = some (arr.set j (v + (us.map Trapz.area).sum)) := by
  have hj := getElem?_lt hv
  induction us generalizing arr v with
  | nil =>
    simp only [List.foldlM_nil, List.map_nil, List.sum_nil, add_zero]
    rw [(List.getElem?_eq_some_iff.1 hv).2.symm, List.set_getElem_self]; rfl
  | cons z us ih =>
    rw [List.foldlM_cons, hv]
    rw [List.forall_mem_cons] at hus
    simp only [Option.bind_eq_bind, Option.bind_some, Option.pure_def, hus.1]
    have h1 : (arr.set j (v + z.area))[j]? = some (v + z.area) := by rw [List.getElem?_set_self hj]
    have := ih hus.2 (arr.set j (v + z.area)) h1 (by rw [List.length_set]; exact hj)
    simp only [Option.bind_eq_bind, Option.pure_def] at this
    rw [this, List.set_set, List.map_cons, List.sum_cons, add_assoc]

omit [LinearOrder K] [IsStrictOrderedRing K] [FloorSemiring K] in
theorem sum_set_add {l : List K} {j : Nat} (hj : j < l.length) (d : K) : (l.set j (l[j] + d)).sum = l.sum + d := by
  induction l generalizing j with
  | nil => simp at hj
  | cons a l ih =>
    cases j with
    | zero => simp; ring
    | succ j =>
      have := ih (j := j) (by simpa using hj)
      simp [this, add_assoc]

/-- Where the flipped scanner stands before row `j`. -/
def rowPos (B T cmin cmax : K) (h j : Nat) : K := min T (max B (rowLine cmin cmax h j))

theorem fillRows_spec {t : Trapz K} (ht : ValidTrapz t) {m : MonoPoly K} (hm : m = ⟨(flipCoords t).1, (flipCoords t).2⟩)
    {cmin cmax : K} (hc : cmin < cmax) {h : Nat} (hh : 0 < h) {B T : K}
    (hB : B = min t.left.bot t.right.bot) (hT : T = max t.left.top t.right.top) :
    ∀ (n j : Nat) (s : Scanner K) (zs : List (Trapz K)) (arr : List K), Reach m s zs → arr.length = h → j + n ≤ h →
      s.curr.x = rowPos B T cmin cmax h j →
      ∃ arr', fillRows cmin cmax h n j s arr = some arr' ∧ arr'.length = h ∧
        (∃ s' us, Reach m s' (zs ++ us) ∧ s'.curr.x = rowPos B T cmin cmax h (j + n) ∧ arr'.sum = arr.sum + (us.map Trapz.area).sum) ∧
        ∀ A, BandArea t A → ∀ (i : Nat) (v : K), arr[i]? = some v → arr'[i]? = some
          (if j ≤ i ∧ i < j + n then v + A (rowPos B T cmin cmax h i) (rowPos B T cmin cmax h (i + 1)) else v) := by
  obtain ⟨hmono, p, e, hp, he, hpx, hex⟩ := flip_mono ht
  have hmono' : MonotonePair m.top m.bot := by rw [hm]; exact hmono
  intro n
  induction n with
  | zero =>
    intro j s zs arr hr hl _ hx
    refine ⟨arr, rfl, hl, ⟨s, [], by rw [List.append_nil]; exact hr, hx, by simp⟩, fun A _ i v hv => ?_⟩
    rw [if_neg (by omega)]; exact hv
  | succ n ih =>
    intro j s zs arr hr hl hjn hx
    obtain ⟨-, s', us, g1, g2, g3, -, g5⟩ := C45_contiguous (p := p) (e := e) hmono' (by rw [hm]; exact hp) (by rw [hm]; exact he) hr
      (crossPt cmin cmax h (j + 1))
    obtain ⟨-, -, -, hf, -⟩ := reach_inv hmono' g2
    have hjl : j < arr.length := by omega
    have hv := List.getElem?_eq_getElem hjl
    have hfill := fill_one j us (flip_checked ht hm g3 fun z hz => hf z (by simp [hz])) arr hv
    have hBT : B ≤ T := by
      rw [hB, hT]; exact (min_le_left _ _).trans (ht.left.trans (le_max_left _ _))
    have hx' : s'.curr.x = rowPos B T cmin cmax h (j + 1) := by
      rw [g5, hx, crossPt_eq, hex, ← hT]
      have hll := rowLine_lt hc hh (Nat.lt_succ_self j)
      unfold rowPos
      rw [show j.succ = j + 1 from rfl] at hll
      generalize rowLine cmin cmax h (j + 1) = l' at *
      generalize rowLine cmin cmax h j = l at *
      split_ifs with hcond
      · rcases le_total B l' with k | k
        · rw [max_eq_right k, min_comm]
        · rw [max_eq_left (hll.le.trans k), min_eq_right hBT] at hcond
          exact absurd hcond (not_lt.2 k)
      · push Not at hcond
        rcases le_total B l' with k | k
        · rw [max_eq_right k]
          refine le_antisymm (le_min (min_le_left _ _) ((min_le_right _ _).trans (max_le k hll.le))) ?_
          exact le_trans (min_le_right _ _) hcond
        · rw [max_eq_left k, max_eq_left (hll.le.trans k)]
    obtain ⟨arr', f1, f2, ⟨s2, vs, k1, k2, k3⟩, f3⟩ := ih (j + 1) s' _ (arr.set j (arr[j] + (us.map Trapz.area).sum)) g2 (by rw [List.length_set]; exact hl) (by omega) hx'
    refine ⟨arr', ?_, f2, ⟨s2, us ++ vs, by rw [← List.append_assoc]; exact k1, by rw [k2]; congr 1; omega, ?_⟩, fun A hA i v hi => ?_⟩
    rotate_left
    · rw [k3, List.map_append, List.sum_append, ← add_assoc]
      congr 1
      exact sum_set_add hjl _
    rotate_left
    · unfold fillRows
      rw [g1]
      simp only [Option.bind_eq_bind, Option.bind_some] at hfill ⊢
      rw [hfill]
      exact f1
    · by_cases hij : i = j
      · subst hij
        rw [f3 A hA i _ (List.getElem?_set_self hjl), if_neg (by omega), if_pos (by omega)]
        rw [hv] at hi; cases hi
        rw [← hx, ← hx', flip_pieces ht hA hm g3 fun z hz => hf z (by simp [hz])]
      · rw [f3 A hA i v (by rw [List.getElem?_set_ne (Ne.symm hij)]; exact hi)]
        congr 1
        by_cases hc1 : j + 1 ≤ i ∧ i < j + 1 + n
        · rw [if_pos hc1, if_pos (by omega)]
        · rw [if_neg hc1, if_neg (by omega)]

/-- Outside `[B, T]` there is nothing of the trapezoid. -/
theorem inTrapz_range {t : Trapz K} {x u : K} (h : InTrapz t ⟨x, u⟩) :
    min t.left.bot t.right.bot ≤ u ∧ u ≤ max t.left.top t.right.top := by
  obtain ⟨s, s0, s1, -, h1, h2⟩ := h
  simp only at h1 h2
  have a := min_le_left t.left.bot t.right.bot
  have b := min_le_right t.left.bot t.right.bot
  have c := le_max_left t.left.top t.right.top
  have d := le_max_right t.left.top t.right.top
  constructor <;> nlinarith

theorem bandArea_clip {t : Trapz K} (ht : ValidTrapz t) {A : K → K → K} (hA : BandArea t A) {a b B T : K}
    (hB : B = min t.left.bot t.right.bot) (hT : T = max t.left.top t.right.top) (hab : a ≤ b) :
    A (min T (max B a)) (min T (max B b)) = A a b := by
  have hBT : B ≤ T := by
    rw [hB, hT]; exact (min_le_left _ _).trans (ht.left.trans (le_max_left _ _))
  have low : ∀ c d, c ≤ d → d ≤ B → A c d = 0 := fun c d h1 h2 =>
    hA.empty c d h1 fun u _ u2 x hx => absurd (inTrapz_range hx).1 (by rw [← hB]; exact not_le.2 (u2.trans_le h2))
  have high : ∀ c d, c ≤ d → T ≤ c → A c d = 0 := fun c d h1 h2 =>
    hA.empty c d h1 fun u u1 _ x hx => absurd (inTrapz_range hx).2 (by rw [← hT]; exact not_le.2 (h2.trans_lt u1))
  rcases le_total b B with k | k
  · rw [max_eq_left k, max_eq_left (hab.trans k), bandArea_self hA, low a b hab k]
  rcases le_total T a with k' | k'
  · rw [min_eq_left (k'.trans (le_max_right _ _)), min_eq_left (k'.trans (hab.trans (le_max_right _ _))), bandArea_self hA,
      high a b hab k']
  rw [max_eq_right k]
  have e1 : A a b = A a (max B a) + A (max B a) b := (hA.add _ _ _ (le_max_right _ _) (max_le k hab)).symm
  have e2 : A a (max B a) = 0 := by
    rcases le_total B a with k | k
    · rw [max_eq_right k, bandArea_self hA]
    · rw [max_eq_left k, low a B k le_rfl]
  have e3 : max B a ≤ T := max_le hBT k'
  have e4 : A (max B a) b = A (max B a) (min T b) + A (min T b) b :=
    (hA.add _ _ _ (le_min e3 (max_le k hab)) (min_le_right _ _)).symm
  have e5 : A (min T b) b = 0 := by
    rcases le_total T b with k | k
    · rw [min_eq_left k, high T b k le_rfl]
    · rw [min_eq_right k, bandArea_self hA]
  rw [min_eq_right e3, e1, e2, e4, e5]; ring

/-- One iteration of `cross_area`'s outer loop adds to each row the area of the trapezoid inside that row. -/
theorem areaOne_spec {t : Trapz K} (ht : ValidTrapz t) {cmin cmax : K} (hc : cmin < cmax) {arr : List K} (hh : 0 < arr.length) :
    ∃ arr', areaOne cmin cmax t arr = some arr' ∧ arr'.length = arr.length ∧
      ∀ A, BandArea t A → ∀ (i : Nat) (v : K), arr[i]? = some v →
        arr'[i]? = some (v + A (rowLine cmin cmax arr.length i) (rowLine cmin cmax arr.length (i + 1))) := by
  obtain ⟨hmono, p, e, hp, he, hpx, hex⟩ := flip_mono ht
  have hnew : MonoPoly.new (flipCoords t).1 (flipCoords t).2 = some ⟨(flipCoords t).1, (flipCoords t).2⟩ :=
    (C42_new_accepts_iff _ _ _).2 ⟨rfl, hmono⟩
  obtain ⟨s, zs, hs1, hs2, hs3⟩ := scanLines_reach (m := ⟨(flipCoords t).1, (flipCoords t).2⟩) hmono hp he cmin
  have hBT : min t.left.bot t.right.bot ≤ max t.left.top t.right.top :=
    (min_le_left _ _).trans (ht.left.trans (le_max_left _ _))
  generalize hB : min t.left.bot t.right.bot = B at *
  generalize hT : max t.left.top t.right.top = T at *
  unfold areaOne
  simp only [Option.bind_eq_bind, hnew, Option.bind_some, hs1, hB, hT, crossIdx_eq]
  by_cases hcond : cmax ≤ B ∨ T ≤ cmin
  · rw [if_pos hcond]
    refine ⟨arr, rfl, rfl, fun A hA i v hv => ?_⟩
    have hi := getElem?_lt hv
    rw [← bandArea_clip ht hA hB.symm hT.symm (rowLine_lt hc hh (Nat.lt_succ_self i)).le]
    rw [show i.succ = i + 1 from rfl]
    have l1 : rowLine cmin cmax arr.length (i + 1) ≤ cmax := by
      conv_rhs => rw [← rowLine_height (cmin := cmin) (cmax := cmax) hh]
      exact rowLine_mono hc hh (by omega)
    have l2 : cmin ≤ rowLine cmin cmax arr.length i := by
      conv_lhs => rw [← rowLine_zero cmin cmax arr.length]
      exact rowLine_mono hc hh (by omega)
    have l3 := (rowLine_lt hc hh (Nat.lt_succ_self i)).le
    rw [show i.succ = i + 1 from rfl] at l3
    have e1 : min T (max B (rowLine cmin cmax arr.length i)) = min T (max B (rowLine cmin cmax arr.length (i + 1))) := by
      rcases hcond with k | k
      · rw [max_eq_left (l1.trans k), max_eq_left (l3.trans (l1.trans k))]
      · rw [min_eq_left ((k.trans l2).trans (le_max_right _ _)), min_eq_left ((k.trans (l2.trans l3)).trans (le_max_right _ _))]
    rw [e1, bandArea_self hA, add_zero]; exact hv
  · rw [if_neg hcond]
    push Not at hcond
    obtain ⟨c1, c2⟩ := hcond
    have hjl : crossIdxInv cmin cmax arr.length T < arr.length := crossIdxInv_lt hh T
    have hjj : crossIdxInv cmin cmax arr.length B ≤ crossIdxInv cmin cmax arr.length T := crossIdxInv_mono hc _ hBT
    -- rows before the first and after the last are empty
    have clampB : crossIdxInv cmin cmax arr.length B = crossIdxInv cmin cmax arr.length (max B cmin) := by
      rcases le_total B cmin with k | k
      · rw [max_eq_right k]
        unfold crossIdxInv
        simp only
        rw [max_eq_right, max_eq_right]
        · rw [sub_self, zero_mul]
        · exact mul_nonpos_of_nonpos_of_nonneg (sub_nonpos.2 k) (div_nonneg (Nat.cast_nonneg _) (sub_nonneg.2 hc.le))
      · rw [max_eq_left k]
    have clampT : crossIdxInv cmin cmax arr.length T = crossIdxInv cmin cmax arr.length (min T cmax) := by
      rcases le_total T cmax with k | k
      · rw [min_eq_left k]
      · rw [min_eq_right k]
        have hd : 0 < cmax - cmin := sub_pos.2 hc
        have hK : (0 : K) ≤ arr.length := Nat.cast_nonneg _
        have aux : ∀ y, cmax ≤ y → min (max ((y - cmin) * ((arr.length : K) / (cmax - cmin))) 0) (arr.length : K) = arr.length := by
          intro y hy
          apply min_eq_right
          refine le_trans ?_ (le_max_left _ _)
          rw [mul_div_assoc', le_div_iff₀ hd]
          nlinarith
        unfold crossIdxInv
        simp only
        rw [aux T k, aux cmax le_rfl]
    have rB := crossIdxInv_row hc hh (y := max B cmin) (le_max_right _ _) (max_le c1.le hc.le)
    have rT := crossIdxInv_row hc hh (y := min T cmax) (le_min c2.le hc.le) (min_le_right _ _)
    rw [← clampB] at rB
    rw [← clampT] at rT
    generalize hjm : crossIdxInv cmin cmax arr.length B = jm at *
    generalize hjM : crossIdxInv cmin cmax arr.length T = jM at *
    have l0 : ∀ j, cmin ≤ rowLine cmin cmax arr.length j := by
      intro j
      conv_lhs => rw [← rowLine_zero cmin cmax arr.length]
      exact rowLine_mono hc hh (by omega)
    have hx : s.curr.x = rowPos B T cmin cmax arr.length jm := by
      rw [hs3, hpx, hex]
      unfold rowPos
      have h1 := rB.1
      have h0 := l0 jm
      split_ifs with k
      · rw [max_eq_right k.le] at h1
        rw [le_antisymm h1 h0, max_eq_right k.le, min_comm]
      · push Not at k
        rw [max_eq_left k] at h1
        rw [max_eq_left h1, min_eq_right hBT]
    obtain ⟨arr', f1, f2, -, f3⟩ := fillRows_spec ht rfl hc hh hB.symm hT.symm (jM + 1 - jm) jm s zs arr hs2 rfl (by omega) hx
    refine ⟨arr', f1, f2, fun A hA i v hv => ?_⟩
    have hi := getElem?_lt hv
    rw [f3 A hA i v hv]
    unfold rowPos
    rw [bandArea_clip ht hA hB.symm hT.symm (rowLine_lt hc hh (Nat.lt_succ_self i)).le]
    split_ifs with hr
    · rfl
    · rw [← bandArea_clip ht hA hB.symm hT.symm (rowLine_lt hc hh (Nat.lt_succ_self i)).le, show i.succ = i + 1 from rfl]
      have e1 : min T (max B (rowLine cmin cmax arr.length i)) = min T (max B (rowLine cmin cmax arr.length (i + 1))) := by
        rcases Nat.lt_or_ge i jm with k | k
        · have a1 := rowLine_mono hc hh (cmin := cmin) (cmax := cmax) (show i + 1 ≤ jm from k)
          have a2 := rowLine_lt hc hh (cmin := cmin) (cmax := cmax) (show i < i + 1 by omega)
          have : rowLine cmin cmax arr.length jm ≤ B := by
            rcases le_total B cmin with q | q
            · have h2 := rB.1
              rw [max_eq_right q] at h2
              exact absurd (lt_of_le_of_lt (l0 i) (a2.trans_le (a1.trans h2))) (lt_irrefl _)
            · have h2 := rB.1; rw [max_eq_left q] at h2; exact h2
          rw [max_eq_left (a1.trans this), max_eq_left (a2.le.trans (a1.trans this))]
        · have a1 := rowLine_mono hc hh (cmin := cmin) (cmax := cmax) (show jM + 1 ≤ i by omega)
          have a2 := rowLine_lt hc hh (cmin := cmin) (cmax := cmax) (show i < i + 1 by omega)
          have a3 : rowLine cmin cmax arr.length i < cmax := by
            conv_rhs => rw [← rowLine_height (cmin := cmin) (cmax := cmax) hh]
            exact rowLine_lt hc hh hi
          have : T ≤ rowLine cmin cmax arr.length i := by
            have h2 := rT.2.1.trans a1
            rcases le_total T cmax with q | q
            · rw [min_eq_left q] at h2; exact h2
            · rw [min_eq_right q] at h2; exact absurd h2 (not_le.2 a3)
          rw [min_eq_left (this.trans (le_max_right _ _)), min_eq_left ((this.trans a2.le).trans (le_max_right _ _))]
      rw [e1, bandArea_self hA, add_zero]

end GeoCrossings
