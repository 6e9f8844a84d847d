import Verif.Lemmas.RasterTotal

/-! # Bounds on the area from `cross_bounds` -/
set_option linter.unusedSectionVars false
namespace GeoCrossings
open Spec

variable {K : Type _} [Field K] [LinearOrder K] [IsStrictOrderedRing K] [FloorSemiring K]

theorem area_mean (t : Trapz K) : t.area = (t.right.x - t.left.x) * ((t.left.top - t.left.bot) + (t.right.top - t.right.bot)) / 2 := by
  unfold Trapz.area; simp only; rw [one_add_one_eq_two]; ring

/-- The swept area lies between the least and the greatest height, times the swept width. -/
theorem swept_area {lo hi : K} : ∀ {ts : List (Trapz K)} {a b : K}, Contiguous a ts b →
    (∀ t ∈ ts, lo ≤ t.left.top - t.left.bot ∧ lo ≤ t.right.top - t.right.bot ∧ t.left.top - t.left.bot ≤ hi ∧ t.right.top - t.right.bot ≤ hi) →
    lo * (b - a) ≤ (ts.map Trapz.area).sum ∧ (ts.map Trapz.area).sum ≤ hi * (b - a)
  | [], a, b, h, _ => by cases h; simp
  | t :: ts, a, b, h, hh => by
    obtain ⟨rfl, h2, h3⟩ := h
    obtain ⟨i1, i2⟩ := swept_area h3 fun t ht => hh t (by simp [ht])
    obtain ⟨k1, k2, k3, k4⟩ := hh t (by simp)
    rw [List.map_cons, List.sum_cons, area_mean]
    have hw : 0 < t.right.x - t.left.x := sub_pos.2 h2
    constructor
    · nlinarith
    · nlinarith

/-- What one column contributes. -/
theorem boundsColumn_ok {m : MonoPoly K} (hm : MonotonePair m.top m.bot) (ha : NowhereBelow m.top m.bot) {left right bot top : K}
    (hlr : left ≤ right) (hc : bot < top) (hb : ∀ q, q ∈ m.top ∨ q ∈ m.bot → bot ≤ q.y ∧ q.y ≤ top) {e : Pt K} (he : m.top.getLast? = some e)
    {n : Nat} (hn : 0 < n) {i : Nat} (hi : i < n) {s : Scanner K} {ts : List (Trapz K)} (hr : Reach m s ts) (lb ub : K)
    (hx : left + (i : K) * ((right - left) / (n : K)) ≤ s.curr.x ∨ s.curr.x = e.x) :
    ∃ s' us dl du, boundsColumn left right bot top n (s, lb, ub) i = some (s', lb + dl, ub + du) ∧ Reach m s' (ts ++ us) ∧
      0 ≤ dl ∧ dl ≤ (us.map Trapz.area).sum ∧ (us.map Trapz.area).sum ≤ du ∧
      (left + ((i + 1 : Nat) : K) * ((right - left) / (n : K)) ≤ s'.curr.x ∨ s'.curr.x = e.x) := by
  obtain ⟨p0, e0, -, lt, -⟩ := id hm
  have : e0 = e := by rw [lt.2] at he; exact Option.some.inj he
  subst this
  set r := columnRight left right n i with hrdef
  have hreq := columnRight_eq hlr hi
  rw [← hrdef] at hreq
  obtain ⟨-, s', us, h1, h2, h3, h4, h5⟩ := C45_contiguous hm lt.1 lt.2 hr r
  obtain ⟨-, -, -, hf, -⟩ := reach_inv hm h2
  have hle := reach_le_end hm lt.2 hr
  have hpost : left + ((i + 1 : Nat) : K) * ((right - left) / (n : K)) ≤ s'.curr.x ∨ s'.curr.x = e0.x := by
    rw [h5, ← hreq]
    split_ifs with c
    · rcases le_total r e0.x with k | k
      · left; rw [min_eq_left k]
      · right; rw [min_eq_right k]
    · exact .inl (not_lt.1 c)
  have hht : ∀ t ∈ us, _ := fun t ht => follows_heights hb (hf t (by simp [ht]))
  have hnw : ∀ t ∈ us, t.left.bot ≤ t.left.top ∧ t.right.bot ≤ t.right.top := fun t ht =>
    follows_nowhere hm ha (hf t (by simp [ht])) (contiguous_width h3 t ht)
  obtain ⟨s2, us2, g1, g⟩ := C48_cross_bounds hm hr r hc hn
  rw [h1, Option.some.injEq, Prod.mk.injEq] at g1
  obtain ⟨rfl, rfl⟩ := g1
  rcases g with ⟨hno, -, g2⟩ | ⟨-, jMin, jMax, iMin, iMax, -, g2, hjj, -, -, ⟨bMin, hbm, hrow1⟩, ⟨tMax, htm, -, hrow2⟩, hbM, htM⟩
  · -- nothing inside the band was swept
    refine ⟨s', us, 0, 0, ?_, h2, le_rfl, ?_, ?_, hpost⟩
    · unfold boundsColumn
      simp only [Option.bind_eq_bind, ← hrdef, g2, Option.bind_some, add_zero, Option.pure_def]
    all_goals
      have hz : ∀ t ∈ us, t.left.top - t.left.bot = 0 ∧ t.right.top - t.right.bot = 0 := by
        intro t ht
        obtain ⟨⟨a1, a2⟩, ⟨b1, b2⟩, ⟨c1, c2⟩, d1, d2⟩ := hht t ht
        obtain ⟨k1, k2⟩ := hnw t ht
        constructor
        · by_contra hne
          have hlt : t.left.bot < t.left.top := lt_of_le_of_ne k1 fun e => hne (by rw [e, sub_self])
          obtain ⟨y, y1, y2⟩ := exists_between hlt
          exact hno ⟨y, a1.trans_lt y1, y2.trans_le c2, ⟨t, ht, .inl y1⟩, ⟨t, ht, .inl y2⟩⟩
        · by_contra hne
          have hlt : t.right.bot < t.right.top := lt_of_le_of_ne k2 fun e => hne (by rw [e, sub_self])
          obtain ⟨y, y1, y2⟩ := exists_between hlt
          exact hno ⟨y, b1.trans_lt y1, y2.trans_le d2, ⟨t, ht, .inr y1⟩, ⟨t, ht, .inr y2⟩⟩
      have := swept_area (lo := (0 : K)) (hi := 0) h3 fun t ht => by rw [(hz t ht).1, (hz t ht).2]; simp
      rw [zero_mul] at this
    · exact this.1
    · exact this.2
  · -- `us` is not empty
    have hmoved : s'.curr.x ≤ r := by
      obtain ⟨t, ht, -⟩ := hbm.1
      rw [h5]
      split_ifs with c
      · exact min_le_left _ _
      · exfalso
        rw [if_neg c] at h5
        rw [h5] at h3
        rw [contiguous_self h3] at ht
        simp at ht
    have hw0 : 0 ≤ s'.curr.x - s.curr.x := sub_nonneg.2 (contiguous_le h3)
    have hw1 : s'.curr.x - s.curr.x ≤ (right - left) / (n : K) := by
      have hq : (0 : K) ≤ (right - left) / (n : K) := div_nonneg (sub_nonneg.2 hlr) (Nat.cast_nonneg _)
      rcases hx with k | k
      · rw [hreq] at hmoved
        push_cast at hmoved
        linarith
      · have := reach_le_end hm lt.2 h2
        linarith
    have hbm0 : bot ≤ bMin := by
      obtain ⟨t, ht, k⟩ := hbm.1
      obtain ⟨⟨a1, a2⟩, ⟨b1, b2⟩, -⟩ := hht t ht
      rcases k with k | k <;> rw [k] <;> assumption
    have htm0 : tMax ≤ top := by
      obtain ⟨t, ht, k⟩ := htm.1
      obtain ⟨-, -, ⟨c1, c2⟩, d1, d2⟩ := hht t ht
      rcases k with k | k <;> rw [k] <;> assumption
    have hb1 := hbm.2
    have ht1 := htm.2
    have hb2 := hbM.2
    have ht2 := htM.2
    have hrow1 := hrow1.1
    rw [max_eq_left hbm0] at hrow1
    rw [min_eq_left htm0] at hrow2
    have hsl : 0 ≤ (top - bot) / (n : K) := div_nonneg (sub_nonneg.2 hc.le) (Nat.cast_nonneg _)
    have hH : tMax - bMin ≤ ((1 + jMax - jMin : Nat) : K) * ((top - bot) / (n : K)) := by
      unfold rowLine at hrow1 hrow2
      have : ((1 + jMax - jMin : Nat) : K) = (jMax : K) + 1 - (jMin : K) := by
        rw [Nat.cast_sub (by omega)]; push_cast; ring
      rw [this]
      push_cast at hrow2
      nlinarith
    have hH0 : 0 ≤ tMax - bMin := by
      obtain ⟨t, ht, -⟩ := hbm.1
      have k1 := (hb1 t ht).1
      have k2 := (ht1 t ht).1
      have k3 := (hnw t ht).1
      simp only at k1 k2
      linarith
    obtain ⟨q1, q2⟩ := swept_area (lo := iMax - iMin) (hi := tMax - bMin) h3 fun t ht => by
      obtain ⟨a1, a2⟩ := hb1 t ht
      obtain ⟨b1, b2⟩ := ht1 t ht
      obtain ⟨c1, c2⟩ := hb2 t ht
      obtain ⟨d1, d2⟩ := ht2 t ht
      simp only at a1 a2 b1 b2 c1 c2 d1 d2
      refine ⟨?_, ?_, ?_, ?_⟩ <;> linarith
    set du := ((1 + jMax - jMin : Nat) : K) * ((right - left) / (n : K) * ((top - bot) / (n : K))) with hdu
    have hup : (us.map Trapz.area).sum ≤ du := by
      refine q2.trans ?_
      have := mul_le_mul hH hw1 hw0 (mul_nonneg (Nat.cast_nonneg _) hsl)
      rw [hdu]
      linarith
    have hz : min s'.curr.x r = s'.curr.x := min_eq_left hmoved
    by_cases hgt : iMax > iMin
    · refine ⟨s', us, (iMax - iMin) * (s'.curr.x - s.curr.x), du, ?_, h2, mul_nonneg (sub_nonneg.2 hgt.le) hw0, q1, hup, hpost⟩
      unfold boundsColumn
      simp only [Option.bind_eq_bind, ← hrdef, g2, Option.bind_some, hz]
      rw [if_pos hgt, if_pos (q1.trans hup)]
      rfl
    · refine ⟨s', us, 0, du, ?_, h2, le_rfl, ?_, hup, hpost⟩
      · unfold boundsColumn
        simp only [Option.bind_eq_bind, ← hrdef, g2, Option.bind_some]
        rw [if_neg hgt, add_zero]
        rfl
      · have := (swept_area (lo := (0 : K)) (hi := tMax - bMin) h3 fun t ht => by
          obtain ⟨a1, a2⟩ := hb1 t ht
          obtain ⟨b1, b2⟩ := ht1 t ht
          obtain ⟨k1, k2⟩ := hnw t ht
          simp only at a1 a2 b1 b2
          refine ⟨?_, ?_, ?_, ?_⟩ <;> linarith).1
        simpa using this

theorem boundsColumns_ok {m : MonoPoly K} (hm : MonotonePair m.top m.bot) (ha : NowhereBelow m.top m.bot) {left right bot top : K}
    (hlr : left ≤ right) (hc : bot < top) (hb : ∀ q, q ∈ m.top ∨ q ∈ m.bot → bot ≤ q.y ∧ q.y ≤ top) {e : Pt K} (he : m.top.getLast? = some e)
    {n : Nat} (hn : 0 < n) {s : Scanner K} (hr : Reach m s []) (hx : left ≤ s.curr.x) : ∀ k ≤ n,
    ∃ s' ts lb ub, (List.range k).foldlM (boundsColumn left right bot top n) (s, 0, 0) = some (s', lb, ub) ∧ Reach m s' ts ∧
      0 ≤ lb ∧ lb ≤ (ts.map Trapz.area).sum ∧ (ts.map Trapz.area).sum ≤ ub ∧
      (left + (k : K) * ((right - left) / (n : K)) ≤ s'.curr.x ∨ s'.curr.x = e.x)
  | 0, _ => ⟨s, [], 0, 0, rfl, hr, le_rfl, by simp, by simp, .inl (by simpa using hx)⟩
  | k + 1, hk => by
    obtain ⟨s1, ts, lb, ub, h1, h2, h0, h3, h4, h5⟩ := boundsColumns_ok hm ha hlr hc hb he hn hr hx k (by omega)
    obtain ⟨s2, us, dl, du, g1, g2, g0, g3, g4, g5⟩ := boundsColumn_ok hm ha hlr hc hb he hn (i := k) (by omega) h2 lb ub h5
    refine ⟨s2, ts ++ us, lb + dl, ub + du, ?_, g2, add_nonneg h0 g0, ?_, ?_, g5⟩
    · rw [List.range_succ, List.foldlM_append, h1]
      simpa using g1
    · rw [List.map_append, List.sum_append]; exact add_le_add h3 g3
    · rw [List.map_append, List.sum_append]; exact add_le_add h4 g4

/-- The bounds for a piece. -/
theorem monoPoly_rasterBounds {m : MonoPoly K} (hm : MonotonePair m.top m.bot) (ha : NowhereBelow m.top m.bot) {left right bot top : K}
    (hc : bot < top) {n : Nat} (hn : 0 < n)
    (hb : ∀ q, q ∈ m.top ∨ q ∈ m.bot → left ≤ q.x ∧ q.x ≤ right ∧ bot ≤ q.y ∧ q.y ≤ top) :
    ∃ lb ub, m.rasterBounds left right bot top n = some (lb, ub) ∧ 0 ≤ lb ∧
      lb ≤ areaUnder m.top - areaUnder m.bot ∧ areaUnder m.top - areaUnder m.bot ≤ ub := by
  obtain ⟨p, e, -, lt, -⟩ := id hm
  have heb := hb e (.inl (List.mem_of_getLast? lt.2))
  have hpb := hb p (.inl (List.mem_of_mem_head? lt.1))
  obtain ⟨s, h1, h2, h3⟩ := scanLines_left hm (left := left) fun q hq => (hb q (.inl hq)).1
  obtain ⟨s', ts, lb, ub, g1, g2, g0, g3, g4, g5⟩ := boundsColumns_ok hm ha (right := right) (heb.1.trans heb.2.1) hc (fun q hq => (hb q hq).2.2)
    lt.2 hn h2 (by rw [h3 p lt.1]; exact hpb.1) n le_rfl
  have hend : s'.curr.x = e.x := by
    refine le_antisymm (reach_le_end hm lt.2 g2) ?_
    rcases g5 with k | k
    · have hn' : (n : K) ≠ 0 := by exact_mod_cast hn.ne'
      rw [mul_div_cancel₀ _ hn'] at k
      linarith [heb.2.1]
    · exact k.ge
  have := ((C46_follows_and_area hm g2).2 e lt.2 hend).1
  rw [this] at g3 g4
  refine ⟨lb, ub, ?_, g0, g3, g4⟩
  unfold MonoPoly.rasterBounds
  rw [h1]
  simp only [Option.bind_eq_bind, Option.bind_some, g1]
  rfl

end GeoCrossings
