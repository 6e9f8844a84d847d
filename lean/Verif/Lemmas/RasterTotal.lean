import Verif.Model.RasterDriver
import Verif.Props.Rasterize

/-! # The total of `cross_area` over a box that contains the trapezoids -/
set_option linter.unusedSectionVars false
namespace GeoCrossings
open Spec

variable {K : Type _} [Field K] [LinearOrder K] [IsStrictOrderedRing K] [FloorSemiring K]

theorem contiguous_width {a b : K} {ts : List (Trapz K)} (h : Contiguous a ts b) : ∀ t ∈ ts, t.left.x < t.right.x := by
  induction ts generalizing a with
  | nil => intro t ht; simp at ht
  | cons z ts ih =>
    intro t ht
    rcases List.mem_cons.1 ht with rfl | ht
    · exact h.2.1
    · exact ih h.2.2 t ht

theorem contiguous_self {a : K} {ts : List (Trapz K)} (h : Contiguous a ts a) : ts = [] := by
  cases ts with
  | nil => rfl
  | cons t ts =>
    obtain ⟨rfl, h2, h3⟩ := h
    exact absurd (h2.trans_le (contiguous_le h3)) (lt_irrefl _)

/-- The area between the chains of the flipped trapezoid is that of the trapezoid. -/
theorem flip_area {t : Trapz K} (h : ValidTrapz t) : areaUnder (flipCoords t).1 - areaUnder (flipCoords t).2 = t.area := by
  obtain ⟨⟨lx, lt, lb⟩, ⟨rx, rt, rb⟩⟩ := t
  obtain ⟨w, h1, h2⟩ := h
  simp only at w h1 h2 ⊢
  unfold flipCoords Trapz.area
  simp only [one_add_one_eq_two]
  rcases le_or_gt lb rb with c1 | c1 <;> rcases le_or_gt lt rt with c2 | c2 <;> rcases h2.lt_or_eq with c3 | c3 <;>
    rcases h1.lt_or_eq with c4 | c4
  all_goals try subst c3
  all_goals try subst c4
  all_goals simp [*, not_le.2, areaUnder]
  all_goals ring

/-- All of a trapezoid inside the band is added to the array. -/
theorem areaOne_total {t : Trapz K} (ht : ValidTrapz t) {cmin cmax : K} (hc : cmin < cmax) (h1 : cmin ≤ min t.left.bot t.right.bot)
    (h2 : max t.left.top t.right.top ≤ cmax) {arr arr' : List K} (hh : 0 < arr.length) (h : areaOne cmin cmax t arr = some arr') :
    arr'.sum = arr.sum + t.area := by
  obtain ⟨hmono, p, e, hp, he, hpx, hex⟩ := flip_mono ht
  have hnew : MonoPoly.new (flipCoords t).1 (flipCoords t).2 = some ⟨(flipCoords t).1, (flipCoords t).2⟩ :=
    (C42_new_accepts_iff _ _ _).2 ⟨rfl, hmono⟩
  obtain ⟨s, zs, hs1, hs2, hs3⟩ := scanLines_reach (m := ⟨(flipCoords t).1, (flipCoords t).2⟩) hmono hp he cmin
  have hlt := ht.left
  have hrt := ht.right
  have hBT : min t.left.bot t.right.bot ≤ max t.left.top t.right.top :=
    (min_le_left _ _).trans (ht.left.trans (le_max_left _ _))
  have z1 := min_le_left t.left.bot t.right.bot
  have z2 := min_le_right t.left.bot t.right.bot
  have z3 := le_max_left t.left.top t.right.top
  have z4 := le_max_right t.left.top t.right.top
  generalize hB : min t.left.bot t.right.bot = B at *
  generalize hT : max t.left.top t.right.top = T at *
  unfold areaOne at h
  simp only [Option.bind_eq_bind, hnew, Option.bind_some, hs1, hB, hT, crossIdx_eq] at h
  rw [if_neg (not_lt.2 (h1.trans hpx.ge)), hpx] at hs3
  by_cases hcond : cmax ≤ B ∨ T ≤ cmin
  · rw [if_pos hcond] at h
    have e1 : B = T := le_antisymm hBT (by rcases hcond with k | k; exacts [h2.trans k, k.trans h1])
    have : t.area = 0 := by
      unfold Trapz.area
      simp only
      rw [show t.left.top - t.left.bot = 0 by linarith, show t.right.top - t.right.bot = 0 by linarith]
      simp
    rw [this, add_zero, ← Option.some.inj h]
  · rw [if_neg hcond] at h
    have hjl : crossIdxInv cmin cmax arr.length T < arr.length := crossIdxInv_lt hh T
    have hjj : crossIdxInv cmin cmax arr.length B ≤ crossIdxInv cmin cmax arr.length T := crossIdxInv_mono hc _ hBT
    have rB := crossIdxInv_row hc hh (y := B) h1 (hBT.trans h2)
    have rT := crossIdxInv_row hc hh (y := T) (h1.trans hBT) h2
    generalize crossIdxInv cmin cmax arr.length B = jm at *
    generalize crossIdxInv cmin cmax arr.length T = jM at *
    have hx : s.curr.x = rowPos B T cmin cmax arr.length jm := by
      rw [hs3]
      unfold rowPos
      rw [max_eq_left rB.1, min_eq_right hBT]
    obtain ⟨arr2, f1, f2, ⟨s', us, f3, f4, f5⟩, -⟩ :=
      fillRows_spec ht rfl hc hh hB.symm hT.symm (jM + 1 - jm) jm s zs arr hs2 rfl (by omega) hx
    rw [f1, Option.some.injEq] at h
    subst h
    have hz : zs = [] := by
      have := (reach_inv hmono hs2).2.2.1 p hp
      rw [hpx, hs3] at this
      exact contiguous_self this
    subst hz
    have hend : s'.curr.x = e.x := by
      rw [f4, hex, show jm + (jM + 1 - jm) = jM + 1 by omega]
      unfold rowPos
      rw [min_eq_left (rT.2.1.trans (le_max_right _ _))]
    have := ((C46_follows_and_area hmono f3).2 e he hend).1
    rw [List.nil_append] at this
    rw [f5, this, flip_area ht]

theorem areas_total {cmin cmax : K} (hc : cmin < cmax) : ∀ (ts : List (Trapz K)) (arr arr' : List K), 0 < arr.length →
    (∀ t ∈ ts, ValidTrapz t ∧ cmin ≤ min t.left.bot t.right.bot ∧ max t.left.top t.right.top ≤ cmax) →
    ts.foldlM (fun a t => areaOne cmin cmax t a) arr = some arr' → arr'.sum = arr.sum + (ts.map Trapz.area).sum
  | [], arr, arr', _, _, h => by
    rw [List.foldlM_nil] at h
    rw [← Option.some.inj h]; simp
  | t :: ts, arr, arr', hh, ht, h => by
    rw [List.foldlM_cons] at h
    obtain ⟨arr1, h1, h⟩ := Option.bind_eq_some_iff.1 h
    obtain ⟨a, b, c⟩ := ht t (by simp)
    obtain ⟨arr2, g1, g2, -⟩ := areaOne_spec a hc hh
    rw [h1, Option.some.injEq] at g1
    rw [areas_total hc ts arr1 arr' (g1 ▸ g2 ▸ hh) (fun t h => ht t (by simp [h])) h, areaOne_total a hc b c hh h1,
      List.map_cons, List.sum_cons, add_assoc]

/-- The heights of a trapezoid that follows the chains are within those of the vertices. -/
theorem follows_heights {m : MonoPoly K} {bot top : K} (hb : ∀ q, q ∈ m.top ∨ q ∈ m.bot → bot ≤ q.y ∧ q.y ≤ top) {t : Trapz K} (h : Follows m t) :
    (bot ≤ t.left.bot ∧ t.left.bot ≤ top) ∧ (bot ≤ t.right.bot ∧ t.right.bot ≤ top) ∧
    (bot ≤ t.left.top ∧ t.left.top ≤ top) ∧ (bot ≤ t.right.top ∧ t.right.top ≤ top) := by
  have seg : ∀ (a b : Pt K) (x y : K), (bot ≤ a.y ∧ a.y ≤ top) → (bot ≤ b.y ∧ b.y ≤ top) → OnSeg a b ⟨x, y⟩ → bot ≤ y ∧ y ≤ top := by
    rintro a b x y ⟨a1, a2⟩ ⟨b1, b2⟩ ⟨r, r0, r1, -, h⟩
    simp only at h
    rw [h]
    constructor <;> nlinarith
  have mem : ∀ (l : List (Pt K)) (a b : Pt K), EdgeOf l a b → a ∈ l ∧ b ∈ l := by
    rintro l a b ⟨p, q, rfl⟩
    simp
  obtain ⟨⟨a, b, h1, h2, h3⟩, ⟨c, d, h4, h5, h6⟩⟩ := h
  have k1 := mem _ _ _ h1
  have k2 := mem _ _ _ h4
  have ha := hb a (.inl k1.1)
  have hb' := hb b (.inl k1.2)
  have hc := hb c (.inr k2.1)
  have hd := hb d (.inr k2.2)
  exact ⟨seg c d _ _ hc hd h5, seg c d _ _ hc hd h6, seg a b _ _ ha hb' h2, seg a b _ _ ha hb' h3⟩

theorem reach_le_end {m : MonoPoly K} (hm : MonotonePair m.top m.bot) {e : Pt K} (he : m.top.getLast? = some e) {s : Scanner K}
    {ts : List (Trapz K)} (h : Reach m s ts) : s.curr.x ≤ e.x := by
  obtain ⟨⟨-, ⟨t, ht⟩, -⟩, hp, -⟩ := reach_inv hm h
  obtain ⟨p, e', -, lt, -, st, -⟩ := id hm
  have : e = e' := by rw [lt.2] at he; exact (Option.some.inj he).symm
  subst this
  exact at_le_end (hp ▸ lt) (hp ▸ st) ht

/-- `cross_area` over a band that contains the polygon adds the areas of the swept trapezoids. -/
theorem crossArea_total {m : MonoPoly K} (hm : MonotonePair m.top m.bot) (ha : NowhereBelow m.top m.bot) {bot top : K} (hc : bot < top)
    (hb : ∀ q, q ∈ m.top ∨ q ∈ m.bot → bot ≤ q.y ∧ q.y ≤ top) {s : Scanner K} {ts0 : List (Trapz K)} (hr : Reach m s ts0) (r : K)
    {arr : List K} (hh : arr ≠ []) :
    ∃ s' ts arr', s.crossArea r bot top arr = some (s', arr') ∧ Reach m s' (ts0 ++ ts) ∧ arr'.length = arr.length ∧
      arr'.sum = arr.sum + (ts.map Trapz.area).sum ∧
      ∀ e, m.top.getLast? = some e → s'.curr.x = if s.curr.x < r then min r e.x else s.curr.x := by
  obtain ⟨p0, e0, -, lt, -⟩ := id hm
  obtain ⟨-, s', ts, h1, h2, h3, -, h5⟩ := C45_contiguous hm lt.1 lt.2 hr r
  obtain ⟨-, -, -, hf, -⟩ := reach_inv hm h2
  obtain ⟨s2, ts2, arr', g1, g2, g3, -⟩ := C49_cross_area hm ha hr r hc hh
  rw [h1, Option.some.injEq, Prod.mk.injEq] at g1
  obtain ⟨rfl, rfl⟩ := g1
  refine ⟨s', ts, arr', g2, h2, g3, ?_, fun e he => ?_⟩
  · unfold Scanner.crossArea at g2
    rw [h1] at g2
    simp only [Option.bind_eq_bind, Option.bind_some] at g2
    obtain ⟨arr2, g4, g5⟩ := Option.bind_eq_some_iff.1 g2
    have := Option.some.inj g5
    rw [Prod.mk.injEq] at this
    rw [← this.2]
    refine areas_total hc ts arr arr2 (List.length_pos_iff.2 hh) (fun t ht => ?_) g4
    have hw := contiguous_width h3 t ht
    have ft := hf t (by simp [ht])
    obtain ⟨k1, k2⟩ := follows_nowhere hm ha ft hw
    obtain ⟨a, b, c, d⟩ := follows_heights hb ft
    exact ⟨⟨hw, k1, k2⟩, le_min a.1 b.1, max_le c.2 d.2⟩
  · rw [lt.2, Option.some.injEq] at he
    rw [← he]; exact h5

theorem areaColumns_total {m : MonoPoly K} (hm : MonotonePair m.top m.bot) (ha : NowhereBelow m.top m.bot) {left right bot top : K} (hc : bot < top)
    (hb : ∀ q, q ∈ m.top ∨ q ∈ m.bot → bot ≤ q.y ∧ q.y ≤ top) {e : Pt K} (he : m.top.getLast? = some e) (n : Nat) {s : Scanner K}
    (hr : Reach m s []) {arr : List K} (hh : arr ≠ []) : ∀ cols : Nat, ∃ s' ts arr',
      areaColumns left right bot top cols n (s, arr) = some (s', arr') ∧ Reach m s' ts ∧ arr' ≠ [] ∧
      arr'.sum = arr.sum + (ts.map Trapz.area).sum ∧ ∀ i < cols, min (columnRight left right n i) e.x ≤ s'.curr.x
  | 0 => ⟨s, [], arr, rfl, hr, hh, by simp, by simp⟩
  | cols + 1 => by
    obtain ⟨s1, ts, arr1, h1, h2, h3, h4, h5⟩ := areaColumns_total hm ha (left := left) (right := right) hc hb he n hr hh cols
    obtain ⟨s2, us, arr2, g1, g2, g3, g4, g5⟩ := crossArea_total hm ha hc hb h2 (columnRight left right n cols) h3
    refine ⟨s2, ts ++ us, arr2, ?_, g2, ?_, ?_, fun i hi => ?_⟩
    · unfold areaColumns at h1 ⊢
      rw [List.range_succ, List.foldlM_append, h1]
      simpa using g1
    · rw [← List.length_pos_iff, g3]; exact List.length_pos_iff.2 h3
    · rw [g4, h4, List.map_append, List.sum_append, add_assoc]
    · have hle := reach_le_end hm he h2
      have := g5 e he
      rcases Nat.lt_succ_iff_lt_or_eq.1 hi with k | rfl
      · refine (h5 i k).trans ?_
        rw [this]
        split_ifs with c
        · exact le_min c.le hle
        · exact le_rfl
      · rw [this]
        split_ifs with c
        · exact le_rfl
        · exact (min_le_left _ _).trans (not_lt.1 c)

theorem columnRight_eq {left right : K} (h : left ≤ right) {n i : Nat} (hi : i < n) :
    columnRight left right n i = left + ((i + 1 : Nat) : K) * ((right - left) / (n : K)) := by
  unfold columnRight
  apply min_eq_right
  have hn : (0 : K) < n := by exact_mod_cast (show 0 < n by omega)
  have h1 : ((i + 1 : Nat) : K) ≤ n := by exact_mod_cast hi
  have : ((i + 1 : Nat) : K) * ((right - left) / (n : K)) ≤ right - left := by
    rw [mul_div_assoc', div_le_iff₀ hn, mul_comm]
    exact mul_le_mul_of_nonneg_left h1 (sub_nonneg.2 h)
  linarith

theorem columnRight_last {left right : K} (h : left ≤ right) {n : Nat} (hn : 0 < n) : columnRight left right n (n - 1) = right := by
  rw [columnRight_eq h (by omega), show n - 1 + 1 = n by omega]
  have : (n : K) ≠ 0 := by exact_mod_cast hn.ne'
  field_simp
  ring

/-- `scan_lines` from the left of the polygon starts with no trapezoid passed. -/
theorem scanLines_left {m : MonoPoly K} (hm : MonotonePair m.top m.bot) {left : K} (hl : ∀ q ∈ m.top, left ≤ q.x) :
    ∃ s, m.scanLines left = some s ∧ Reach m s [] ∧ ∀ p, m.top.head? = some p → s.curr.x = p.x := by
  obtain ⟨p, e, -, lt, -⟩ := id hm
  obtain ⟨s, ts, h1, h2, h3⟩ := scanLines_reach hm lt.1 lt.2 left
  have hx : s.curr.x = p.x := by rw [h3, if_neg (not_lt.2 (hl p (List.mem_of_mem_head? lt.1)))]
  have : ts = [] := by
    have := (reach_inv hm h2).2.2.1 p lt.1
    rw [hx] at this
    exact contiguous_self this
  subst this
  refine ⟨s, h1, h2, fun q hq => ?_⟩
  rw [lt.1, Option.some.injEq] at hq
  rw [← hq]; exact hx

/-- The cells of the box add up to the area of the piece. -/
theorem monoPoly_rasterArea {m : MonoPoly K} (hm : MonotonePair m.top m.bot) (ha : NowhereBelow m.top m.bot) {left right bot top : K}
    (hc : bot < top) {n : Nat} (hn : 0 < n)
    (hb : ∀ q, q ∈ m.top ∨ q ∈ m.bot → left ≤ q.x ∧ q.x ≤ right ∧ bot ≤ q.y ∧ q.y ≤ top) :
    m.rasterArea left right bot top n = some (areaUnder m.top - areaUnder m.bot) := by
  obtain ⟨p, e, -, lt, -⟩ := id hm
  have heb := hb e (.inl (List.mem_of_getLast? lt.2))
  obtain ⟨s, h1, h2, -⟩ := scanLines_left hm (left := left) fun q hq => (hb q (.inl hq)).1
  have hrep : List.replicate n (0 : K) ≠ [] := by
    rw [← List.length_pos_iff, List.length_replicate]; exact hn
  obtain ⟨s', ts, arr', g1, g2, -, g4, g5⟩ := areaColumns_total hm ha (left := left) (right := right) hc (fun q hq => (hb q hq).2.2) lt.2 n h2
    hrep n
  have hend : s'.curr.x = e.x := by
    refine le_antisymm (reach_le_end hm lt.2 g2) ?_
    have := g5 (n - 1) (by omega)
    rwa [columnRight_last (heb.1.trans heb.2.1) hn, min_eq_right heb.2.1] at this
  have := ((C46_follows_and_area hm g2).2 e lt.2 hend).1
  unfold MonoPoly.rasterArea
  rw [h1]
  simp only [Option.bind_eq_bind, Option.bind_some, g1]
  rw [g4, this]
  simp

end GeoCrossings
