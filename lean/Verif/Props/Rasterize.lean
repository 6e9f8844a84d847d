import Verif.Lemmas.Raster
import Verif.Lemmas.Above
import Verif.Lemmas.Flip
import Mathlib.Data.Rat.Floor

/-! # Rasterizing bounds (C48) and areas (C49) -/
set_option linter.unusedSectionVars false
namespace GeoCrossings
open Spec

variable {K : Type _} [Field K] [LinearOrder K] [IsStrictOrderedRing K] [FloorSemiring K]

/-- The points of a trapezoid are between its extreme heights. -/
theorem inTrapz_between {t : Trapz K} {p : Pt K} (h : InTrapz t p) {lo hi : K} (h1 : lo ≤ t.left.bot) (h2 : lo ≤ t.right.bot)
    (h3 : t.left.top ≤ hi) (h4 : t.right.top ≤ hi) : lo ≤ p.y ∧ p.y ≤ hi := by
  obtain ⟨s, s0, s1, -, a, b⟩ := h
  constructor <;> nlinarith

/-- **C48.** Let `ts` be the trapezoids the call sweeps over. Either no height strictly inside the band lies strictly between
their bottoms and tops, and the answer is the empty range `(height, 0)` / `None`; or such a height exists and the answer is an
ordered range of rows below `height`, which contains the row of every point of the trapezoids that lies inside the band, starts
with the row of the lowest height inside the band and ends with the row of the highest one; `cross_bounds` also returns exactly
the highest bottom and lowest top. The scanner moves as in `advance_to`. -/
theorem C48_cross_bounds {m : MonoPoly K} (hm : MonotonePair m.top m.bot) {s : Scanner K} {ts0 : List (Trapz K)}
    (hr : Reach m s ts0) (right : K) {cmin cmax : K} (hc : cmin < cmax) {height : Nat} (hh : 0 < height) :
    ∃ s' ts, s.advanceTo s.rounds right = some (s', ts) ∧
      ((¬(∃ y, cmin < y ∧ y < cmax ∧ StrictlyWithin ts y) ∧
        s.crossUbounds right cmin cmax height = some (s', (height, 0)) ∧
        s.crossBounds right cmin cmax height = some (s', none)) ∨
      ((∃ y, cmin < y ∧ y < cmax ∧ StrictlyWithin ts y) ∧
        ∃ lo hi bMax tMin, s.crossUbounds right cmin cmax height = some (s', (lo, hi)) ∧
          s.crossBounds right cmin cmax height = some (s', some (lo, hi, bMax, tMin)) ∧
          lo ≤ hi ∧ hi < height ∧
          (∀ t ∈ ts, ∀ p, InTrapz t p → cmin ≤ p.y → p.y < cmax → ∃ j, InRow cmin cmax height j p.y ∧ lo ≤ j ∧ j ≤ hi) ∧
          (∃ bMin, LowestBot ts bMin ∧ InRow cmin cmax height lo (max bMin cmin)) ∧
          (∃ tMax, HighestTop ts tMax ∧ rowLine cmin cmax height hi ≤ min tMax cmax ∧
            min tMax cmax ≤ rowLine cmin cmax height (hi + 1)) ∧
          HighestBot ts bMax ∧ LowestTop ts tMin)) := by
  obtain ⟨p0, e0, -, lt, -⟩ := id hm
  obtain ⟨-, s', ts, h1, -⟩ := C45_contiguous hm lt.1 lt.2 hr right
  refine ⟨s', ts, h1, ?_⟩
  unfold Scanner.crossUbounds Scanner.crossBounds
  rw [h1]
  cases ts with
  | nil =>
    left
    refine ⟨?_, rfl, rfl⟩
    rintro ⟨y, -, -, ⟨t, ht, -⟩, -⟩
    simp at ht
  | cons t ts =>
    obtain ⟨e, he, hT, ht, hB, hb⟩ := extremes_cons t ts
    generalize t :: ts = ts at *
    simp only [Option.bind_eq_bind, Option.bind_some, he]
    by_cases hcond : e.topMax ≤ e.botMin ∨ e.topMax ≤ cmin ∨ cmax ≤ e.botMin
    · rw [if_pos hcond, if_pos hcond]
      left
      refine ⟨?_, rfl, rfl⟩
      rintro ⟨y, y1, y2, ⟨t, ht1, ht2⟩, ⟨u, hu1, hu2⟩⟩
      have k1 : e.botMin < y := by
        obtain ⟨a, b⟩ := hb.2 t ht1
        rcases ht2 with k | k
        · exact lt_of_le_of_lt a k
        · exact lt_of_le_of_lt b k
      have k2 : y < e.topMax := by
        obtain ⟨a, b⟩ := hT.2 u hu1
        rcases hu2 with k | k
        · exact lt_of_lt_of_le k a
        · exact lt_of_lt_of_le k b
      rcases hcond with k | k | k
      · exact absurd (k1.trans k2) (not_lt.2 k)
      · exact absurd (y1.trans k2) (not_lt.2 k)
      · exact absurd (k1.trans y2) (not_lt.2 k)
    · rw [if_neg hcond, if_neg hcond]
      push Not at hcond
      obtain ⟨c1, c2, c3⟩ := hcond
      right
      have hlt : max e.botMin cmin < min e.topMax cmax := max_lt (lt_min c1 c3) (lt_min c2 hc)
      obtain ⟨y, y1, y2⟩ := exists_between hlt
      have r1 := crossIdxInv_row hc hh (y := max e.botMin cmin) (le_max_right _ _) (hlt.le.trans (min_le_right _ _))
      have r2 := crossIdxInv_row hc hh (y := min e.topMax cmax) ((le_max_right _ _).trans hlt.le) (min_le_right _ _)
      refine ⟨⟨y, (le_max_right _ _).trans_lt y1, y2.trans_le (min_le_right _ _), ?_, ?_⟩,
        _, _, _, _, rfl, rfl, crossIdxInv_mono hc height hlt.le, crossIdxInv_lt hh _, ?_,
        ⟨_, hb, r1.2.2 (hlt.trans_le (min_le_right _ _))⟩, ⟨_, hT, r2.1, r2.2.1⟩, hB, ht⟩
      · obtain ⟨t, h1, h2⟩ := hb.1
        have := (le_max_left _ _).trans_lt y1
        refine ⟨t, h1, h2.imp ?_ ?_⟩ <;> (intro k; rw [k] at this; exact this)
      · obtain ⟨t, h1, h2⟩ := hT.1
        have := y2.trans_le (min_le_left _ _)
        refine ⟨t, h1, h2.imp ?_ ?_⟩ <;> (intro k; rw [k] at this; exact this)
      · intro t ht1 p hp p1 p2
        obtain ⟨b1, b2⟩ := hb.2 t ht1
        obtain ⟨t1, t2⟩ := hT.2 t ht1
        obtain ⟨q1, q2⟩ := inTrapz_between hp b1 b2 t1 t2
        exact ⟨_, (crossIdxInv_row hc hh p1 p2.le).2.2 p2, crossIdxInv_mono hc height (max_le q1 p1),
          crossIdxInv_mono hc height (le_min q2 p2.le)⟩

/-- C48 applies to `demo` with a band that cuts through it. -/
example : ((demo.scanLines 1).bind fun s => (s.crossBounds 3 (-2) 2 8).map (·.2)) = some (some (2, 7, -1/3, 3/2)) := by
  decide +kernel


theorem areas_spec {cmin cmax : K} (hc : cmin < cmax) : ∀ (ts : List (Trapz K)) (arr : List K), 0 < arr.length →
    (∀ t ∈ ts, ValidTrapz t) →
    ∃ arr', ts.foldlM (fun a t => areaOne cmin cmax t a) arr = some arr' ∧ arr'.length = arr.length ∧
      ∀ A : Trapz K → K → K → K, (∀ t ∈ ts, BandArea t (A t)) → ∀ (i : Nat) (v : K), arr[i]? = some v →
        arr'[i]? = some (v +
          (ts.map fun t => A t (rowLine cmin cmax arr.length i) (rowLine cmin cmax arr.length (i + 1))).sum)
  | [], arr, _, _ => ⟨arr, rfl, rfl, fun A _ i v hv => by simpa using hv⟩
  | t :: ts, arr, hh, ht => by
    obtain ⟨arr1, h1, h2, h3⟩ := areaOne_spec (ht t (by simp)) hc hh
    obtain ⟨arr2, g1, g2, g3⟩ := areas_spec hc ts arr1 (h2 ▸ hh) fun t h => ht t (by simp [h])
    refine ⟨arr2, by rw [List.foldlM_cons, h1]; exact g1, g2.trans h2, fun A hA i v hv => ?_⟩
    rw [g3 A (fun t h => hA t (by simp [h])) i _ (h3 (A t) (hA t (by simp)) i v hv), h2, List.map_cons, List.sum_cons, add_assoc]

/-- **C49.** On a polygon whose top chain is nowhere below its bottom chain (as in every result of `monotone_chains`, C51), `cross_area` never panics: it moves the scanner as
`advance_to` does and adds to every row of the array exactly the area that the swept trapezoids `ts` have inside that row of the
band. `A t a b` is any notion of the area of `t` between heights `a` and `b` in the sense of `BandArea`; over the reals it is the
Lebesgue measure (`C49_lebesgue`). -/
theorem C49_cross_area {m : MonoPoly K} (hm : MonotonePair m.top m.bot) (ha : NowhereBelow m.top m.bot) {s : Scanner K}
    {ts0 : List (Trapz K)} (hr : Reach m s ts0) (right : K) {cmin cmax : K} (hc : cmin < cmax) {arr : List K} (hh : arr ≠ []) :
    ∃ s' ts arr', s.advanceTo s.rounds right = some (s', ts) ∧ s.crossArea right cmin cmax arr = some (s', arr') ∧
      arr'.length = arr.length ∧
      ∀ A : Trapz K → K → K → K, (∀ t ∈ ts, BandArea t (A t)) →
        (∀ (i : Nat) (v : K), arr[i]? = some v →
          arr'[i]? = some (v +
            (ts.map fun t => A t (rowLine cmin cmax arr.length i) (rowLine cmin cmax arr.length (i + 1))).sum)) ∧
        arr'.sum = arr.sum + (ts.map fun t => A t cmin cmax).sum := by
  obtain ⟨p0, e0, -, lt, -⟩ := id hm
  obtain ⟨-, s', ts, h1, h2, h3, -⟩ := C45_contiguous hm lt.1 lt.2 hr right
  obtain ⟨-, -, -, hf, -⟩ := reach_inv hm h2
  have hw : ∀ (a b : K) (ts : List (Trapz K)), Contiguous a ts b → ∀ t ∈ ts, t.left.x < t.right.x := by
    intro a b ts
    induction ts generalizing a with
    | nil => intro _ t ht; simp at ht
    | cons z ts ih =>
      intro h t ht
      rcases List.mem_cons.1 ht with rfl | ht
      · exact h.2.1
      · exact ih _ h.2.2 t ht
  have hv : ∀ t ∈ ts, ValidTrapz t := fun t ht =>
    ⟨hw _ _ ts h3 t ht, (follows_nowhere hm ha (hf t (by simp [ht])) (hw _ _ ts h3 t ht)).1, (follows_nowhere hm ha (hf t (by simp [ht])) (hw _ _ ts h3 t ht)).2⟩
  have hpos := List.length_pos_iff.2 hh
  obtain ⟨arr', g1, g2, g3⟩ := areas_spec hc ts arr hpos hv
  refine ⟨s', ts, arr', h1, ?_, g2, fun A hA => ⟨g3 A hA, ?_⟩⟩
  · unfold Scanner.crossArea
    rw [h1]
    simp only [Option.bind_eq_bind, Option.bind_some]
    rw [g1]; rfl
  · have key : ∀ n ≤ arr.length, (arr'.take n).sum = (arr.take n).sum + (ts.map fun t => A t cmin (rowLine cmin cmax arr.length n)).sum := by
      intro n
      induction n with
      | zero =>
        intro _
        rw [rowLine_zero]
        have : (ts.map fun t => A t cmin cmin) = ts.map fun _ => 0 :=
          List.map_congr_left fun t ht => bandArea_self (hA t ht) _
        rw [this]; simp
      | succ n ih =>
        intro hn
        have hi : n < arr.length := hn
        have e1 := List.getElem?_eq_getElem hi
        have e2 := g3 A hA n _ e1
        rw [List.take_add_one, List.take_add_one, e1, e2, List.sum_append, List.sum_append, ih hi.le]
        have : (ts.map fun t => A t cmin (rowLine cmin cmax arr.length (n + 1))) =
            ts.map fun t => A t cmin (rowLine cmin cmax arr.length n) + A t (rowLine cmin cmax arr.length n) (rowLine cmin cmax arr.length (n + 1)) := by
          apply List.map_congr_left
          intro t ht
          refine ((hA t ht).add _ _ _ ?_ (rowLine_mono hc hpos (by omega))).symm
          conv_lhs => rw [← rowLine_zero cmin cmax arr.length]
          exact rowLine_mono hc hpos (by omega)
        rw [this, List.sum_map_add]
        simp only [Option.toList_some, List.sum_singleton]
        ring
    have := key arr.length le_rfl
    rw [rowLine_height hpos, List.take_length, List.take_of_length_le g2.le] at this
    exact this

/-- C49 applies to `demo`, here with a band that cuts through it. -/
example : MonotonePair demo.top demo.bot ∧ NowhereBelow demo.top demo.bot :=
  have h : MonotonePair demo.top demo.bot := ((C42_new_accepts_iff _ _ _).1 (by decide +kernel : MonoPoly.new demo.top demo.bot = some demo)).2
  ⟨h, LiesAbove.nowhereBelow h demo_above⟩
example : ((demo.scanLines 1).bind fun s => (s.crossArea 3 (-2) 2 [0, 0, 0, 5]).map fun (s, a) => (s.curr.x, a)) =
    some (3, [0, 4 / 3, 2, 83 / 12]) := by decide +kernel

end GeoCrossings
