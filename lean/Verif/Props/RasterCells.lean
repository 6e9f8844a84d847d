import Verif.Lemmas.RasterCells
import Verif.Props.RasterReal
import Verif.Props.Monotone
import Verif.Lemmas.ValidCheck
import Verif.Props.RasterTotal
import Mathlib.MeasureTheory.Measure.Prod

/-!
# The cells of a raster (C67)

Over the reals: what `cross_area` adds to a cell, summed over the pieces of a valid polygon, is the Lebesgue measure of the part of the
polygon in that cell.
-/
set_option linter.unusedSectionVars false
namespace GeoCrossings
open Spec GeoCrossings.Monotone MeasureTheory

/-- The scanner `s` on `m` has been moved up to the abscissa `a` (or stands at the left end of `m`, or at its right end, if `a` is not
between them). -/
def ScannedTo {K : Type} [Field K] [LinearOrder K] (a : K) (m : MonoPoly K) (s : Scanner K) : Prop :=
  ∃ ts p e, Reach m s ts ∧ m.top.head? = some p ∧ m.top.getLast? = some e ∧ s.curr.x = max p.x (min a e.x)

/-- The points of a set that are in a cell. -/
def cellSet (P : Pt ℝ → Prop) (a b c d : ℝ) : Set (ℝ × ℝ) :=
  {q | P ⟨q.1, q.2⟩ ∧ (a ≤ q.1 ∧ q.1 < b) ∧ c ≤ q.2 ∧ q.2 < d}

theorem scanLines_scannedTo {K : Type} [Field K] [LinearOrder K] [IsStrictOrderedRing K] {m : MonoPoly K} (hm : MonotonePair m.top m.bot)
    (a : K) : ∃ s, m.scanLines a = some s ∧ ScannedTo a m s := by
  obtain ⟨p, e, -, lt, -, st, -⟩ := id hm
  obtain ⟨s, ts, h1, h2, h3⟩ := scanLines_reach hm lt.1 lt.2 a
  have pe : p.x ≤ e.x := Pt.x_le_of_le (sorted_bounds lt st (List.mem_of_head? lt.1)).2
  refine ⟨s, h1, ts, p, e, h2, lt.1, lt.2, ?_⟩
  rw [h3]
  by_cases h : p.x < a
  · rw [if_pos h, max_eq_right (le_min h.le pe)]
  · rw [if_neg h, max_eq_left ((min_le_left _ _).trans (not_lt.1 h))]

/-- The trapezoids `ts` sweep the piece `m` from `a` to `b`. -/
structure Swept {K : Type} [Field K] [LinearOrder K] (a b : K) (m : MonoPoly K) (ts : List (Trapz K)) : Prop where
  pair : MonotonePair m.top m.bot
  nowhere : NowhereBelow m.top m.bot
  cont : ∃ p e, m.top.head? = some p ∧ m.top.getLast? = some e ∧ Contiguous (max p.x (min a e.x)) ts (max p.x (min b e.x))
  follows : ∀ t ∈ ts, Follows m t

theorem crossArea_scanned {m : MonoPoly ℝ} (hm : MonotonePair m.top m.bot) (ha : NowhereBelow m.top m.bot) {a b : ℝ} (hab : a ≤ b)
    {s : Scanner ℝ} (hs : ScannedTo a m s) {cmin cmax : ℝ} (hc : cmin < cmax) {n : Nat} (hn : 0 < n) :
    ∃ s' ts arr, s.crossArea b cmin cmax (List.replicate n 0) = some (s', arr) ∧ ScannedTo b m s' ∧ Swept a b m ts ∧ arr.length = n ∧
      ∀ j < n, arr.getD j 0 = (ts.map fun t => (volume (bandSet t (rowLine cmin cmax n j) (rowLine cmin cmax n (j + 1)))).toReal).sum := by
  obtain ⟨ts0, p, e, h1, h2, h3, h4⟩ := hs
  have hne : List.replicate n (0 : ℝ) ≠ [] := by
    intro k; have := congrArg List.length k; simp at this; omega
  obtain ⟨s', ts, arr, g1, g2, g3, g4, -⟩ := C49_lebesgue hm ha h1 b hc hne
  obtain ⟨-, s'', ts', k1, k2, k3, -, k5⟩ := C45_contiguous hm h2 h3 h1 b
  rw [g1, Option.some.injEq, Prod.mk.injEq] at k1
  obtain ⟨rfl, rfl⟩ := k1
  rw [List.length_replicate] at g3 g4
  obtain ⟨p', e', -, lt, -, st, -⟩ := id hm
  rw [lt.1] at h2
  rw [lt.2] at h3
  obtain rfl := Option.some.inj h2
  obtain rfl := Option.some.inj h3
  have pe : p'.x ≤ e'.x := Pt.x_le_of_le (sorted_bounds lt st (List.mem_of_head? lt.1)).2
  have hx : s'.curr.x = max p'.x (min b e'.x) := by
    rw [k5]
    by_cases h : s.curr.x < b
    · rw [if_pos h, max_eq_right]
      exact le_min (((le_max_left _ _).trans h4.ge).trans h.le) pe
    · rw [if_neg h, h4]
      have h := not_lt.1 h
      rw [h4] at h
      apply le_antisymm
      · exact max_le_max le_rfl (min_le_min hab le_rfl)
      · refine max_le (le_max_left _ _) ((min_le_left _ _).trans h)
  refine ⟨s', ts, arr, g2, ⟨_, p', e', k2, lt.1, lt.2, hx⟩, ⟨hm, ha, ⟨p', e', lt.1, lt.2, ?_⟩, ?_⟩, g3, fun j hj => ?_⟩
  · rw [← hx, ← h4]; exact k3
  · intro t ht
    exact (C46_follows_and_area hm k2).1 t (by simp [ht])
  · have := g4 j 0 (by simp [hj])
    rw [List.getD_eq_getElem?_getD, this, zero_add]
    rfl

/-! ## Almost every point -/

/-- `q` is not on the lines that bound the trapezoid. -/
def Off (t : Trapz ℝ) (q : ℝ × ℝ) : Prop := q.1 ≠ t.left.x ∧ q.1 ≠ t.right.x ∧ q.2 ≠ t.topAt q.1 ∧ q.2 ≠ t.botAt q.1

theorem ae_x (c : ℝ) : ∀ᵐ q : ℝ × ℝ, q.1 ≠ c := by
  rw [ae_iff]
  have : {q : ℝ × ℝ | ¬ q.1 ≠ c} = {c} ×ˢ Set.univ := by ext q; simp
  rw [this, Measure.volume_eq_prod, Measure.prod_prod]
  simp

theorem ae_graph {f : ℝ → ℝ} (hf : Measurable f) : ∀ᵐ q : ℝ × ℝ, q.2 ≠ f q.1 := by
  rw [ae_iff]
  have e : {q : ℝ × ℝ | ¬ q.2 ≠ f q.1} = {q | q.2 = f q.1} := by ext q; simp
  have hm : MeasurableSet {q : ℝ × ℝ | q.2 = f q.1} := measurableSet_eq_fun measurable_snd (hf.comp measurable_fst)
  rw [e, Measure.volume_eq_prod, Measure.measure_prod_null hm]
  filter_upwards with x
  have : Prod.mk x ⁻¹' {q : ℝ × ℝ | q.2 = f q.1} = {f x} := by ext y; simp
  rw [this]
  simp

theorem ae_off (t : Trapz ℝ) : ∀ᵐ q : ℝ × ℝ, Off t q := by
  have h1 : Measurable t.topAt := by unfold Trapz.topAt; fun_prop
  have h2 : Measurable t.botAt := by unfold Trapz.botAt; fun_prop
  filter_upwards [ae_x t.left.x, ae_x t.right.x, ae_graph h1, ae_graph h2] with q a b c d using ⟨a, b, c, d⟩

open Classical in
/-- Almost every point of a piece is in exactly one of the trapezoids that sweep it. -/
theorem swept_indicator {m : MonoPoly ℝ} (hm : MonotonePair m.top m.bot) (ha : NowhereBelow m.top m.bot) {ring : List (Pt ℝ)}
    (hr : m.intoPolygon = some ring) {q : ℝ × ℝ} (c d : ℝ) {y : ℝ} (hy : q.1 ≠ y) : ∀ {ts : List (Trapz ℝ)} {x : ℝ}, Contiguous x ts y → q.1 ≠ x →
    (∀ t ∈ ts, Follows m t) → (∀ t ∈ ts, Off t q) →
    (ts.map fun t => (bandSet t c d).indicator (1 : ℝ × ℝ → ENNReal) q).sum =
      if EvenOdd [ring] ⟨q.1, q.2⟩ ∧ (x < q.1 ∧ q.1 < y) ∧ c ≤ q.2 ∧ q.2 < d then 1 else 0
  | [], x, h, hx, _, _ => by
    simp only [Contiguous] at h
    rw [List.map_nil, List.sum_nil, if_neg]
    rintro ⟨-, ⟨h1, h2⟩, -⟩
    rw [h] at h1
    exact absurd h1 (not_lt.2 h2.le)
  | t :: ts, x, h, hx, hf, ho => by
    obtain ⟨rfl, hw, h⟩ := h
    obtain ⟨o1, o2, o3, o4⟩ := ho t (by simp)
    rw [List.map_cons, List.sum_cons, swept_indicator hm ha hr c d hy h o2 (fun t h => hf t (by simp [h])) fun t h => ho t (by simp [h])]
    have hle := contiguous_le h
    have hin : q ∈ bandSet t c d ↔ EvenOdd [ring] ⟨q.1, q.2⟩ ∧ (t.left.x < q.1 ∧ q.1 < t.right.x) ∧ c ≤ q.2 ∧ q.2 < d := by
      unfold bandSet
      simp only [Set.mem_ofPred_eq]
      constructor
      · rintro ⟨k1, k2⟩
        have := ((inTrapz_iff hw).1 k1).1
        have l1 := lt_of_le_of_ne this.1 (Ne.symm o1)
        have l2 := lt_of_le_of_ne this.2 o2
        exact ⟨(inTrapz_inside hm ha hr (hf t (by simp)) l1.le l2).1 ⟨k1, o4⟩, ⟨l1, l2⟩, k2⟩
      · rintro ⟨k1, ⟨l1, l2⟩, k2⟩
        exact ⟨((inTrapz_inside hm ha hr (hf t (by simp)) (r := ⟨q.1, q.2⟩) l1.le l2).2 k1).1, k2⟩
    rcases lt_or_gt_of_ne o2 with k | k
    · rw [if_neg (fun z => absurd z.2.1.1 (not_lt.2 k.le)), add_zero, Set.indicator_apply]
      refine if_congr ?_ rfl rfl
      rw [hin]
      exact and_congr_right fun _ => and_congr_left fun _ => and_congr_right fun _ => ⟨fun _ => k.trans_le hle, fun _ => k⟩
    · rw [Set.indicator_of_notMem (fun z => absurd (hin.1 z).2.1.2 (not_lt.2 k.le)), zero_add]
      refine if_congr ?_ rfl rfl
      exact and_congr_right fun _ => and_congr_left fun _ => and_congr_left fun _ => ⟨fun _ => hw.trans k, fun _ => k⟩

open Classical in
/-- The same, for the part between `a` and `b`. -/
theorem swept_piece {a b : ℝ} {m : MonoPoly ℝ} {ts : List (Trapz ℝ)} (h : Swept a b m ts) {ring : List (Pt ℝ)} (hr : m.intoPolygon = some ring)
    (c d : ℝ) : ∀ᵐ q : ℝ × ℝ, (ts.map fun t => (bandSet t c d).indicator (1 : ℝ × ℝ → ENNReal) q).sum =
      if EvenOdd [ring] ⟨q.1, q.2⟩ ∧ (a ≤ q.1 ∧ q.1 < b) ∧ c ≤ q.2 ∧ q.2 < d then 1 else 0 := by
  obtain ⟨p, e, hp, he, hc⟩ := h.cont
  have hoff : ∀ᵐ q : ℝ × ℝ, ∀ t ∈ ts, Off t q := by
    have := (ae_ball_iff (μ := (volume : Measure (ℝ × ℝ))) (S := {t | t ∈ ts}) (List.finite_toSet ts).countable
      (p := fun q t _ => Off t q)).2 fun t _ => ae_off t
    exact this
  filter_upwards [hoff, ae_x p.x, ae_x e.x, ae_x a, ae_x b, ae_x (max p.x (min a e.x)), ae_x (max p.x (min b e.x))] with q o1 o2 o3 o4 o5 o6 o7
  rw [swept_indicator h.pair h.nowhere hr c d o7 hc o6 h.follows o1]
  refine if_congr (and_congr_right fun hin => and_congr_left fun _ => ?_) rfl rfl
  obtain ⟨r1, r2⟩ := inside_range h.pair h.nowhere hr hp he hin
  replace r2 := r2.le
  have r1 := lt_of_le_of_ne r1 (Ne.symm o2)
  have r2 := lt_of_le_of_ne r2 o3
  simp only at r1 r2
  refine and_congr ?_ ?_
  · rw [max_lt_iff, min_lt_iff]
    constructor
    · rintro ⟨-, k | k⟩
      · exact k.le
      · exact absurd r2 (not_lt.2 k.le)
    · intro k
      exact ⟨r1, .inl (lt_of_le_of_ne k (Ne.symm o4))⟩
  · rw [lt_max_iff, lt_min_iff]
    constructor
    · rintro (k | k)
      · exact absurd r1 (not_lt.2 k.le)
      · exact k.1
    · exact fun k => .inr ⟨k, r2⟩

theorem bandSum_measurable (c d : ℝ) : ∀ ts : List (Trapz ℝ),
    Measurable fun q : ℝ × ℝ => (ts.map fun t => (bandSet t c d).indicator (1 : ℝ × ℝ → ENNReal) q).sum
  | [] => by simp
  | t :: ts => by
    simp only [List.map_cons, List.sum_cons]
    exact (measurable_one.indicator (bandSet_measurable t c d)).add (bandSum_measurable c d ts)

theorem bandSum_lintegral (c d : ℝ) : ∀ ts : List (Trapz ℝ),
    ∫⁻ q : ℝ × ℝ, (ts.map fun t => (bandSet t c d).indicator (1 : ℝ × ℝ → ENNReal) q).sum = (ts.map fun t => volume (bandSet t c d)).sum
  | [] => by simp
  | t :: ts => by
    simp only [List.map_cons, List.sum_cons]
    rw [lintegral_add_left (measurable_one.indicator (bandSet_measurable t c d)), bandSum_lintegral c d ts,
      lintegral_indicator_one (bandSet_measurable t c d)]

theorem bandSum_toReal (c d : ℝ) : ∀ ts : List (Trapz ℝ),
    (ts.map fun t => (volume (bandSet t c d)).toReal).sum = ((ts.map fun t => volume (bandSet t c d)).sum).toReal ∧
      (ts.map fun t => volume (bandSet t c d)).sum ≠ ⊤
  | [] => by simp
  | t :: ts => by
    obtain ⟨h1, h2⟩ := bandSum_toReal c d ts
    simp only [List.map_cons, List.sum_cons]
    exact ⟨by rw [ENNReal.toReal_add (bandSet_finite t c d) h2, h1], ENNReal.add_ne_top.2 ⟨bandSet_finite t c d, h2⟩⟩

open Classical in
theorem pieces_indicator {a b : ℝ} (c d : ℝ) : ∀ {out : List (MonoPoly ℝ)} {tss : List (List (Trapz ℝ))} {rings : List (List (Pt ℝ))},
    List.Forall₂ (Swept a b) out tss → out.mapM MonoPoly.intoPolygon = some rings →
    ∀ᵐ q : ℝ × ℝ, (tss.flatten.map fun t => (bandSet t c d).indicator (1 : ℝ × ℝ → ENNReal) q).sum =
      if (a ≤ q.1 ∧ q.1 < b) ∧ c ≤ q.2 ∧ q.2 < d then ((rings.countP fun ring => EvenOdd [ring] (⟨q.1, q.2⟩ : Pt ℝ) : Nat) : ENNReal) else 0
  | [], _, _, .nil, h => by
    rw [List.mapM_nil] at h
    obtain rfl := Option.some.inj h
    filter_upwards with q
    simp
  | m :: out, _, _, .cons (b := ts) (l₂ := tss) h1 h2, h => by
    rw [List.mapM_cons] at h
    simp only [Option.bind_eq_bind, Option.bind_eq_some_iff] at h
    obtain ⟨ring, hr, rings, hrs, h⟩ := h
    obtain rfl := Option.some.inj h
    filter_upwards [swept_piece h1 hr c d, pieces_indicator c d h2 hrs] with q e1 e2
    rw [List.flatten_cons, List.map_append, List.sum_append, e1, e2, List.countP_cons]
    by_cases hq : (a ≤ q.1 ∧ q.1 < b) ∧ c ≤ q.2 ∧ q.2 < d
    · by_cases hi : EvenOdd [ring] (⟨q.1, q.2⟩ : Pt ℝ)
      · rw [if_pos ⟨hi, hq⟩, if_pos hq, if_pos hq]
        simp only [hi, decide_true, if_true, Nat.cast_add, Nat.cast_one]
        rw [add_comm]
      · rw [if_neg fun k => hi k.1, if_pos hq, if_pos hq]
        simp [hi]
    · rw [if_neg fun k => hq k.2, if_neg hq, if_neg hq, add_zero]

open Classical in
/-- The measures of the trapezoids that sweep the pieces of a set, within a cell, add up to that of the set in the cell. -/
theorem cell_measure {a b : ℝ} (c d : ℝ) {out : List (MonoPoly ℝ)} {tss : List (List (Trapz ℝ))} {rings : List (List (Pt ℝ))}
    {P : Pt ℝ → Prop} (hs : List.Forall₂ (Swept a b) out tss) (hr : out.mapM MonoPoly.intoPolygon = some rings)
    (hcov : ∀ r, (rings.countP fun ring => EvenOdd [ring] r) = if P r then 1 else 0) :
    (tss.flatten.map fun t => (volume (bandSet t c d)).toReal).sum = (volume (cellSet P a b c d)).toReal := by
  rw [(bandSum_toReal c d _).1, ← bandSum_lintegral]
  congr 1
  set f : ℝ × ℝ → ENNReal := fun q => (tss.flatten.map fun t => (bandSet t c d).indicator (1 : ℝ × ℝ → ENNReal) q).sum with hf
  have hfm : Measurable f := bandSum_measurable c d _
  have hae : ∀ᵐ q : ℝ × ℝ, f q = (cellSet P a b c d).indicator 1 q := by
    filter_upwards [pieces_indicator c d hs hr] with q e
    rw [hf]
    simp only [e, hcov]
    unfold cellSet
    rw [Set.indicator_apply]
    simp only [Set.mem_ofPred_eq]
    by_cases h1 : (a ≤ q.1 ∧ q.1 < b) ∧ c ≤ q.2 ∧ q.2 < d <;> by_cases h2 : P (⟨q.1, q.2⟩ : Pt ℝ) <;> simp [h1, h2]
  have hset : f ⁻¹' {1} =ᵐ[volume] cellSet P a b c d := by
    filter_upwards [hae] with q e
    apply propext
    show f q = 1 ↔ q ∈ cellSet P a b c d
    rw [e, Set.indicator_apply]
    by_cases h : q ∈ cellSet P a b c d <;> simp [h]
  rw [← measure_congr hset, ← lintegral_indicator_one (hfm (measurableSet_singleton 1))]
  apply lintegral_congr_ae
  filter_upwards [hae] with q e
  rw [Set.indicator_apply]
  show f q = _
  by_cases h : q ∈ cellSet P a b c d
  · have : f q = 1 := by rw [e, Set.indicator_of_mem h]; rfl
    rw [if_pos (show q ∈ f ⁻¹' {1} from this), this]; rfl
  · have : f q = 0 := by rw [e, Set.indicator_of_notMem h]
    rw [if_neg (show ¬ q ∈ f ⁻¹' {1} from fun k => zero_ne_one (this.symm.trans k)), this]

open Classical in
/-- Scanning a column of chains whose pieces cover a set once. -/
theorem cells_of {out : List (MonoPoly ℝ)} {rings : List (List (Pt ℝ))} {P : Pt ℝ → Prop} (h2 : out.mapM MonoPoly.intoPolygon = some rings)
    (h3 : ∀ m ∈ out, MonotonePair m.top m.bot ∧ NowhereBelow m.top m.bot)
    (h6 : ∀ r, (rings.countP fun ring => EvenOdd [ring] r) = if P r then 1 else 0)
    {a b : ℝ} {scs : List (Scanner ℝ)} (hab : a ≤ b) (hs : List.Forall₂ (ScannedTo a) out scs) {cmin cmax : ℝ} {n : Nat} (hc : cmin < cmax) (hn : 0 < n) :
    ∃ res, scs.mapM (fun s => s.crossArea b cmin cmax (List.replicate n 0)) = some res ∧
      List.Forall₂ (ScannedTo b) out (res.map Prod.fst) ∧
      ∀ j < n, (res.map fun r => r.2.getD j 0).sum = (volume {q : ℝ × ℝ | P ⟨q.1, q.2⟩ ∧ (a ≤ q.1 ∧ q.1 < b) ∧ InRow cmin cmax n j q.2}).toReal := by
  have key : ∃ res tss, scs.mapM (fun s => s.crossArea b cmin cmax (List.replicate n 0)) = some res ∧
      List.Forall₂ (ScannedTo b) out (res.map Prod.fst) ∧ List.Forall₂ (Swept a b) out tss ∧
      ∀ j < n, (res.map fun r => r.2.getD j 0).sum =
        (tss.flatten.map fun t => (volume (bandSet t (rowLine cmin cmax n j) (rowLine cmin cmax n (j + 1)))).toReal).sum := by
    clear h2 h6
    induction hs with
    | nil => exact ⟨[], [], rfl, .nil, .nil, by simp⟩
    | @cons m s out scs hms hs ih =>
      obtain ⟨res, tss, g1, g2, g3, g4⟩ := ih fun m hm => h3 m (by simp [hm])
      obtain ⟨s', ts, arr, k1, k2, k3, -, k5⟩ := crossArea_scanned (h3 m (by simp)).1 (h3 m (by simp)).2 hab hms hc hn
      refine ⟨(s', arr) :: res, ts :: tss, by simp [k1, g1], .cons k2 g2, .cons k3 g3, fun j hj => ?_⟩
      rw [List.map_cons, List.sum_cons, k5 j hj, g4 j hj, List.flatten_cons, List.map_append, List.sum_append]
  obtain ⟨res, tss, g1, g2, g3, g4⟩ := key
  refine ⟨res, g1, g2, fun j hj => ?_⟩
  rw [g4 j hj, cell_measure _ _ g3 h2 h6]
  rfl

/-! ## C67 -/

/-- **C67.** Let a valid polygon be decomposed, and let there be a scanner on every piece, moved up to the abscissa `a`: by `scan_lines`, or
by earlier columns. Then scanning with `cross_area` up to `b ≥ a`, with an array of zeros of any positive length, returns on all pieces;
it leaves the scanners moved up to `b`, ready for the next column; and the sum over the pieces of the entries for row `j` is the Lebesgue
measure of the set of points of the polygon with `a ≤ x < b` and `y` in the `j`-th of the rows into which `[cmin, cmax)` is cut. -/
theorem C67_cells (dbg : Bool) (srt : List (Event ℝ) → List (Event ℝ)) {p : Polygon ℝ} (h : ValidPolygon p.ext p.ints) :
    ∃ out, monotoneChains dbg srt p = some out ∧
      (∀ a, ∀ m ∈ out, ∃ s, m.scanLines a = some s ∧ ScannedTo a m s) ∧
      ∀ (a b : ℝ) (scs : List (Scanner ℝ)), a ≤ b → List.Forall₂ (ScannedTo a) out scs →
        ∀ (cmin cmax : ℝ) (n : Nat), cmin < cmax → 0 < n →
        ∃ res, scs.mapM (fun s => s.crossArea b cmin cmax (List.replicate n 0)) = some res ∧
          List.Forall₂ (ScannedTo b) out (res.map Prod.fst) ∧
          ∀ j < n, (res.map fun r => r.2.getD j 0).sum =
            (volume {q : ℝ × ℝ | EvenOdd (p.ext :: p.ints) ⟨q.1, q.2⟩ ∧ (a ≤ q.1 ∧ q.1 < b) ∧ InRow cmin cmax n j q.2}).toReal := by
  obtain ⟨out, rings, h1, h2, h3, -, -, h6⟩ := C51_monotone_chains dbg srt h
  exact ⟨out, h1, fun a m hm => scanLines_scannedTo (h3 m hm).1 a, fun a b scs hab hs cmin cmax n hc hn =>
    cells_of (P := EvenOdd (p.ext :: p.ints)) h2 h3 (fun r => by rw [h6 r]; congr) hab hs hc hn⟩

/-! ## Examples -/

/-- A triangle is valid, so C67 applies to it. -/
theorem triangle_valid : ValidPolygon (K := ℝ) [⟨0, 0⟩, ⟨3, 0⟩, ⟨1, 2⟩, ⟨0, 0⟩] [] := by
  apply validPolygon_of_check
  unfold checkPolygon
  simp [Spec.ringEdges, okEdges, sepEdges, jointEdges, det]
  norm_num

/-- The same triangle over the rationals: the column `0 ≤ x < 2`, with four rows from -1 to 3. The triangle has the areas 7/4 and 3/4
in the second and third. The scanner is then ready for the next column, which has 1/2 in the second row. -/
example : ((monotoneChains true id (⟨[⟨0, 0⟩, ⟨3, 0⟩, ⟨1, 2⟩, ⟨0, 0⟩], []⟩ : Polygon ℚ)).bind fun out => out.mapM fun m => do
      let s ← m.scanLines 0
      let (s, col) ← s.crossArea 2 (-1) 3 (List.replicate 4 0)
      let (_, col') ← s.crossArea 3 (-1) 3 (List.replicate 4 0)
      pure (col, col')) = some [([0, 7 / 4, 3 / 4, 0], [0, 1 / 2, 0, 0])] := by
  decide +kernel

end GeoCrossings
