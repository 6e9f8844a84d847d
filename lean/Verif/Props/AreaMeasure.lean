import Verif.Props.RasterCells
import Verif.Props.BopPlain
import Verif.Props.RasterBool

/-! # C71, C72: the areas of polygons, of the pieces they are cut into and of the results of `boolean_op` are Lebesgue measures -/
set_option linter.unusedSectionVars false
namespace GeoCrossings
open Spec BoolOp GeoCrossings.Monotone MeasureTheory

/-- A point above all the vertices of a chain, and between its ends, is above the chain. -/
theorem chainBelow_of_above {r : Pt ℝ} : ∀ {l : List (Pt ℝ)} {a e : Pt ℝ}, l.head? = some a → l.getLast? = some e → a.x ≤ r.x → r.x < e.x →
    (∀ q ∈ l, q.y < r.y) → ChainBelow l r
  | [], _, _, h, _, _, _, _ => by simp at h
  | [c], a, e, h1, h2, h3, h4, _ => by
    simp only [List.head?_cons, List.getLast?_singleton, Option.some.injEq] at h1 h2
    subst h1 h2
    exact absurd h4 (not_lt.2 h3)
  | c :: d :: l, a, e, h1, h2, h3, h4, hy => by
    simp only [List.head?_cons, Option.some.injEq] at h1
    subst h1
    by_cases hd : r.x < d.x
    · have hw : c.x < d.x := h3.trans_lt hd
      refine ⟨c, d, ⟨[], l, rfl⟩, (min_le_left _ _).trans h3, lt_max_of_lt_right hd, c.y + (r.x - c.x) / (d.x - c.x) * (d.y - c.y), ?_,
        (r.x - c.x) / (d.x - c.x), div_nonneg (by linarith) (by linarith), (div_le_one (by linarith)).2 (by linarith), ?_, rfl⟩
      · have t0 : 0 ≤ (r.x - c.x) / (d.x - c.x) := div_nonneg (by linarith) (by linarith)
        have t1 : (r.x - c.x) / (d.x - c.x) < 1 := (div_lt_one (by linarith)).2 (by linarith)
        have y1 := hy c (by simp)
        have y2 := hy d (by simp)
        nlinarith [mul_pos (sub_pos.2 t1) (sub_pos.2 y1), mul_nonneg t0 (sub_pos.2 y2).le]
      · have : d.x - c.x ≠ 0 := by linarith
        show r.x = c.x + (r.x - c.x) / (d.x - c.x) * (d.x - c.x)
        field_simp
        ring
    · obtain ⟨x, y, ⟨pre, post, h⟩, hp⟩ := chainBelow_of_above (l := d :: l) (a := d) rfl (by rwa [List.getLast?_cons_cons] at h2) (not_lt.1 hd) h4
        fun q hq => hy q (List.mem_cons_of_mem _ hq)
      exact ⟨x, y, ⟨c :: pre, post, by rw [h]; rfl⟩, hp⟩

/-- A point inside the ring of a piece is in every box around the piece. -/
theorem inside_box {m : MonoPoly ℝ} (hm : MonotonePair m.top m.bot) (ha : NowhereBelow m.top m.bot) {ring : List (Pt ℝ)}
    (hr : m.intoPolygon = some ring) {M : ℝ} (hM : ∀ q, q ∈ m.top ∨ q ∈ m.bot → |q.x| < M ∧ |q.y| < M) {r : Pt ℝ} (h : EvenOdd [ring] r) :
    |r.x| < M ∧ |r.y| < M := by
  obtain ⟨p, e, -, lt, lb, st, sb⟩ := id hm
  have hev := (evenOdd_ring hm (fun x h => (chainBelow_iff sb).1 (ha x ((chainBelow_iff st).2 h))) hr r).1.1 h
  rw [← chainBelow_iff sb, ← chainBelow_iff st] at hev
  obtain ⟨⟨c, d, h1, h2⟩, h3⟩ := hev
  have k := Pt.x_le_of_le (edgeOf_lt sb h1).le
  obtain ⟨k1, k2, y, k3, t, t0, t1, -, ty⟩ := h2
  rw [min_eq_left k] at k1
  rw [max_eq_right k] at k2
  have b1 := Pt.x_le_of_le (sorted_bounds lb sb (edgeOf_mem h1).1).1
  have b2 := Pt.x_le_of_le (sorted_bounds lb sb (edgeOf_mem h1).2).2
  have mc := hM c (.inr (edgeOf_mem h1).1)
  have md := hM d (.inr (edgeOf_mem h1).2)
  simp only [abs_lt] at mc md hM ⊢
  refine ⟨⟨by linarith, by linarith⟩, ?_, ?_⟩
  · simp only at ty
    nlinarith
  · by_contra hno
    have hno := not_lt.1 hno
    exact h3 (chainBelow_of_above lt.1 lt.2 (by linarith) (by linarith) fun q hq => (hM q (.inl hq)).2.2.trans_le hno)

/-- A piece scanned in one go, as one cell. -/
theorem piece_column {m : MonoPoly ℝ} (hm : MonotonePair m.top m.bot) (ha : NowhereBelow m.top m.bot) {M : ℝ}
    (hM : ∀ q, q ∈ m.top ∨ q ∈ m.bot → |q.x| < M ∧ |q.y| < M) :
    ∃ s s', m.scanLines (-M) = some s ∧ ScannedTo (-M) m s ∧
      s.crossArea M (-M) M (List.replicate 1 0) = some (s', [areaUnder m.top - areaUnder m.bot]) := by
  simp only [abs_lt] at hM
  obtain ⟨p, e, -, lt, -⟩ := id hm
  have heb := hM e (.inl (List.mem_of_getLast? lt.2))
  obtain ⟨s, h1, h2, -⟩ := scanLines_left hm (left := -M) fun q hq => (hM q (.inl hq)).1.1.le
  obtain ⟨s0, h3, h4⟩ := scanLines_scannedTo hm (-M)
  rw [h1, Option.some.injEq] at h3
  subst h3
  obtain ⟨s', ts, arr', g1, g2, g3, g4, g5⟩ := crossArea_total hm ha (bot := -M) (top := M) (by linarith)
    (fun q hq => ⟨(hM q hq).2.1.le, (hM q hq).2.2.le⟩) h2 M (arr := List.replicate 1 0) (by simp)
  have hend : s'.curr.x = e.x := by
    rw [g5 e lt.2]
    obtain ⟨-, p', e', -, q1, q2, q3⟩ := id h4
    rw [lt.1, Option.some.injEq] at q1
    rw [lt.2, Option.some.injEq] at q2
    subst q1 q2
    have hpb := hM p (.inl (List.mem_of_head? lt.1))
    have : s.curr.x < M := by
      rw [q3]
      exact max_lt hpb.1.2 (min_lt_of_right_lt heb.1.2)
    rw [if_pos this, min_eq_right heb.1.2.le]
  have ha := ((C46_follows_and_area hm g2).2 e lt.2 hend).1
  refine ⟨s, s', h1, h4, ?_⟩
  rw [g1]
  rw [List.length_replicate, List.length_eq_one_iff] at g3
  obtain ⟨v, rfl⟩ := g3
  simp only [List.sum_singleton, List.replicate_one, List.nil_append, zero_add] at g4 ha
  rw [g4, ha]

theorem exists_box : ∀ l : List (Pt ℝ), ∃ M : ℝ, 0 < M ∧ ∀ q ∈ l, |q.x| < M ∧ |q.y| < M
  | [] => ⟨1, one_pos, by simp⟩
  | p :: l => by
    obtain ⟨M, h0, h⟩ := exists_box l
    have hx := abs_nonneg p.x
    have hy := abs_nonneg p.y
    refine ⟨M + |p.x| + |p.y| + 1, by linarith, fun q hq => ?_⟩
    rcases List.mem_cons.1 hq with rfl | hq
    · constructor <;> linarith
    · obtain ⟨h1, h2⟩ := h q hq
      constructor <;> linarith

open Classical in
/-- If the pieces cover a set once, its measure is the total of their areas. -/
theorem chains_measure {out : List (MonoPoly ℝ)} {rings : List (List (Pt ℝ))} {P : Pt ℝ → Prop} (h2 : out.mapM MonoPoly.intoPolygon = some rings)
    (h3 : ∀ m ∈ out, MonotonePair m.top m.bot ∧ NowhereBelow m.top m.bot)
    (h6 : ∀ r, (rings.countP fun ring => EvenOdd [ring] r) = if P r then 1 else 0) :
    volume {q : ℝ × ℝ | P ⟨q.1, q.2⟩} = ENNReal.ofReal (out.map fun m => areaUnder m.top - areaUnder m.bot).sum := by
  obtain ⟨M, h0, hM'⟩ := exists_box (out.flatMap fun m => m.top ++ m.bot)
  have hM : ∀ m ∈ out, ∀ q, q ∈ m.top ∨ q ∈ m.bot → |q.x| < M ∧ |q.y| < M :=
    fun m hm q hq => hM' q (List.mem_flatMap.2 ⟨m, hm, List.mem_append.2 hq⟩)
  obtain ⟨scs, res, k1, k2, k3⟩ : ∃ scs res, List.Forall₂ (ScannedTo (-M)) out scs ∧
      scs.mapM (fun s => s.crossArea M (-M) M (List.replicate 1 0)) = some res ∧
      (res.map fun r => r.2.getD 0 0).sum = (out.map fun m => areaUnder m.top - areaUnder m.bot).sum := by
    clear h2 h6
    clear * - h3 hM
    induction out with
    | nil => exact ⟨[], [], .nil, rfl, rfl⟩
    | cons m out ih =>
      obtain ⟨scs, res, k1, k2, k3⟩ := ih (fun m hm => h3 m (by simp [hm])) fun m hm => hM m (by simp [hm])
      obtain ⟨s, s', j1, j2, j3⟩ := piece_column (h3 m (by simp)).1 (h3 m (by simp)).2 (hM m (by simp))
      exact ⟨s :: scs, (s', [areaUnder m.top - areaUnder m.bot]) :: res, .cons j2 k1, by rw [List.mapM_cons, j3, k2]; rfl, by
        rw [List.map_cons, List.sum_cons, List.map_cons, List.sum_cons, k3]; rfl⟩
  obtain ⟨res', r1, -, r3⟩ := cells_of h2 h3 h6 (by linarith : -M ≤ M) k1 (by linarith : -M < M) (by norm_num : 0 < 1)
  rw [k2, Option.some.injEq] at r1
  subst r1
  have r3 := r3 0 (by norm_num)
  have hset : {q : ℝ × ℝ | P ⟨q.1, q.2⟩ ∧ (-M ≤ q.1 ∧ q.1 < M) ∧ InRow (-M) M 1 0 q.2} = {q : ℝ × ℝ | P ⟨q.1, q.2⟩} := by
    ext q
    simp only [Set.mem_ofPred_eq, and_iff_left_iff_imp]
    intro hP
    have hc := h6 ⟨q.1, q.2⟩
    rw [if_pos hP] at hc
    obtain ⟨ring, hr, he⟩ := List.countP_pos_iff.1 (by rw [hc]; exact one_pos : 0 < rings.countP fun ring => EvenOdd [ring] (⟨q.1, q.2⟩ : Pt ℝ))
    obtain ⟨m, hm, e⟩ := mem_mapM h2 ring hr
    obtain ⟨b1, b2⟩ := inside_box (h3 m hm).1 (h3 m hm).2 e (hM m hm) (of_decide_eq_true he)
    rw [abs_lt] at b1 b2
    refine ⟨⟨b1.1.le, b1.2⟩, ?_, ?_⟩
    · simpa [rowLine] using b2.1.le
    · have := b2.2
      simp only [rowLine, Nat.cast_one, zero_add, div_one, one_mul]
      linarith
  have hfin : volume {q : ℝ × ℝ | P ⟨q.1, q.2⟩} ≠ ⊤ := by
    rw [← hset]
    refine ne_top_of_le_ne_top (isCompact_Icc (a := ((-M, -M) : ℝ × ℝ)) (b := (M, M))).measure_lt_top.ne (measure_mono ?_)
    rintro q ⟨-, ⟨h1, h2⟩, h3, h4⟩
    simp only [rowLine, Nat.cast_one, Nat.cast_zero, zero_add, zero_mul, add_zero, div_one, one_mul] at h3 h4
    exact ⟨⟨h1, h3⟩, ⟨h2.le, by linarith⟩⟩
  rw [← k3, r3, hset, ENNReal.ofReal_toReal hfin]

/-- The pieces of several valid polygons have the areas of the polygons. -/
theorem pieces_areas (dbg : Bool) (srt : List (Event ℝ) → List (Event ℝ)) : ∀ {polys : List (Polygon ℝ)} {outs : List (List (MonoPoly ℝ))},
    (∀ p ∈ polys, ValidPolygon p.ext p.ints) → polys.mapM (monotoneChains dbg srt) = some outs →
    (outs.flatten.map fun m => areaUnder m.top - areaUnder m.bot).sum = (polys.map polygonArea).sum
  | [], outs, _, h => by
    rw [List.mapM_nil] at h
    obtain rfl := Option.some.inj h
    rfl
  | p :: polys, outs, hv, h => by
    rw [List.mapM_cons] at h
    simp only [Option.bind_eq_bind, Option.bind_eq_some_iff] at h
    obtain ⟨out, h1, outs', h2, h⟩ := h
    obtain rfl := Option.some.inj h
    obtain ⟨out', k1, -, k3⟩ := pieces_area dbg srt (hv p (by simp))
    rw [h1, Option.some.injEq] at k1
    subst k1
    rw [List.flatten_cons, List.map_append, List.sum_append, k3, pieces_areas dbg srt (fun q hq => hv q (by simp [hq])) h2, List.map_cons, List.sum_cons]

theorem polygonArea_nonneg {p : Polygon ℝ} (h : ValidPolygon p.ext p.ints) : 0 ≤ polygonArea p := by
  obtain ⟨out, -, k2, k3⟩ := pieces_area false id h
  rw [← k3]
  refine List.sum_nonneg ?_
  intro x hx
  obtain ⟨m, hm, rfl⟩ := List.mem_map.1 hx
  exact (area_between (k2 m hm).1 (k2 m hm).2).1

theorem areas_nonneg {polys : List (Polygon ℝ)} (h : ∀ p ∈ polys, ValidPolygon p.ext p.ints) : 0 ≤ (polys.map polygonArea).sum := by
  refine List.sum_nonneg ?_
  intro x hx
  obtain ⟨p, hp, rfl⟩ := List.mem_map.1 hx
  exact polygonArea_nonneg (h p hp)

/-- **C71.** The set of points inside a valid multipolygon, by the even-odd rule, has as Lebesgue measure the sum of the areas of its polygons: for
each, the area of the exterior less the areas of the holes, by the formula with the coordinates of the vertices. -/
theorem C71_measure {polys : List (Polygon ℝ)} (h : ValidMulti polys) :
    volume {q : ℝ × ℝ | EvenOdd (polys.flatMap ringsOf) ⟨q.1, q.2⟩} =
      ENNReal.ofReal (polys.map fun p => |ringArea p.ext| - (p.ints.map fun r => |ringArea r|).sum).sum := by
  obtain ⟨outs, pieces, k1, k2, k3, -, k4⟩ := chains_all false id h.valid
  rw [chains_measure (P := fun r => EvenOdd (polys.flatMap ringsOf) r) k2 k3 fun r => ?_, pieces_areas false id h.valid k1]
  · rfl
  · have := k4 r
    rw [countP_exclusive (P := fun p : Polygon ℝ => EvenOdd (p.ext :: p.ints) r) (h.apart.imp fun k => k r)] at this
    rw [if_congr (evenOdd_exclusive h.apart r).symm rfl rfl] at this
    convert this

theorem evenOdd_measurable (rings : List (List (Pt ℝ))) : MeasurableSet {q : ℝ × ℝ | EvenOdd rings ⟨q.1, q.2⟩} := by
  have h1 : ∀ a b : Pt ℝ, MeasurableSet {q : ℝ × ℝ | PassesBelow ⟨q.1, q.2⟩ a b} := by
    intro a b
    simp only [passesBelow_iff]
    have hd : ∀ a b : Pt ℝ, Measurable fun q : ℝ × ℝ => det a b ⟨q.1, q.2⟩ := by intro a b; unfold det; fun_prop
    exact ((measurableSet_le measurable_const measurable_fst).inter ((measurableSet_lt measurable_fst measurable_const).inter
      (measurableSet_lt measurable_const (hd a b)))).union ((measurableSet_le measurable_const measurable_fst).inter
      ((measurableSet_lt measurable_fst measurable_const).inter (measurableSet_lt measurable_const (hd b a))))
  have h2 : ∀ l : List (Pt ℝ × Pt ℝ), Measurable fun q : ℝ × ℝ => l.countP fun e => PassesBelow ⟨q.1, q.2⟩ e.1 e.2 := by
    intro l
    induction l with
    | nil => simp
    | cons e l ih =>
      simp only [List.countP_cons]
      refine ih.add ?_
      simp only [decide_eq_true_eq]
      exact Measurable.ite (h1 e.1 e.2) measurable_const measurable_const
  have h3 : Measurable fun q : ℝ × ℝ => edgesBelow rings ⟨q.1, q.2⟩ := by
    unfold edgesBelow
    induction rings with
    | nil => simp
    | cons r rings ih =>
      simp only [List.map_cons, List.sum_cons]
      exact (h2 _).add ih
  exact h3 (MeasurableSet.of_discrete (s := {n : ℕ | Odd n}))

/-- The set of points inside a multipolygon, by the even-odd rule. -/
def insideSet (a : List (Polygon ℝ)) : Set (ℝ × ℝ) := {q | EvenOdd (a.flatMap ringsOf) ⟨q.1, q.2⟩}

/-- **C72.** For valid multipolygons, no vertex of one on an edge of the other: the areas of the polygons that `boolean_op` returns for the union and
for the intersection add up to the areas of the operands, and those for the difference and for the intersection to the area of the first operand. -/
theorem C72_areas {a b : List (Polygon ℝ)} (ha : ValidMulti a) (hb : ValidMulti b)
    (hab : ∀ v ∈ (a.flatMap ringsOf).flatten, ∀ e ∈ edgePairs b, ¬ OnSeg e.1 e.2 v)
    (hba : ∀ v ∈ (b.flatMap ringsOf).flatten, ∀ e ∈ edgePairs a, ¬ OnSeg e.1 e.2 v)
    (nextAfter : ℝ → ℝ) (choice : Nat → Nat) (srt srt' : List (Crossing ℝ Nat) → List (Crossing ℝ Nat)) :
    ∃ N u i d, (∀ fuel, N ≤ fuel → booleanOp a b .union nextAfter choice srt srt' fuel = some u ∧
        booleanOp a b .intersection nextAfter choice srt srt' fuel = some i ∧
        booleanOp a b .difference nextAfter choice srt srt' fuel = some d) ∧
      (u.map polygonArea).sum + (i.map polygonArea).sum = (a.map polygonArea).sum + (b.map polygonArea).sum ∧
      (d.map polygonArea).sum + (i.map polygonArea).sum = (a.map polygonArea).sum := by
  obtain ⟨N1, u, u1, u2, u3⟩ := C70_plain (ty := .union) (by simp) ha.plain hb.plain hab hba nextAfter choice srt srt'
  obtain ⟨N2, i, i1, i2, i3⟩ := C70_plain (ty := .intersection) (by simp) ha.plain hb.plain hab hba nextAfter choice srt srt'
  obtain ⟨N3, d, d1, d2, d3⟩ := C70_plain (ty := .difference) (by simp) ha.plain hb.plain hab hba nextAfter choice srt srt'
  refine ⟨max N1 (max N2 N3), u, i, d, fun fuel hf => ⟨u1 fuel (by omega), i1 fuel (by omega), d1 fuel (by omega)⟩, ?_⟩
  have area : ∀ {l : List (Polygon ℝ)}, ValidMulti l → volume (insideSet l) = ENNReal.ofReal (l.map polygonArea).sum := fun h => C71_measure h
  have eu : insideSet u = insideSet a ∪ insideSet b := by
    ext q
    show EvenOdd _ _ ↔ EvenOdd _ _ ∨ EvenOdd _ _
    rw [u3]
    simp [inResult]
  have ei : insideSet i = insideSet a ∩ insideSet b := by
    ext q
    show EvenOdd _ _ ↔ EvenOdd _ _ ∧ EvenOdd _ _
    rw [i3]
    simp [inResult]
  have ed : insideSet d = insideSet a \ insideSet b := by
    ext q
    show EvenOdd _ _ ↔ EvenOdd _ _ ∧ ¬ EvenOdd _ _
    rw [d3]
    simp [inResult]
  have m := evenOdd_measurable (b.flatMap ringsOf)
  have n : ∀ {l : List (Polygon ℝ)}, ValidMulti l → 0 ≤ (l.map polygonArea).sum := fun h => areas_nonneg h.valid
  constructor
  · have := measure_union_add_inter (μ := volume) (insideSet a) (t := insideSet b) m
    rw [← eu, ← ei, area u2, area i2, area ha, area hb, ← ENNReal.ofReal_add (n u2) (n i2), ← ENNReal.ofReal_add (n ha) (n hb)] at this
    exact (ENNReal.ofReal_eq_ofReal_iff (add_nonneg (n u2) (n i2)) (add_nonneg (n ha) (n hb))).1 this
  · have := measure_sdiff_add_inter (μ := volume) (insideSet a) (t := insideSet b) m
    rw [← ed, ← ei, area d2, area i2, area ha, ← ENNReal.ofReal_add (n d2) (n i2)] at this
    exact (ENNReal.ofReal_eq_ofReal_iff (add_nonneg (n d2) (n i2)) (n ha)).1 this

/-! ## Examples -/

theorem Spec.ValidPolygon.multi {p : Polygon ℝ} (h : ValidPolygon p.ext p.ints) : ValidMulti [p] where
  valid := by simpa using h
  plain := by simpa [Spec.ringsOf] using h.plain
  apart := by simp

theorem boxOff_real (v : Pt ℚ) (e : Pt ℚ × Pt ℚ) : boxOff (realPt v) (Prod.map realPt realPt e) = boxOff v e := by
  unfold boxOff realPt
  simp only [Prod.map]
  norm_cast

theorem off_real {a b : List (Polygon ℚ)} (h : ∀ v ∈ (a.flatMap ringsOf).flatten, ∀ e ∈ edgePairs b, boxOff v e = true) :
    ∀ v ∈ ((realPolys a).flatMap ringsOf).flatten, ∀ e ∈ edgePairs (realPolys b), ¬ OnSeg e.1 e.2 v := by
  intro v hv e he
  rw [ringsOf_real, ← List.map_flatten] at hv
  rw [edgePairs_real] at he
  obtain ⟨v, k1, rfl⟩ := List.mem_map.1 hv
  obtain ⟨e, k2, rfl⟩ := List.mem_map.1 he
  refine boxOff_spec ?_
  rw [boxOff_real]
  exact h v k1 e k2

/-- The overlapping squares meet the assumptions of C71 and C72. -/
example : ValidMulti (realPolys bigS) ∧ ValidMulti (realPolys overS) ∧
    (∀ v ∈ ((realPolys bigS).flatMap ringsOf).flatten, ∀ e ∈ edgePairs (realPolys overS), ¬ OnSeg e.1 e.2 v) ∧
    (∀ v ∈ ((realPolys overS).flatMap ringsOf).flatten, ∀ e ∈ edgePairs (realPolys bigS), ¬ OnSeg e.1 e.2 v) := by
  refine ⟨ValidPolygon.multi (validPolygon_of_check ?_), ValidPolygon.multi (validPolygon_of_check ?_), off_real (by decide +kernel), off_real (by decide +kernel)⟩
  · unfold checkPolygon
    simp [Spec.ringEdges, okEdges, sepEdges, jointEdges, det, realPt]
  · unfold checkPolygon
    simp [Spec.ringEdges, okEdges, sepEdges, jointEdges, det, realPt]
    norm_num

/-- Their areas, over the rationals: each has 36, the intersection 9, the union 63 and the difference 27. -/
example : (bigS.map polygonArea).sum = 36 ∧ (overS.map polygonArea).sum = 36 ∧
    (booleanOp bigS overS .union id (fun _ => 0) id id 60).map (fun u => (u.map polygonArea).sum) = some 63 ∧
    (booleanOp bigS overS .intersection id (fun _ => 0) id id 60).map (fun u => (u.map polygonArea).sum) = some 9 ∧
    (booleanOp bigS overS .difference id (fun _ => 0) id id 60).map (fun u => (u.map polygonArea).sum) = some 27 := by decide +kernel

end GeoCrossings
