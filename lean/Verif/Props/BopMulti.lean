import Verif.Lemmas.LamDir
import Verif.Props.BopNest
import Mathlib.Algebra.Order.Ring.Rat
import Mathlib.Algebra.Field.Rat

/-! # C41, C59: `boolean_op` returns the multipolygon that it should -/
set_option linter.unusedSectionVars false
namespace GeoCrossings
open Spec BoolOp Rings

variable {K : Type} [Field K] [LinearOrder K] [IsStrictOrderedRing K]

/-- A polygon as exterior and holes. -/
def Polygon.rings (p : Polygon K) : List (Pt K) × List (List (Pt K)) := (p.ext, p.ints)

theorem inRing_evenOdd {rings : List (Ring K)} (hne : ∀ g ∈ rings, ∀ x ∈ g.coords.zip g.coords.tail, x.1 ≠ x.2) {k : Nat} {g : Ring K}
    (hg : rings[k]? = some g) (q : Pt K) : InRing (geomR rings) (inputR rings) (ringR rings) k q ↔ EvenOdd [g.coords] q := by
  unfold InRing EvenOdd
  rw [inputR_ring hne k fun e => Under q e.first e.second, hg, Option.map_some, Option.getD_some, under_properEdges]
  simp [edgesBelow]

theorem mem_polygonsFor {rings : List (Ring K)} {parents : Nat → Nat} {p : Polygon K} : p ∈ polygonsFor rings parents ↔
    ∃ i r, rings[i]? = some r ∧ r.isHole = false ∧
      p = ⟨r.coords, (rings.zipIdx.filter fun y => y.1.isHole ∧ parents y.2 = i).map fun y => y.1.coords⟩ := by
  unfold polygonsFor
  rw [List.mem_map]
  constructor
  · rintro ⟨⟨r, i⟩, h1, rfl⟩
    rw [List.mem_filter, List.mem_zipIdx_iff_getElem?] at h1
    exact ⟨i, r, h1.1, by simpa using h1.2, rfl⟩
  · rintro ⟨i, r, h1, h2, rfl⟩
    exact ⟨(r, i), by rw [List.mem_filter, List.mem_zipIdx_iff_getElem?]; exact ⟨h1, by simpa using h2⟩, rfl⟩

theorem mem_holesFor {rings : List (Ring K)} {parents : Nat → Nat} {i : Nat} {h : List (Pt K)} :
    h ∈ (rings.zipIdx.filter fun y => y.1.isHole ∧ parents y.2 = i).map (fun y => y.1.coords) ↔
      ∃ j r, rings[j]? = some r ∧ r.isHole = true ∧ parents j = i ∧ h = r.coords := by
  rw [List.mem_map]
  constructor
  · rintro ⟨⟨r, j⟩, h1, rfl⟩
    rw [List.mem_filter, List.mem_zipIdx_iff_getElem?, decide_eq_true_eq] at h1
    exact ⟨j, r, h1.1, h1.2.1, h1.2.2, rfl⟩
  · rintro ⟨j, r, h1, h2, h3, rfl⟩
    exact ⟨(r, j), by rw [List.mem_filter, List.mem_zipIdx_iff_getElem?, decide_eq_true_eq]; exact ⟨h1, h2, h3⟩, rfl⟩

/-- The edges of the rings of polygons, as pairs of consecutive coordinates. -/
def edgePairs (mp : List (Polygon K)) : List (Pt K × Pt K) := (mp.flatMap ringsOf).flatMap fun ring => ring.zip ring.tail

/-- The run of `assemble` on the rings of `Op::sweep`. -/
theorem assemble_run {em : List (LineOrPoint K × Winding)} (H : Emitted em) (hm : (em.map (·.1)).Pairwise EndsOnly) {rg : Rings K} {rings : List (Ring K)}
    (hr : ofEdges em = some rg) (hf : rg.finish = some rings) (hpa : ∀ v, PairedAt em v)
    (h4 : ∀ v, (edgesOf rings).countP (fun e => e.first = v) + (edgesOf rings).countP (fun e => e.second = v) ≤ 4)
    (srt' : List (Crossing K Nat) → List (Crossing K Nat)) (nextAfter : K → K) (choice : Nat → Nat) :
    ∃ N parents, (∀ dbg fuel, N ≤ fuel → Laminar.findParents dbg rings nextAfter choice srt' fuel = some parents) ∧
      Nested (geomR rings) (inputR rings) (ringR rings) (holeR rings) rings.length parents ∧
      (∀ i r, rings[i]? = some r → r.isHole → ∃ p, rings[parents i]? = some p ∧ p.isHole = false) ∧
      ∀ i r, rings[i]? = some r → ∃ c ∈ inputR rings, ringR rings c = i := by
  have R := nestOk H hm hr hf hpa h4
  obtain ⟨it, i1, N, par, i2, i3⟩ := nest_run R srt' nextAfter choice
  have hedge : ∀ i r, rings[i]? = some r → ∃ c ∈ inputR rings, ringR rings c = i := by
    intro i r hi
    have hrm := List.mem_of_getElem? hi
    have hsc := C37_rings_simple em (fun e he => (H.lt e he).ne) hr hf r hrm
    have hne := consec_ne (C35_edges_conserved em (fun e he => (H.lt e he).ne) hr hf) H.lt
    obtain ⟨q, hq⟩ : ∃ q, q ∈ r.coords := List.exists_mem_of_ne_nil _ (by
      have := hsc.2.2
      intro h; rw [h] at this; simp at this)
    obtain ⟨e, he, -⟩ := end_properEdges (hne r hrm) (by have := hsc.2.2; omega) q hq
    obtain ⟨c, hc, h, -⟩ := exists_inputR hne hi he
    exact ⟨c, hc, h⟩
  refine ⟨N, par, fun dbg fuel hfu => by
    rw [findParents_eq (fun _ g hg => (C37_rings_simple em (fun e he => (H.lt e he).ne) hr hf g hg).1), i1, Option.bind_some, i2 dbg fuel hfu], i3, ?_, hedge⟩
  intro i r hi hh
  obtain ⟨c, hc, rfl⟩ := hedge i r hi
  obtain ⟨⟨x1, x2⟩, -⟩ := i3.hol c hc (by unfold holeR; rw [hi]; exact hh)
  refine ⟨rings[par (ringR rings c)], List.getElem?_eq_getElem x2, ?_⟩
  unfold holeR at x1
  rw [List.getElem?_eq_getElem x2] at x1
  exact x1

theorem holeR_of {rings : List (Ring K)} {i : Nat} {r : Ring K} (h : rings[i]? = some r) : holeR rings i = r.isHole := by
  unfold holeR; rw [h]; rfl

theorem polygons_spec {em : List (LineOrPoint K × Winding)} (H : Emitted em) (hm : (em.map (·.1)).Pairwise EndsOnly) {rg : Rings K} {rings : List (Ring K)}
    (hr : ofEdges em = some rg) (hf : rg.finish = some rings) (hpa : ∀ v, PairedAt em v)
    (h4 : ∀ v, (edgesOf rings).countP (fun e => e.first = v) + (edgesOf rings).countP (fun e => e.second = v) ≤ 4)
    {parents : Nat → Nat} (N : Nested (geomR rings) (inputR rings) (ringR rings) (holeR rings) rings.length parents)
    (hedge : ∀ i r, rings[i]? = some r → ∃ c ∈ inputR rings, ringR rings c = i) :
    (∀ q, InMulti ((polygonsFor rings parents).map Polygon.rings) q ↔ em.countP (edgeUnder q) % 2 = 1) ∧
      ProperMulti ((polygonsFor rings parents).map Polygon.rings) := by
  have R := nestOk H hm hr hf hpa h4
  have hcons := C35_edges_conserved em (fun e he => (H.lt e he).ne) hr hf
  have hne := consec_ne hcons H.lt
  have hp := edgesOf_perm hcons H.lines
  have hlen : ∀ x, x < rings.length → ∃ r, rings[x]? = some r := fun x hx => ⟨rings[x], List.getElem?_eq_getElem hx⟩
  have hholes : ∀ (i : Nat) (q : Pt K), (∀ h, holeR rings h = true → parents h = i → ¬ InRing (geomR rings) (inputR rings) (ringR rings) h q) ↔
      ∀ h ∈ (rings.zipIdx.filter fun y => y.1.isHole ∧ parents y.2 = i).map (fun y => y.1.coords), ¬ EvenOdd [h] q := by
    intro i q
    constructor
    · intro h l hl hq
      obtain ⟨j, r, hj, k1, k2, rfl⟩ := mem_holesFor.1 hl
      exact h j ((holeR_of hj).trans k1) k2 ((inRing_evenOdd hne hj q).2 hq)
    · intro h j hj hpj hin
      cases hg : rings[j]? with
      | none => unfold holeR at hj; rw [hg] at hj; simp at hj
      | some r =>
        exact h r.coords (mem_holesFor.2 ⟨j, r, hg, (holeR_of hg).symm.trans hj, hpj, rfl⟩) ((inRing_evenOdd hne hg q).1 hin)
  constructor
  · intro q
    have h1 := N.inside R q
    rw [inputR_all hne fun e => Under q e.first e.second, hp.countP_eq, List.countP_map, Nat.odd_iff] at h1
    refine Iff.trans ?_ (Iff.trans h1.symm Iff.rfl)
    unfold InMulti
    constructor
    · rintro ⟨p, hp, k1, k2⟩
      obtain ⟨p, hpp, rfl⟩ := List.mem_map.1 hp
      obtain ⟨i, r, hi, hih, rfl⟩ := mem_polygonsFor.1 hpp
      exact ⟨i, ⟨(holeR_of hi).trans hih, (List.getElem?_eq_some_iff.1 hi).1⟩, (inRing_evenOdd hne hi q).2 k1, (hholes i q).2 k2⟩
    · rintro ⟨x, ⟨hx, hxl⟩, k1, k2⟩
      obtain ⟨r, hi⟩ := hlen x hxl
      exact ⟨_, List.mem_map.2 ⟨_, mem_polygonsFor.2 ⟨x, r, hi, (holeR_of hi).symm.trans hx, rfl⟩, rfl⟩, (inRing_evenOdd hne hi q).1 k1, (hholes x q).1 k2⟩
  · refine ⟨?_, ?_, ?_⟩
    · intro p hp h hh q hq
      obtain ⟨p, hpp, rfl⟩ := List.mem_map.1 hp
      obtain ⟨i, r, hi, hih, rfl⟩ := mem_polygonsFor.1 hpp
      obtain ⟨j, s, hj, k1, k2, rfl⟩ := mem_holesFor.1 hh
      obtain ⟨c, hc, rfl⟩ := hedge j s hj
      have := N.hole_in R hc ((holeR_of hj).trans k1) ((inRing_evenOdd hne hj q).2 hq)
      rw [k2] at this
      exact (inRing_evenOdd hne hi q).1 this
    · intro p hp
      obtain ⟨p, hpp, rfl⟩ := List.mem_map.1 hp
      obtain ⟨i, r, hi, hih, rfl⟩ := mem_polygonsFor.1 hpp
      have hnd : (rings.zipIdx.filter fun y => y.1.isHole ∧ parents y.2 = i).Pairwise fun x y => x.2 ≠ y.2 := by
        refine List.Pairwise.sublist List.filter_sublist ?_
        rw [← List.pairwise_map (f := Prod.snd) (R := (· ≠ ·)), List.zipIdx_map_snd]
        exact List.nodup_range'
      rw [Polygon.rings, List.pairwise_map]
      refine hnd.imp_of_mem ?_
      rintro ⟨s, j⟩ ⟨s', j'⟩ m1 m2 hjj q ⟨q1, q2⟩
      rw [List.mem_filter, List.mem_zipIdx_iff_getElem?, decide_eq_true_eq] at m1 m2
      obtain ⟨c, hc, e1⟩ := hedge j s m1.1
      obtain ⟨c', hc', e2⟩ := hedge j' s' m2.1
      have t1 := (holeR_of m1.1).trans m1.2.1
      have t2 := (holeR_of m2.1).trans m2.2.1
      have t3 := (inRing_evenOdd hne m1.1 q).2 q1
      have t4 := (inRing_evenOdd hne m2.1 q).2 q2
      have t5 := m1.2.2
      have t6 := m2.2.2
      simp only at t1 t2 t3 t4 t5 t6 e1 e2
      rw [← e1] at t1 t3 t5
      rw [← e2] at t2 t4 t6
      have := N.holes_apart R hc hc' t1 t2 (t5.trans t6.symm) t3 t4
      exact hjj (e1.symm.trans (this.trans e2))
    · have hnd : (rings.zipIdx.filter fun x => !x.1.isHole).Pairwise fun x y => x.2 ≠ y.2 := by
        refine List.Pairwise.sublist List.filter_sublist ?_
        rw [← List.pairwise_map (f := Prod.snd) (R := (· ≠ ·)), List.zipIdx_map_snd]
        exact List.nodup_range'
      unfold polygonsFor
      rw [List.map_map, List.pairwise_map]
      refine hnd.imp_of_mem ?_
      rintro ⟨s, j⟩ ⟨s', j'⟩ m1 m2 hjj q ⟨q1, q2⟩
      rw [List.mem_filter, List.mem_zipIdx_iff_getElem?] at m1 m2
      have m1h : s.isHole = false := by simpa using m1.2
      have m2h : s'.isHole = false := by simpa using m2.2
      obtain ⟨p, hp, q1, q1'⟩ := q1
      obtain ⟨p', hp', q2, q2'⟩ := q2
      rw [List.mem_singleton] at hp hp'
      subst hp hp'
      exact hjj (N.ext_unique R ((holeR_of m1.1).trans m1h) ((holeR_of m2.1).trans m2h) ((inRing_evenOdd hne m1.1 q).2 q1)
        ((inRing_evenOdd hne m2.1 q).2 q2) ((hholes j q).2 q1') ((hholes j' q).2 q2'))

/-- **C41 (when at most two edges start and at most four meet at each point).** Suppose that no point is the left end of more than two
edges of the result or an end of more than four. Then `boolean_op` returns a multipolygon; a point is in one of its polygons, that is,
inside the exterior and outside the holes, iff the truth table of the operation holds for its membership in the two operands. -/
theorem C41_boolean_op_multi_partial (ty : OpType) {a b : List (Polygon K)} (ha : ∀ p ∈ a, ∀ ring ∈ ringsOf p, Closed ring)
    (hb : ∀ p ∈ b, ∀ ring ∈ ringsOf p, Closed ring) (nextAfter : K → K) (choice : Nat → Nat)
    {srt srt' : List (Crossing K Nat) → List (Crossing K Nat)} (hst : Stable compareCrossings srt ∨ NoOverlap ((a ++ b).flatMap Spec.ringsOf))
    (h2 : ∀ es fuel rings, (addMultiPolygon [] a true).bind (fun es => addMultiPolygon es b false) = some es →
      BoolOp.sweep ty es nextAfter choice srt fuel = some rings → ∀ v, (edgesOf rings).countP (fun e => e.first = v) ≤ 2 ∧
        (edgesOf rings).countP (fun e => e.first = v) + (edgesOf rings).countP (fun e => e.second = v) ≤ 4) :
    ∃ N polys, (∀ fuel, N ≤ fuel → booleanOp a b ty nextAfter choice srt srt' fuel = some polys) ∧
      (∀ r, InMulti (polys.map Polygon.rings) r ↔
        inResult ty (decide (EvenOdd (a.flatMap ringsOf) r)) (decide (EvenOdd (b.flatMap ringsOf) r)) = true) ∧
      ProperMulti (polys.map Polygon.rings) := by
  obtain ⟨N, em, rg, rings, h, H, hm, r1, r2, -, h4⟩ := sweep_run ty ha hb nextAfter choice hst
  have hh := h2 _ N rings (opEdges_eq ha hb) (h N (le_refl _))
  obtain ⟨N', parents, k1, k2, k3, k4⟩ := assemble_run H hm r1 r2 (paired_of_two H r1 r2 fun v => (hh v).1) (fun v => (hh v).2) srt' nextAfter choice
  have hbo : ∀ fuel, max N N' ≤ fuel → booleanOp a b ty nextAfter choice srt srt' fuel = some (polygonsFor rings parents) := by
    intro fuel hf
    have e1 : (addMultiPolygon [] a true).bind (fun es => addMultiPolygon es b false) = some (opEdges a b) := opEdges_eq ha hb
    obtain ⟨es1, q1, q2⟩ := Option.bind_eq_some_iff.1 e1
    unfold booleanOp
    rw [q1, Option.bind_some, q2, Option.bind_some, h fuel (by omega), Option.bind_some]
    unfold Laminar.assemble
    rw [k1 false fuel (by omega), Option.bind_some]
    exact Laminar.C39_each_ring_once rings parents k3
  obtain ⟨s1, s2⟩ := polygons_spec H hm r1 r2 (paired_of_two H r1 r2 fun v => (hh v).1) (fun v => (hh v).2) k2 k4
  exact ⟨max N N', polygonsFor rings parents, hbo, fun r => (s1 r).trans (h4 r), s2⟩

/-! ## Operands in general position -/

theorem length_le_of_rel {α β : Type _} {R : α → β → Prop} {l : List α} {m : List β} (h : ∀ a ∈ l, ∃ b ∈ m, R a b)
    (hp : l.Pairwise fun a a' => ∀ b, R a b → ¬ R a' b) : l.length ≤ m.length := by
  classical
  have : ∀ a : α, ∃ o : Option β, a ∈ l → ∃ b ∈ m, o = some b ∧ R a b := by
    intro a
    by_cases ha : a ∈ l
    · obtain ⟨b, h1, h2⟩ := h a ha
      exact ⟨some b, fun _ => ⟨b, h1, rfl, h2⟩⟩
    · exact ⟨none, fun k => absurd k ha⟩
  choose f hf using this
  have hn : (l.map f).Nodup := by
    refine List.pairwise_map.2 (hp.imp_of_mem ?_)
    intro a a' ha ha' hR heq
    obtain ⟨b, -, e1, r1⟩ := hf a ha
    obtain ⟨b', -, e2, r2⟩ := hf a' ha'
    rw [e1, e2, Option.some.injEq] at heq
    subst heq
    exact hR b r1 r2
  have hs : l.map f ⊆ m.map some := by
    intro o ho
    obtain ⟨a, ha, rfl⟩ := List.mem_map.1 ho
    obtain ⟨b, hb, e1, -⟩ := hf a ha
    rw [e1]; exact List.mem_map_of_mem hb
  have := (hn.subperm hs).length_le
  simpa using this

theorem det_ray {v u p q : Pt K} (h : v ≠ u) (h1 : det v u p = 0) (h2 : det v u q = 0) : det v p q = 0 := by
  refine det_trans h (by unfold det; ring) ?_ h2
  have : det v p u = - det v u p := by unfold det; ring
  rw [this, h1, neg_zero]

theorem mem_opEdges {a b : List (Polygon K)} {o : OpEdge K} (ho : o ∈ opEdges a b) :
    ∃ ring ∈ a.flatMap ringsOf ++ b.flatMap ringsOf, ∃ e ∈ ring.zip ring.tail, segBetween e.1 e.2 = some o.geom := by
  have key : ∀ (mp : List (Polygon K)) f, o ∈ mp.flatMap (fun p => polyEdges p f) → ∃ ring ∈ mp.flatMap ringsOf, ∃ e ∈ ring.zip ring.tail, segBetween e.1 e.2 = some o.geom := by
    intro mp f h
    obtain ⟨p, hp, h⟩ := List.mem_flatMap.1 h
    unfold polyEdges at h
    obtain ⟨ring, hr, h⟩ := List.mem_flatMap.1 h
    obtain ⟨g, hg, rfl⟩ := List.mem_map.1 h
    obtain ⟨e, he, hs⟩ := List.mem_filterMap.1 hg
    exact ⟨ring, List.mem_flatMap.2 ⟨p, hp, (List.mem_filter.1 hr).1⟩, e, he, hs⟩
  rcases List.mem_append.1 ho with h | h
  · obtain ⟨ring, hr, k⟩ := key _ _ h; exact ⟨ring, List.mem_append_left _ hr, k⟩
  · obtain ⟨ring, hr, k⟩ := key _ _ h; exact ⟨ring, List.mem_append_right _ hr, k⟩

theorem OnSeg.swap {p q r : Pt K} (h : OnSeg p q r) : OnSeg q p r := by
  obtain ⟨t, t0, t1, hx, hy⟩ := h
  exact ⟨1 - t, by linarith, by linarith, by rw [hx]; ring, by rw [hy]; ring⟩

/-- The number of edges of the result at a point where the edges of the operands leave in few directions. -/
theorem fewRays_count {a b : List (Polygon K)} {em : List (LineOrPoint K × Winding)} (H : Emitted em) (hm : (em.map (·.1)).Pairwise EndsOnly)
    (hw : ∀ e ∈ em, ∃ o ∈ opEdges a b, OnSeg o.geom.first o.geom.second e.1.first ∧ OnSeg o.geom.first o.geom.second e.1.second)
    {v : Pt K} (hv : FewRays (a.flatMap ringsOf ++ b.flatMap ringsOf) v) :
    em.countP (fun e => e.1.first = v) ≤ 2 ∧ em.countP (fun e => e.1.first = v) + em.countP (fun e => e.1.second = v) ≤ 4 := by
  obtain ⟨R, L, hR, hRL, hray⟩ := hv
  have ray : ∀ e ∈ em, (e.1.first = v → ∃ u ∈ R, v < u ∧ det v u e.1.second = 0) ∧ (e.1.second = v → ∃ u ∈ L, u < v ∧ det v u e.1.first = 0) := by
    intro e he
    have hlt := H.lt e he
    obtain ⟨o, ho, k1, k2⟩ := hw e he
    obtain ⟨ring, hr, x, hx, hs⟩ := mem_opEdges ho
    obtain ⟨p, q, g1, g2, g3⟩ := segBetween_line hs
    rw [g1] at k1 k2
    change OnSeg p q e.1.first at k1
    change OnSeg p q e.1.second at k2
    have on : ∀ {z : Pt K}, OnSeg p q z → OnSeg x.1 x.2 z := by
      intro z hz
      rcases g3 with ⟨rfl, rfl⟩ | ⟨rfl, rfl⟩
      · exact hz
      · exact OnSeg.swap hz
    have hp : p = x.1 ∨ p = x.2 := by rcases g3 with ⟨h, -⟩ | ⟨h, -⟩ <;> simp [h]
    have hq : q = x.1 ∨ q = x.2 := by rcases g3 with ⟨-, h⟩ | ⟨-, h⟩ <;> simp [h]
    have k1' := (onSeg_iff g2).1 k1
    have k2' := (onSeg_iff g2).1 k2
    have hdet := det_symm g2.ne k1'.1 k2'.1
    constructor
    · rintro rfl
      have hq' : e.1.first < q := hlt.trans_le k2'.2.2
      obtain ⟨u, hu, hvu, hc⟩ := (hray ring hr x hx (on k1) q hq).1 hq'
      rw [collinear3_iff] at hc
      refine ⟨u, hu, hvu, det_ray hq'.ne ?_ ?_⟩
      · have : det e.1.first q u = - det e.1.first u q := by unfold det; ring
        rw [this, hc, neg_zero]
      · have : det e.1.first q e.1.second = - det e.1.first e.1.second q := by unfold det; ring
        rw [this, hdet.2, neg_zero]
    · rintro rfl
      have hp' : p < e.1.second := lt_of_le_of_lt k1'.2.1 hlt
      obtain ⟨u, hu, hvu, hc⟩ := (hray ring hr x hx (on k2) p hp).2 hp'
      rw [collinear3_iff] at hc
      refine ⟨u, hu, hvu, det_ray hp'.ne' ?_ ?_⟩
      · have : det e.1.second p u = - det e.1.second u p := by unfold det; ring
        rw [this, hc, neg_zero]
      · have : det e.1.second p e.1.first = det e.1.first e.1.second p := by unfold det; ring
        rw [this, hdet.1]
  have c1 : em.countP (fun e => decide (e.1.first = v)) ≤ R.length := by
    rw [List.countP_eq_length_filter]
    refine length_le_of_rel (R := fun e u => v < u ∧ det v u e.1.second = 0) ?_ ?_
    · intro e he
      rw [List.mem_filter, decide_eq_true_eq] at he
      exact (ray e he.1).1 he.2
    · refine (H.spread.sublist List.filter_sublist).imp_of_mem ?_
      intro e e' he he' hs u h1 h2
      rw [List.mem_filter, decide_eq_true_eq] at he he'
      refine hs (he.2.trans he'.2.symm) ?_
      rw [he.2]
      exact det_ray h1.1.ne h1.2 h2.2
  have c2 : em.countP (fun e => decide (e.1.second = v)) ≤ L.length := by
    rw [List.countP_eq_length_filter]
    refine length_le_of_rel (R := fun e u => u < v ∧ det v u e.1.first = 0) ?_ ?_
    · intro e he
      rw [List.mem_filter, decide_eq_true_eq] at he
      exact (ray e he.1).2 he.2
    · rw [List.pairwise_map] at hm
      refine (hm.sublist List.filter_sublist).imp_of_mem ?_
      intro e e' he he' hs u h1 h2
      rw [List.mem_filter, decide_eq_true_eq] at he he'
      have key : ∀ {d d' : LineOrPoint K × Winding}, d ∈ em → d' ∈ em → d.1.second = v → d'.1.second = v → det v d.1.first d'.1.first = 0 →
          d.1.first ≤ d'.1.first → EndsOnly d.1 d'.1 → False := by
        intro d d' hd hd' e1 e2 h0 hle hE
        have l1 := H.lt d hd
        have l2 := H.lt d' hd'
        obtain ⟨m, hm⟩ := inside_mid l2
        refine (hE m ?_ hm.onSeg).2 hm
        rw [onSeg_iff l1]
        refine ⟨?_, hle.trans hm.1.le, ?_⟩
        · rw [e1]
          rw [e1] at l1
          rw [e2] at l2
          have hm3 := hm.2.2
          rw [e2] at hm3
          refine det_trans (p := d'.1.first) (q := v) l2.ne ?_ (by unfold det; ring) hm3
          have : det d.1.first v d'.1.first = - det v d.1.first d'.1.first := by unfold det; ring
          rw [this, h0, neg_zero]
        · rw [e1, ← e2]; exact hm.2.1.le
      have h0 := det_ray h1.1.ne' h1.2 h2.2
      rcases le_total e.1.first e'.1.first with k | k
      · exact key he.1 he'.1 he.2 he'.2 h0 k hs
      · refine key he'.1 he.1 he'.2 he.2 ?_ k hs.symm
        have : det v e'.1.first e.1.first = - det v e.1.first e'.1.first := by unfold det; ring
        rw [this, h0, neg_zero]
  exact ⟨c1.trans hR, by omega⟩

/-- If the edges of the operands leave every point in few directions, few edges of the result meet at each point. -/
theorem few_edges (ty : OpType) {a b : List (Polygon K)} (ha : ∀ p ∈ a, ∀ ring ∈ ringsOf p, Closed ring)
    (hb : ∀ p ∈ b, ∀ ring ∈ ringsOf p, Closed ring) (hgen : ∀ v, FewRays (a.flatMap ringsOf ++ b.flatMap ringsOf) v)
    (nextAfter : K → K) (choice : Nat → Nat) {srt : List (Crossing K Nat) → List (Crossing K Nat)} (hst : Stable compareCrossings srt ∨ NoOverlap ((a ++ b).flatMap Spec.ringsOf)) :
    ∀ es fuel rings, (addMultiPolygon [] a true).bind (fun es => addMultiPolygon es b false) = some es →
      BoolOp.sweep ty es nextAfter choice srt fuel = some rings → ∀ v, (edgesOf rings).countP (fun e => e.first = v) ≤ 2 ∧
        (edgesOf rings).countP (fun e => e.first = v) + (edgesOf rings).countP (fun e => e.second = v) ≤ 4 := by
  intro es fuel rings hes hr v
  rw [opEdges_eq ha hb, Option.some.injEq] at hes
  subst hes
  obtain ⟨em, rg, H, hm, r1, r2, hw, -⟩ := sweep_run_of ty ha hb hst hr
  have hp := edgesOf_perm (C35_edges_conserved em (fun e he => (H.lt e he).ne) r1 r2) H.lines
  rw [hp.countP_eq, hp.countP_eq, List.countP_map, List.countP_map]
  exact fewRays_count H hm hw (hgen v)

/-- **C59.** On operands whose rings are closed and whose edges leave every point in few directions, `boolean_op` returns a multipolygon;
a point is in one of its polygons, that is, inside the exterior and outside the holes, iff the truth table of the operation holds for
its membership in the two operands. Its polygons have no point in common, every hole is inside its exterior, and the holes of one
polygon have no point in common. -/
theorem C59_boolean_op (ty : OpType) {a b : List (Polygon K)} (ha : ∀ p ∈ a, ∀ ring ∈ ringsOf p, Closed ring)
    (hb : ∀ p ∈ b, ∀ ring ∈ ringsOf p, Closed ring) (hgen : ∀ v, FewRays (a.flatMap ringsOf ++ b.flatMap ringsOf) v)
    (nextAfter : K → K) (choice : Nat → Nat)
    {srt srt' : List (Crossing K Nat) → List (Crossing K Nat)} (hst : Stable compareCrossings srt ∨ NoOverlap ((a ++ b).flatMap Spec.ringsOf)) :
    ∃ N polys, (∀ fuel, N ≤ fuel → booleanOp a b ty nextAfter choice srt srt' fuel = some polys) ∧
      (∀ r, InMulti (polys.map Polygon.rings) r ↔
        inResult ty (decide (EvenOdd (a.flatMap ringsOf) r)) (decide (EvenOdd (b.flatMap ringsOf) r)) = true) ∧
      ProperMulti (polys.map Polygon.rings) := by
  refine C41_boolean_op_multi_partial ty ha hb nextAfter choice hst (few_edges ty ha hb hgen nextAfter choice hst)

/-- If at most two edges pass through a point, they leave it in few directions. -/
theorem fewRays_of_two {rings : List (List (Pt K))} {v : Pt K}
    (h : ∃ x y : Pt K × Pt K, ∀ ring ∈ rings, ∀ e ∈ ring.zip ring.tail, OnSeg e.1 e.2 v → e = x ∨ e = y) : FewRays rings v := by
  obtain ⟨x, y, h⟩ := h
  refine ⟨[max x.1 x.2, max y.1 y.2], [min x.1 x.2, min y.1 y.2], by simp, by simp, ?_⟩
  intro ring hr e he hv w hw
  have key : ∀ x : Pt K × Pt K, OnSeg x.1 x.2 v → (w = x.1 ∨ w = x.2) → (v < w → v < max x.1 x.2 ∧ Collinear3 v (max x.1 x.2) w) ∧
      (w < v → min x.1 x.2 < v ∧ Collinear3 v (min x.1 x.2) w) := by
    intro x hx hw
    have hx' : OnSeg (min x.1 x.2) (max x.1 x.2) v := by
      rcases le_total x.1 x.2 with k | k
      · rw [min_eq_left k, max_eq_right k]; exact hx
      · rw [min_eq_right k, max_eq_left k]; exact OnSeg.swap hx
    have hle : min x.1 x.2 ≤ w ∧ w ≤ max x.1 x.2 := by
      rcases hw with rfl | rfl <;> simp
    have hw2 : w = min x.1 x.2 ∨ w = max x.1 x.2 := by
      rcases le_total x.1 x.2 with k | k
      · rw [min_eq_left k, max_eq_right k]; exact hw
      · rw [min_eq_right k, max_eq_left k]; exact hw.symm
    have hlt : min x.1 x.2 ≠ max x.1 x.2 → min x.1 x.2 < max x.1 x.2 := fun h => lt_of_le_of_ne min_le_max h
    have hself : ∀ p : Pt K, Collinear3 v p p := fun p => by unfold Collinear3; ring
    by_cases hmm : min x.1 x.2 = max x.1 x.2
    · have hwm : w = max x.1 x.2 := le_antisymm hle.2 (hmm ▸ hle.1)
      rw [hmm, hwm]
      exact ⟨fun h => ⟨h, hself _⟩, fun h => ⟨h, hself _⟩⟩
    · obtain ⟨-, v1, v2⟩ := (onSeg_iff (hlt hmm)).1 hx'
      constructor
      · intro k
        have : w = max x.1 x.2 := hw2.resolve_left fun e => absurd (e ▸ k) (not_lt.2 v1)
        rw [← this]; exact ⟨k, hself _⟩
      · intro k
        have : w = min x.1 x.2 := hw2.resolve_right fun e => absurd (e ▸ k) (not_lt.2 v2)
        rw [← this]; exact ⟨k, hself _⟩
  rcases h ring hr e he hv with rfl | rfl
  · obtain ⟨k1, k2⟩ := key e hv hw
    exact ⟨fun h => ⟨_, by simp, k1 h⟩, fun h => ⟨_, by simp, k2 h⟩⟩
  · obtain ⟨k1, k2⟩ := key e hv hw
    exact ⟨fun h => ⟨_, by simp, k1 h⟩, fun h => ⟨_, by simp, k2 h⟩⟩

/-- **C59 (no three edges).** The same for operands of whose edges no three have a point in common. -/
theorem C59_boolean_op_two (ty : OpType) {a b : List (Polygon K)} (ha : ∀ p ∈ a, ∀ ring ∈ ringsOf p, Closed ring)
    (hb : ∀ p ∈ b, ∀ ring ∈ ringsOf p, Closed ring)
    (hgen : ∀ e₁ ∈ edgePairs (a ++ b), ∀ e₂ ∈ edgePairs (a ++ b), ∀ e₃ ∈ edgePairs (a ++ b), e₁ ≠ e₂ → e₁ ≠ e₃ → e₂ ≠ e₃ →
      ∀ v, ¬ (OnSeg e₁.1 e₁.2 v ∧ OnSeg e₂.1 e₂.2 v ∧ OnSeg e₃.1 e₃.2 v))
    (nextAfter : K → K) (choice : Nat → Nat)
    {srt srt' : List (Crossing K Nat) → List (Crossing K Nat)} (hst : Stable compareCrossings srt ∨ NoOverlap ((a ++ b).flatMap Spec.ringsOf)) :
    ∃ N polys, (∀ fuel, N ≤ fuel → booleanOp a b ty nextAfter choice srt srt' fuel = some polys) ∧
      (∀ r, InMulti (polys.map Polygon.rings) r ↔
        inResult ty (decide (EvenOdd (a.flatMap ringsOf) r)) (decide (EvenOdd (b.flatMap ringsOf) r)) = true) ∧
      ProperMulti (polys.map Polygon.rings) := by
  refine C59_boolean_op ty ha hb (fun v => fewRays_of_two ?_) nextAfter choice hst
  have hmem : ∀ ring ∈ a.flatMap ringsOf ++ b.flatMap ringsOf, ∀ e ∈ ring.zip ring.tail, e ∈ edgePairs (a ++ b) := by
    intro ring hr e he
    rw [← List.flatMap_append] at hr
    exact List.mem_flatMap.2 ⟨ring, hr, he⟩
  by_cases h1 : ∃ e₁ ∈ edgePairs (a ++ b), OnSeg e₁.1 e₁.2 v
  · obtain ⟨e₁, m1, s1⟩ := h1
    by_cases h2 : ∃ e₂ ∈ edgePairs (a ++ b), e₁ ≠ e₂ ∧ OnSeg e₂.1 e₂.2 v
    · obtain ⟨e₂, m2, n2, s2⟩ := h2
      refine ⟨e₁, e₂, fun ring hr e he hv => ?_⟩
      by_contra hno
      rw [not_or] at hno
      exact hgen e₁ m1 e₂ m2 e (hmem ring hr e he) n2 (Ne.symm hno.1) (Ne.symm hno.2) v ⟨s1, s2, hv⟩
    · refine ⟨e₁, e₁, fun ring hr e he hv => .inl ?_⟩
      by_contra hno
      exact h2 ⟨e, hmem ring hr e he, Ne.symm hno, hv⟩
  · exact ⟨(v, v), (v, v), fun ring hr e he hv => absurd ⟨e, hmem ring hr e he, hv⟩ h1⟩

/-! ## Examples -/

/-- The coordinates of a point on a segment. -/
theorem OnSeg.box {p q v : Pt K} (h : OnSeg p q v) : min p.x q.x ≤ v.x ∧ v.x ≤ max p.x q.x ∧ min p.y q.y ≤ v.y ∧ v.y ≤ max p.y q.y := by
  obtain ⟨t, t0, t1, hx, hy⟩ := h
  rw [hx, hy]
  have key : ∀ a b : K, min a b ≤ a + t * (b - a) ∧ a + t * (b - a) ≤ max a b := by
    intro a b
    rcases le_total a b with k | k
    · rw [min_eq_left k, max_eq_right k]; constructor <;> nlinarith
    · rw [min_eq_right k, max_eq_left k]; constructor <;> nlinarith
  exact ⟨(key _ _).1, (key _ _).2, (key _ _).1, (key _ _).2⟩

/-- The boxes of three edges have no point in common. -/
def boxApart (e₁ e₂ e₃ : Pt K × Pt K) : Bool :=
  decide (min (max e₁.1.x e₁.2.x) (min (max e₂.1.x e₂.2.x) (max e₃.1.x e₃.2.x)) < max (min e₁.1.x e₁.2.x) (max (min e₂.1.x e₂.2.x) (min e₃.1.x e₃.2.x)) ∨
    min (max e₁.1.y e₁.2.y) (min (max e₂.1.y e₂.2.y) (max e₃.1.y e₃.2.y)) < max (min e₁.1.y e₁.2.y) (max (min e₂.1.y e₂.2.y) (min e₃.1.y e₃.2.y)))

theorem boxApart_spec {e₁ e₂ e₃ : Pt K × Pt K} (h : boxApart e₁ e₂ e₃ = true) (v : Pt K) :
    ¬ (OnSeg e₁.1 e₁.2 v ∧ OnSeg e₂.1 e₂.2 v ∧ OnSeg e₃.1 e₃.2 v) := by
  rintro ⟨h1, h2, h3⟩
  obtain ⟨a1, a2, a3, a4⟩ := OnSeg.box h1
  obtain ⟨b1, b2, b3, b4⟩ := OnSeg.box h2
  obtain ⟨c1, c2, c3, c4⟩ := OnSeg.box h3
  rcases of_decide_eq_true h with h | h
  · exact absurd h (not_lt.2 ((max_le a1 (max_le b1 c1)).trans (le_min a2 (le_min b2 c2))))
  · exact absurd h (not_lt.2 ((max_le a3 (max_le b3 c3)).trans (le_min a4 (le_min b4 c4))))

/-- A square with a smaller one inside. -/
def bigS : List (Polygon ℚ) := [⟨[⟨0, 0⟩, ⟨6, 0⟩, ⟨6, 6⟩, ⟨0, 6⟩, ⟨0, 0⟩], []⟩]
/-- See `bigS`. -/
def smallS : List (Polygon ℚ) := [⟨[⟨2, 2⟩, ⟨4, 2⟩, ⟨4, 4⟩, ⟨2, 4⟩, ⟨2, 2⟩], []⟩]
/-- A square that overlaps `bigS`. -/
def overS : List (Polygon ℚ) := [⟨[⟨3, 3⟩, ⟨9, 3⟩, ⟨9, 9⟩, ⟨3, 9⟩, ⟨3, 3⟩], []⟩]

theorem boxes_of {a b : List (Polygon ℚ)} (h : ∀ e₁ ∈ edgePairs (a ++ b), ∀ e₂ ∈ edgePairs (a ++ b), ∀ e₃ ∈ edgePairs (a ++ b),
      e₁ ≠ e₂ → e₁ ≠ e₃ → e₂ ≠ e₃ → boxApart e₁ e₂ e₃ = true) :
    ∀ e₁ ∈ edgePairs (a ++ b), ∀ e₂ ∈ edgePairs (a ++ b), ∀ e₃ ∈ edgePairs (a ++ b), e₁ ≠ e₂ → e₁ ≠ e₃ → e₂ ≠ e₃ →
      ∀ v, ¬ (OnSeg e₁.1 e₁.2 v ∧ OnSeg e₂.1 e₂.2 v ∧ OnSeg e₃.1 e₃.2 v) :=
  fun e₁ m1 e₂ m2 e₃ m3 n1 n2 n3 => boxApart_spec (h e₁ m1 e₂ m2 e₃ m3 n1 n2 n3)

/-- A difference with a hole: the assumptions of C59 hold, and the result. -/
example : (∀ p ∈ bigS, ∀ ring ∈ ringsOf p, Closed ring) ∧ (∀ p ∈ smallS, ∀ ring ∈ ringsOf p, Closed ring) ∧
    (∀ e₁ ∈ edgePairs (bigS ++ smallS), ∀ e₂ ∈ edgePairs (bigS ++ smallS), ∀ e₃ ∈ edgePairs (bigS ++ smallS), e₁ ≠ e₂ → e₁ ≠ e₃ → e₂ ≠ e₃ →
      ∀ v, ¬ (OnSeg e₁.1 e₁.2 v ∧ OnSeg e₂.1 e₂.2 v ∧ OnSeg e₃.1 e₃.2 v)) ∧
    (booleanOp bigS smallS .difference id (fun _ => 0) id id 60).map (fun l => l.map Polygon.rings) =
      some [([⟨6, 0⟩, ⟨0, 0⟩, ⟨0, 6⟩, ⟨6, 6⟩, ⟨6, 0⟩], [[⟨4, 2⟩, ⟨2, 2⟩, ⟨2, 4⟩, ⟨4, 4⟩, ⟨4, 2⟩]])] :=
  ⟨by decide +kernel, by decide +kernel, boxes_of (by decide +kernel), by decide +kernel⟩

/-- Edges that cross: with `xor` four edges of the result meet where they do. -/
example : (∀ p ∈ bigS, ∀ ring ∈ ringsOf p, Closed ring) ∧ (∀ p ∈ overS, ∀ ring ∈ ringsOf p, Closed ring) ∧
    (∀ e₁ ∈ edgePairs (bigS ++ overS), ∀ e₂ ∈ edgePairs (bigS ++ overS), ∀ e₃ ∈ edgePairs (bigS ++ overS), e₁ ≠ e₂ → e₁ ≠ e₃ → e₂ ≠ e₃ →
      ∀ v, ¬ (OnSeg e₁.1 e₁.2 v ∧ OnSeg e₂.1 e₂.2 v ∧ OnSeg e₃.1 e₃.2 v)) ∧
    (booleanOp bigS overS .xor id (fun _ => 0) id id 60).map (fun l => l.map fun p => (p.ext.length, p.ints.length)) =
      some [(7, 0), (7, 0)] :=
  ⟨by decide +kernel, by decide +kernel, boxes_of (by decide +kernel), by decide +kernel⟩

theorem count_first_le {l : List (LineOrPoint K)} {n : Nat} (h : ∀ e ∈ l, l.countP (fun d => decide (d.first = e.first)) ≤ n) (v : Pt K) :
    l.countP (fun d => decide (d.first = v)) ≤ n := by
  by_cases hv : ∃ e ∈ l, e.first = v
  · obtain ⟨e, he, rfl⟩ := hv; exact h e he
  · rw [List.countP_eq_zero.2 fun d hd k => hv ⟨d, hd, of_decide_eq_true k⟩]; exact Nat.zero_le _

/-- The rings that `Op::sweep` returns for `bigS` without `smallS`. -/
def frameRings : List (GeoCrossings.Ring ℚ) :=
  [⟨[⟨4, 2⟩, ⟨2, 2⟩, ⟨2, 4⟩, ⟨4, 4⟩, ⟨4, 2⟩], true⟩, ⟨[⟨6, 0⟩, ⟨0, 0⟩, ⟨0, 6⟩, ⟨6, 6⟩, ⟨6, 0⟩], false⟩]

/-- The assumptions of C58 hold, for a ring that is a hole and one that is not. -/
example : (addMultiPolygon [] bigS true).bind (fun es => addMultiPolygon es smallS false) = some (opEdges bigS smallS) ∧
    BoolOp.sweep .difference (opEdges bigS smallS) id (fun _ => 0) id 60 = some frameRings ∧
    ∀ v, (edgesOf frameRings).countP (fun e => e.first = v) ≤ 2 :=
  ⟨by decide +kernel, by decide +kernel, count_first_le (by decide +kernel)⟩

/-- **C58 needs its assumption.** For the union of two triangles that touch in their left corner, the region below the least vertex of a ring
does not belong to the result, and the ring is marked as a hole. -/
theorem C58_needs_two : ∃ rings, BoolOp.sweep .union (opEdges touchA touchB) id (fun _ => 0) id 60 = some rings ∧
    ∃ g ∈ rings, ∃ v ∈ g.coords, (∀ q ∈ g.coords, v ≤ q) ∧ g.isHole = true ∧
      inResult .union (decide (EvenOdd (touchA.flatMap ringsOf) v)) (decide (EvenOdd (touchB.flatMap ringsOf) v)) = false := by
  refine ⟨[⟨[⟨0, 0⟩, ⟨4, -1⟩, ⟨1, -3⟩, ⟨0, 0⟩], false⟩, ⟨[⟨5, 5⟩, ⟨0, 0⟩, ⟨2, 1⟩, ⟨5, 5⟩], true⟩], by decide +kernel,
    ⟨[⟨5, 5⟩, ⟨0, 0⟩, ⟨2, 1⟩, ⟨5, 5⟩], true⟩, by simp, ⟨0, 0⟩, by simp, by decide +kernel, rfl, by decide +kernel⟩

end GeoCrossings
