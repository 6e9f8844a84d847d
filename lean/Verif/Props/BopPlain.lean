import Verif.Props.BopGeneral
import Verif.Lemmas.LamInput
import Verif.Spec.ValidMulti

/-! # C70: operations on operands whose rings neither touch nor cross -/
set_option linter.unusedSectionVars false
namespace GeoCrossings
open Spec BoolOp Rings

variable {K : Type} [Field K] [LinearOrder K] [IsStrictOrderedRing K]

theorem Spec.ValidPolygon.plain {ext : List (Pt K)} {holes : List (List (Pt K))} (h : ValidPolygon ext holes) : PlainRings (ext :: holes) :=
  ⟨h.closed, h.distinct, h.meet⟩

namespace Spec.PlainRings

variable {rings : List (List (Pt K))} (h : PlainRings rings)
include h

theorem fst_unique {e e' : Pt K × Pt K} (he : e ∈ rings.flatMap ringEdges) (he' : e' ∈ rings.flatMap ringEdges) (hv : e.1 = e'.1) : e = e' := by
  have e1 : (rings.flatMap ringEdges).map (·.1) = rings.flatMap List.dropLast := by
    rw [List.map_flatMap]
    exact List.flatMap_congr fun r _ => zip_tail_fst r
  have := h.distinct
  rw [← e1] at this
  exact List.inj_on_of_nodup_map this he he' hv

theorem snd_unique {e e' : Pt K × Pt K} (he : e ∈ rings.flatMap ringEdges) (he' : e' ∈ rings.flatMap ringEdges) (hv : e.2 = e'.2) : e = e' := by
  have e1 : (rings.flatMap ringEdges).map (·.2) = rings.flatMap List.tail := by
    rw [List.map_flatMap]
    exact List.flatMap_congr fun r _ => zip_tail_snd r
  have e2 : (rings.flatMap List.tail).Perm (rings.flatMap List.dropLast) :=
    List.Perm.flatMap_left _ fun r hr => closed_tail_perm (h.closed r hr).1
  have := e2.nodup_iff.2 h.distinct
  rw [← e1] at this
  exact List.inj_on_of_nodup_map this he he' hv

/-- No point is an end of three edges. -/
theorem no_three {e₁ e₂ e₃ : Pt K × Pt K} (m1 : e₁ ∈ rings.flatMap ringEdges) (m2 : e₂ ∈ rings.flatMap ringEdges) (m3 : e₃ ∈ rings.flatMap ringEdges)
    (n1 : e₁ ≠ e₂) (n2 : e₁ ≠ e₃) (n3 : e₂ ≠ e₃) {v : Pt K} (h1 : v = e₁.1 ∨ v = e₁.2) (h2 : v = e₂.1 ∨ v = e₂.2) (h3 : v = e₃.1 ∨ v = e₃.2) : False := by
  rcases h1 with h1 | h1 <;> rcases h2 with h2 | h2 <;> rcases h3 with h3 | h3
  · exact n1 (h.fst_unique m1 m2 (h1.symm.trans h2))
  · exact n1 (h.fst_unique m1 m2 (h1.symm.trans h2))
  · exact n2 (h.fst_unique m1 m3 (h1.symm.trans h3))
  · exact n3 (h.snd_unique m2 m3 (h2.symm.trans h3))
  · exact n3 (h.fst_unique m2 m3 (h2.symm.trans h3))
  · exact n2 (h.snd_unique m1 m3 (h1.symm.trans h3))
  · exact n1 (h.snd_unique m1 m2 (h1.symm.trans h2))
  · exact n1 (h.snd_unique m1 m2 (h1.symm.trans h2))

end Spec.PlainRings

theorem ringEdges_ends {rings : List (List (Pt K))} {e : Pt K × Pt K} (h : e ∈ rings.flatMap ringEdges) :
    e.1 ∈ rings.flatten ∧ e.2 ∈ rings.flatten := by
  obtain ⟨r, hr, he⟩ := List.mem_flatMap.1 h
  have := List.of_mem_zip he
  exact ⟨List.mem_flatten.2 ⟨r, hr, this.1⟩, List.mem_flatten.2 ⟨r, hr, List.mem_of_mem_tail this.2⟩⟩

/-- Plain operands, no vertex of one on an edge of the other, are in general position. -/
theorem general_of_plain {a b : List (Polygon K)} (ha : PlainRings (a.flatMap ringsOf)) (hb : PlainRings (b.flatMap ringsOf))
    (hab : ∀ v ∈ (a.flatMap ringsOf).flatten, ∀ e ∈ edgePairs b, ¬ OnSeg e.1 e.2 v)
    (hba : ∀ v ∈ (b.flatMap ringsOf).flatten, ∀ e ∈ edgePairs a, ¬ OnSeg e.1 e.2 v) :
    (∀ e₁ ∈ edgePairs (a ++ b), ∀ e₂ ∈ edgePairs (a ++ b), ∀ e₃ ∈ edgePairs (a ++ b), e₁ ≠ e₂ → e₁ ≠ e₃ → e₂ ≠ e₃ →
      ∀ v, ¬ (OnSeg e₁.1 e₁.2 v ∧ OnSeg e₂.1 e₂.2 v ∧ OnSeg e₃.1 e₃.2 v)) ∧
    (∀ mp ∈ [a, b], ∀ e₁ ∈ edgePairs mp, ∀ e₂ ∈ edgePairs mp, e₁ ≠ e₂ → ∀ v, OnSeg e₁.1 e₁.2 v → OnSeg e₂.1 e₂.2 v →
      v ∈ [e₁.1, e₁.2, e₂.1, e₂.2]) := by
  have hmp : ∀ mp ∈ [a, b], PlainRings (mp.flatMap ringsOf) := by
    intro mp hm
    simp only [List.mem_cons, List.not_mem_nil, or_false] at hm
    rcases hm with rfl | rfl <;> assumption
  constructor
  · have hsplit : ∀ e ∈ edgePairs (a ++ b), e ∈ edgePairs a ∨ e ∈ edgePairs b := by
      intro e he
      unfold edgePairs at he ⊢
      rw [List.flatMap_append, List.flatMap_append] at he
      exact List.mem_append.1 he
    -- two edges of one operand and a third
    have key : ∀ mp ∈ [a, b], ∀ e₁ ∈ edgePairs mp, ∀ e₂ ∈ edgePairs mp, ∀ e₃, (e₃ ∈ edgePairs a ∨ e₃ ∈ edgePairs b) → e₁ ≠ e₂ → e₁ ≠ e₃ → e₂ ≠ e₃ →
        ∀ v, OnSeg e₁.1 e₁.2 v → OnSeg e₂.1 e₂.2 v → OnSeg e₃.1 e₃.2 v → False := by
      intro mp hm e₁ m1 e₂ m2 e₃ m3 n1 n2 n3 v o1 o2 o3
      have P := hmp mp hm
      obtain ⟨q1, q2⟩ := P.meet e₁ m1 e₂ m2 n1 v o1 o2
      have hv : v ∈ (mp.flatMap ringsOf).flatten := by
        obtain ⟨k1, k2⟩ := ringEdges_ends m1
        rcases q1 with rfl | rfl
        · exact k1
        · exact k2
      by_cases h3 : e₃ ∈ edgePairs mp
      · exact P.no_three m1 m2 h3 n1 n2 n3 q1 q2 (P.meet e₁ m1 e₃ h3 n2 v o1 o3).2
      · simp only [List.mem_cons, List.not_mem_nil, or_false] at hm
        rcases hm with rfl | rfl
        · exact hab v hv e₃ (m3.resolve_left h3) o3
        · exact hba v hv e₃ (m3.resolve_right h3) o3
    intro e₁ m1 e₂ m2 e₃ m3 n1 n2 n3 v ⟨o1, o2, o3⟩
    rcases hsplit _ m1 with k1 | k1 <;> rcases hsplit _ m2 with k2 | k2
    · exact key a (by simp) e₁ k1 e₂ k2 e₃ (hsplit _ m3) n1 n2 n3 v o1 o2 o3
    · rcases hsplit _ m3 with k3 | k3
      · exact key a (by simp) e₁ k1 e₃ k3 e₂ (.inr k2) n2 n1 n3.symm v o1 o3 o2
      · exact key b (by simp) e₂ k2 e₃ k3 e₁ (.inl k1) n3 n1.symm n2.symm v o2 o3 o1
    · rcases hsplit _ m3 with k3 | k3
      · exact key a (by simp) e₂ k2 e₃ k3 e₁ (.inr k1) n3 n1.symm n2.symm v o2 o3 o1
      · exact key b (by simp) e₁ k1 e₃ k3 e₂ (.inl k2) n2 n1 n3.symm v o1 o3 o2
    · exact key b (by simp) e₁ k1 e₂ k2 e₃ (hsplit _ m3) n1 n2 n3 v o1 o2 o3
  · intro mp hm e₁ m1 e₂ m2 n1 v o1 o2
    have := ((hmp mp hm).meet e₁ m1 e₂ m2 n1 v o1 o2).1
    simp only [List.mem_cons, List.not_mem_nil, or_false]
    tauto

/-- An end of a segment that shares two points with a line is on it. -/
theorem det_on {p q x y u v : Pt K} (hx : OnSeg p q x) (hy : OnSeg p q y) (hxy : x ≠ y) (h1 : det u v x = 0) (h2 : det u v y = 0) :
    det u v p = 0 := by
  obtain ⟨s, -, -, sx, sy⟩ := hx
  obtain ⟨t, -, -, tx, ty⟩ := hy
  have hst : t - s ≠ 0 := by
    intro e
    have e : t = s := by linarith
    apply hxy
    cases x; cases y
    simp only at sx sy tx ty
    rw [sx, sy, tx, ty, e]
  have : (t - s) * det u v p = t * det u v x - s * det u v y := by
    unfold det
    rw [sx, sy, tx, ty]
    ring
  rw [h1, h2] at this
  simpa [hst] using this

/-- If two segments have two points in common, an end of one of them is on the other. -/
theorem overlap_end {e e' : Pt K × Pt K} {x y : Pt K} (hxy : x ≠ y) (h1 : OnSeg e.1 e.2 x) (h2 : OnSeg e.1 e.2 y) (h3 : OnSeg e'.1 e'.2 x)
    (h4 : OnSeg e'.1 e'.2 y) : (OnSeg e'.1 e'.2 e.1 ∨ OnSeg e'.1 e'.2 e.2) ∨ OnSeg e.1 e.2 e'.1 ∨ OnSeg e.1 e.2 e'.2 := by
  have key : ∀ p q p' q' : Pt K, p < q → p' < q' → OnSeg p q x → OnSeg p q y → OnSeg p' q' x → OnSeg p' q' y →
      OnSeg p' q' p ∨ OnSeg p q p' := by
    intro p q p' q' h h' k1 k2 k3 k4
    have d1 := (onSeg_iff h).1 k1
    have d2 := (onSeg_iff h).1 k2
    have d3 := (onSeg_iff h').1 k3
    have d4 := (onSeg_iff h').1 k4
    rcases le_total p' p with hp | hp
    · exact .inl ((onSeg_iff h').2 ⟨det_on k1 k2 hxy d3.1 d4.1, hp, d1.2.1.trans d3.2.2⟩)
    · exact .inr ((onSeg_iff h).2 ⟨det_on k3 k4 hxy d1.1 d2.1, hp, d3.2.1.trans d1.2.2⟩)
  have hne : ∀ p q : Pt K, OnSeg p q x → OnSeg p q y → p ≠ q := by
    rintro p q k1 k2 rfl
    exact hxy ((onSeg_self.1 k1).trans (onSeg_self.1 k2).symm)
  rcases lt_or_gt_of_ne (hne _ _ h1 h2) with k | k <;> rcases lt_or_gt_of_ne (hne _ _ h3 h4) with k' | k'
  · rcases key _ _ _ _ k k' h1 h2 h3 h4 with h | h
    · exact .inl (.inl h)
    · exact .inr (.inl h)
  · rcases key _ _ _ _ k k' h1 h2 (onSeg_comm.1 h3) (onSeg_comm.1 h4) with h | h
    · exact .inl (.inl (onSeg_comm.1 h))
    · exact .inr (.inr h)
  · rcases key _ _ _ _ k k' (onSeg_comm.1 h1) (onSeg_comm.1 h2) h3 h4 with h | h
    · exact .inl (.inr h)
    · exact .inr (.inl (onSeg_comm.1 h))
  · rcases key _ _ _ _ k k' (onSeg_comm.1 h1) (onSeg_comm.1 h2) (onSeg_comm.1 h3) (onSeg_comm.1 h4) with h | h
    · exact .inl (.inr (onSeg_comm.1 h))
    · exact .inr (.inr (onSeg_comm.1 h))

theorem Spec.PlainRings.edges_nodup {rings : List (List (Pt K))} (h : PlainRings rings) : (rings.flatMap ringEdges).Nodup := by
  have e1 : (rings.flatMap ringEdges).map (·.1) = rings.flatMap List.dropLast := by
    rw [List.map_flatMap]
    exact List.flatMap_congr fun r _ => zip_tail_fst r
  refine List.Nodup.of_map (·.1) ?_
  rw [e1]; exact h.distinct

/-- Two edges of plain rings have at most one point in common. -/
theorem Spec.PlainRings.one_point {rings : List (List (Pt K))} (h : PlainRings rings) {e e' : Pt K × Pt K} (he : e ∈ rings.flatMap ringEdges)
    (he' : e' ∈ rings.flatMap ringEdges) (hne : e ≠ e') {x y : Pt K} (h1 : OnSeg e.1 e.2 x) (h2 : OnSeg e.1 e.2 y) (h3 : OnSeg e'.1 e'.2 x)
    (h4 : OnSeg e'.1 e'.2 y) : x = y := by
  by_contra hxy
  let m : Pt K := ⟨(x.x + y.x) / 2, (x.y + y.y) / 2⟩
  have mid : ∀ p q : Pt K, OnSeg p q x → OnSeg p q y → OnSeg p q m := by
    rintro p q ⟨s, s0, s1, sx, sy⟩ ⟨t, t0, t1, tx, ty⟩
    refine ⟨(s + t) / 2, by linarith, by linarith, ?_, ?_⟩
    · show (x.x + y.x) / 2 = _
      rw [sx, tx]; ring
    · show (x.y + y.y) / 2 = _
      rw [sy, ty]; ring
  have hmx : m ≠ x := by
    intro e
    apply hxy
    have e1 : (x.x + y.x) / 2 = x.x := congrArg Pt.x e
    have e2 : (x.y + y.y) / 2 = x.y := congrArg Pt.y e
    have e1 : x.x = y.x := by linarith
    have e2 : x.y = y.y := by linarith
    cases x; cases y
    simp_all
  have hmy : m ≠ y := by
    intro e
    apply hxy
    have e1 : (x.x + y.x) / 2 = y.x := congrArg Pt.x e
    have e2 : (x.y + y.y) / 2 = y.y := congrArg Pt.y e
    have e1 : x.x = y.x := by linarith
    have e2 : x.y = y.y := by linarith
    cases x; cases y
    simp_all
  have a1 := (h.meet e he e' he' hne x h1 h3).1
  have a2 := (h.meet e he e' he' hne y h2 h4).1
  have a3 := (h.meet e he e' he' hne m (mid _ _ h1 h2) (mid _ _ h3 h4)).1
  rcases a1 with a1 | a1 <;> rcases a2 with a2 | a2 <;> rcases a3 with a3 | a3
  · exact hxy (a1.trans a2.symm)
  · exact hxy (a1.trans a2.symm)
  · exact hmx (a3.trans a1.symm)
  · exact hmy (a3.trans a2.symm)
  · exact hmy (a3.trans a2.symm)
  · exact hmx (a3.trans a1.symm)
  · exact hxy (a1.trans a2.symm)
  · exact hxy (a1.trans a2.symm)

/-- Edges of plain operands, no vertex of one on an edge of the other, do not overlap. -/
theorem noOverlap_of_plain {a b : List (Polygon K)} (ha : PlainRings (a.flatMap Spec.ringsOf)) (hb : PlainRings (b.flatMap Spec.ringsOf))
    (hab : ∀ v ∈ (a.flatMap Spec.ringsOf).flatten, ∀ e ∈ edgePairs b, ¬ OnSeg e.1 e.2 v)
    (hba : ∀ v ∈ (b.flatMap Spec.ringsOf).flatten, ∀ e ∈ edgePairs a, ¬ OnSeg e.1 e.2 v) : NoOverlap ((a ++ b).flatMap Spec.ringsOf) := by
  unfold NoOverlap
  rw [List.flatMap_append, List.flatMap_append, List.pairwise_append]
  refine ⟨?_, ?_, ?_⟩
  · exact ha.edges_nodup.pairwise_of_forall_ne fun e he e' he' hne x y h1 h2 h3 h4 => ha.one_point he he' hne h1 h2 h3 h4
  · exact hb.edges_nodup.pairwise_of_forall_ne fun e he e' he' hne x y h1 h2 h3 h4 => hb.one_point he he' hne h1 h2 h3 h4
  · intro e he e' he' x y h1 h2 h3 h4
    by_contra hxy
    rcases overlap_end hxy h1 h2 h3 h4 with (h | h) | h | h
    · exact hab _ (ringEdges_ends he).1 e' he' h
    · exact hab _ (ringEdges_ends he).2 e' he' h
    · exact hba _ (ringEdges_ends he').1 e he h
    · exact hba _ (ringEdges_ends he').2 e he h

theorem pairwise_of_countP {α : Type _} {P : α → Prop} [DecidablePred P] : ∀ {l : List α}, l.countP (fun a => decide (P a)) ≤ 1 →
    l.Pairwise fun a b => ¬ (P a ∧ P b)
  | [], _ => .nil
  | a :: l, h => by
    rw [List.countP_cons] at h
    refine List.pairwise_cons.2 ⟨fun b hb k => ?_, pairwise_of_countP (l := l) (by omega)⟩
    have : 0 < l.countP fun a => decide (P a) := List.countP_pos_iff.2 ⟨b, hb, decide_eq_true k.2⟩
    rw [if_pos (decide_eq_true k.1)] at h
    omega

theorem pairwise_forall {α β : Type _} {R : β → α → α → Prop} {l : List α} (h : ∀ r, l.Pairwise (R r)) : l.Pairwise fun a b => ∀ r, R r a b := by
  rw [List.pairwise_iff_getElem]
  intro i j hi hj hij r
  exact List.pairwise_iff_getElem.1 (h r) i j hi hj hij

/-- The even-odd rule for polygons without common points. -/
theorem evenOdd_exclusive {polys : List (Polygon K)} (h : polys.Pairwise fun p q => ∀ r, ¬ (EvenOdd (ringsOf p) r ∧ EvenOdd (ringsOf q) r)) (r : Pt K) :
    EvenOdd (polys.flatMap ringsOf) r ↔ ∃ p ∈ polys, EvenOdd (p.ext :: p.ints) r := by
  have e : edgesBelow (polys.flatMap ringsOf) r = (polys.map fun p => edgesBelow (ringsOf p) r).sum := by
    unfold edgesBelow
    induction polys with
    | nil => rfl
    | cons p polys ih => rw [List.flatMap_cons, List.map_append, List.sum_append, ih (List.pairwise_cons.1 h).2, List.map_cons, List.sum_cons]
  unfold EvenOdd at h ⊢
  rw [e]
  clear e
  induction polys with
  | nil => simp
  | cons p polys ih =>
    obtain ⟨h1, h2⟩ := List.pairwise_cons.1 h
    have ih := ih h2
    rw [List.map_cons, List.sum_cons, Nat.odd_add]
    have hp : Odd (edgesBelow (ringsOf p) r) → ¬ Odd (polys.map fun p => edgesBelow (ringsOf p) r).sum := by
      intro k k'
      obtain ⟨q, hq, hq'⟩ := ih.1 k'
      exact h1 q hq r ⟨k, hq'⟩
    rw [Nat.not_odd_iff_even] at hp
    simp only [List.exists_mem_cons_iff]
    refine Iff.trans ?_ (or_congr Iff.rfl ih)
    show _ ↔ Odd (edgesBelow (ringsOf p) r) ∨ _
    by_cases k : Odd (edgesBelow (ringsOf p) r)
    · simp [k, hp k]
    · simp [k]

/-- **C70.** Let the rings of each operand neither touch nor cross themselves or each other, and let no vertex of one operand be on an edge of the
other. For a union, an intersection or a difference `boolean_op` then returns a valid multipolygon: its rings again neither touch nor cross, each polygon is valid
input for `monotone_chains`, and no point is inside two of them. A point is inside the rings returned, by the even-odd rule, iff the truth table holds for it. So the result can be an
operand again. The sort of the crossings need not be stable. -/
theorem C70_plain {ty : OpType} (hty : ty ≠ .xor) {a b : List (Polygon K)} (ha : PlainRings (a.flatMap ringsOf)) (hb : PlainRings (b.flatMap ringsOf))
    (hab : ∀ v ∈ (a.flatMap ringsOf).flatten, ∀ e ∈ edgePairs b, ¬ OnSeg e.1 e.2 v)
    (hba : ∀ v ∈ (b.flatMap ringsOf).flatten, ∀ e ∈ edgePairs a, ¬ OnSeg e.1 e.2 v)
    (nextAfter : K → K) (choice : Nat → Nat) (srt srt' : List (Crossing K Nat) → List (Crossing K Nat)) :
    ∃ N polys, (∀ fuel, N ≤ fuel → booleanOp a b ty nextAfter choice srt srt' fuel = some polys) ∧
      ValidMulti polys ∧
      ∀ r, EvenOdd (polys.flatMap ringsOf) r ↔
        inResult ty (decide (EvenOdd (a.flatMap ringsOf) r)) (decide (EvenOdd (b.flatMap ringsOf) r)) = true := by
  obtain ⟨h3, hx⟩ := general_of_plain ha hb hab hba
  have hst : Stable compareCrossings srt ∨ NoOverlap ((a ++ b).flatMap Spec.ringsOf) := .inr (noOverlap_of_plain ha hb hab hba)
  have ca : ∀ p ∈ a, ∀ ring ∈ ringsOf p, Closed ring := fun p hp ring hr => (ha.closed ring (List.mem_flatMap.2 ⟨p, hp, hr⟩)).1
  have cb : ∀ p ∈ b, ∀ ring ∈ ringsOf p, Closed ring := fun p hp ring hr => (hb.closed ring (List.mem_flatMap.2 ⟨p, hp, hr⟩)).1
  obtain ⟨N, polys, h1, h2, h4, h5⟩ := C68_general_position (srt' := srt') hty ca cb h3 hx nextAfter choice hst
  obtain ⟨N', polys', k1, k2⟩ := C41_boolean_op_two_partial (srt' := srt') ty ca cb nextAfter choice hst fun es fuel rings hes hr v => by
    have := two_edges hty ca cb h3 hx nextAfter choice hst es fuel rings hes hr v
    omega
  have : polys' = polys := Option.some.inj ((k1 (max N N') (by omega)).symm.trans (h1 (max N N') (by omega)))
  subst this
  refine ⟨N, polys', h1, ⟨h2, h4, pairwise_forall fun r => pairwise_of_countP ?_⟩, k2⟩
  obtain ⟨outs, pieces, j1, j2, -, -, j3⟩ := h5 false id
  obtain ⟨outs', pieces', i1, i2, -, -, i3⟩ := chains_all false id h2
  rw [j1, Option.some.injEq] at i1
  subst i1
  rw [j2, Option.some.injEq] at i2
  subst i2
  refine (i3 r).symm.le.trans ?_
  rw [j3 r]
  split <;> simp

/-! ## Examples -/

/-- The box of an edge does not contain the point. -/
def boxOff (v : Pt K) (e : Pt K × Pt K) : Bool :=
  decide (v.x < min e.1.x e.2.x ∨ max e.1.x e.2.x < v.x ∨ v.y < min e.1.y e.2.y ∨ max e.1.y e.2.y < v.y)

theorem boxOff_spec {v : Pt K} {e : Pt K × Pt K} (h : boxOff v e = true) : ¬ OnSeg e.1 e.2 v := by
  intro k
  obtain ⟨a1, a2, a3, a4⟩ := OnSeg.box k
  rcases of_decide_eq_true h with h | h | h | h
  · exact absurd h (not_lt.2 a1)
  · exact absurd h (not_lt.2 a2)
  · exact absurd h (not_lt.2 a3)
  · exact absurd h (not_lt.2 a4)

/-- What is left of `bigS` without `overS`. -/
def cutS : List (Polygon ℚ) := [⟨[⟨6, 0⟩, ⟨0, 0⟩, ⟨0, 6⟩, ⟨3, 6⟩, ⟨3, 3⟩, ⟨6, 3⟩, ⟨6, 0⟩], []⟩]
/-- A bar across the left side of `cutS`. -/
def barS : List (Polygon ℚ) := [⟨[⟨-1, 1⟩, ⟨2, 1⟩, ⟨2, 4⟩, ⟨-1, 4⟩, ⟨-1, 1⟩], []⟩]

/-- The assumptions of C70 hold for `bigS` without `overS`; and then, for its result and a bar. -/
example : (PlainRings (bigS.flatMap ringsOf) ∧ PlainRings (overS.flatMap ringsOf) ∧
      (∀ v ∈ (bigS.flatMap ringsOf).flatten, ∀ e ∈ edgePairs overS, ¬ OnSeg e.1 e.2 v) ∧
      (∀ v ∈ (overS.flatMap ringsOf).flatten, ∀ e ∈ edgePairs bigS, ¬ OnSeg e.1 e.2 v)) ∧
    booleanOp bigS overS .difference id (fun _ => 0) id id 60 = some cutS ∧
    (PlainRings (barS.flatMap ringsOf) ∧ (∀ v ∈ (cutS.flatMap ringsOf).flatten, ∀ e ∈ edgePairs barS, ¬ OnSeg e.1 e.2 v) ∧
      (∀ v ∈ (barS.flatMap ringsOf).flatten, ∀ e ∈ edgePairs cutS, ¬ OnSeg e.1 e.2 v)) ∧
    booleanOp cutS barS .difference id (fun _ => 0) id id 60 =
      some [⟨[⟨2, 4⟩, ⟨0, 4⟩, ⟨0, 6⟩, ⟨3, 6⟩, ⟨3, 3⟩, ⟨6, 3⟩, ⟨6, 0⟩, ⟨0, 0⟩, ⟨0, 1⟩, ⟨2, 1⟩, ⟨2, 4⟩], []⟩] := by
  refine ⟨⟨?_, ?_, ?_, ?_⟩, by decide +kernel, ⟨?_, ?_, ?_⟩, by decide +kernel⟩
  · exact (validPolygon_of_check (by decide +kernel) : ValidPolygon _ []).plain
  · exact (validPolygon_of_check (by decide +kernel) : ValidPolygon _ []).plain
  · exact fun v hv e he => boxOff_spec ((by decide +kernel : ∀ v ∈ (bigS.flatMap ringsOf).flatten, ∀ e ∈ edgePairs overS, boxOff v e = true) v hv e he)
  · exact fun v hv e he => boxOff_spec ((by decide +kernel : ∀ v ∈ (overS.flatMap ringsOf).flatten, ∀ e ∈ edgePairs bigS, boxOff v e = true) v hv e he)
  · exact (validPolygon_of_check (by decide +kernel) : ValidPolygon _ []).plain
  · exact fun v hv e he => boxOff_spec ((by decide +kernel : ∀ v ∈ (cutS.flatMap ringsOf).flatten, ∀ e ∈ edgePairs barS, boxOff v e = true) v hv e he)
  · exact fun v hv e he => boxOff_spec ((by decide +kernel : ∀ v ∈ (barS.flatMap ringsOf).flatten, ∀ e ∈ edgePairs cutS, boxOff v e = true) v hv e he)

end GeoCrossings
