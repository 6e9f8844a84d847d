import Verif.Lemmas.BopEdges
import Verif.Lemmas.LamUnique
import Verif.Props.BopNest
import Verif.Props.BopAnySort

/-! # C79: the edges of the result of `Op::sweep`, and on what the result depends -/
set_option linter.unusedSectionVars false
namespace GeoCrossings
open Spec BoolOp Rings

variable {K : Type} [Field K] [LinearOrder K] [IsStrictOrderedRing K]

/-- The recorded edges, as the specification has them. -/
def plain (es : List (OpEdge K)) : List (Bool × Pt K × Pt K) := es.map fun e => (e.isFirst, e.geom.first, e.geom.second)

theorem plainEdges_eq (es : List (OpEdge K)) : plainEdges (geomOf es) (isFirstOf es) (List.range es.length) = plain es := by
  unfold plainEdges plain
  refine List.ext_getElem (by simp) fun i h1 h2 => ?_
  have hi : i < es.length := by simpa using h2
  simp [geomOf, isFirstOf, List.getElem?_eq_getElem hi]

/-- The edges of a run of `Op::sweep`, with all that is known about them. -/
theorem sweep_edges (ty : OpType) {a b : List (Polygon K)} (ha : ∀ p ∈ a, ∀ ring ∈ ringsOf p, Closed ring)
    (hb : ∀ p ∈ b, ∀ ring ∈ ringsOf p, Closed ring) (nextAfter : K → K) (choice : Nat → Nat)
    {srt : List (Crossing K Nat) → List (Crossing K Nat)} (hst : Stable compareCrossings srt ∨ NoOverlap ((a ++ b).flatMap Spec.ringsOf)) :
    ∃ N em rg rings, (∀ fuel, N ≤ fuel → BoolOp.sweep ty (opEdges a b) nextAfter choice srt fuel = some rings ∧
        BoolOp.sweepDebug ty (opEdges a b) nextAfter choice srt fuel = (addAll true em Rings.default).bind Rings.finish) ∧
      Emitted em ∧ (em.map (·.1)).Pairwise EndsOnly ∧ ofEdges em = some rg ∧ rg.finish = some rings ∧
      (∀ e, e ∈ em ↔ ∃ p q, e.1 = .line p q ∧ Bounds ty (plain (opEdges a b)) p q e.2) ∧
      em.Pairwise fun x y => EdgeBefore x.1 y.1 := by
  have he := opEdges_ok ha hb
  set es := opEdges a b with hes
  obtain ⟨cl, hcl⟩ := critical_finite ((List.range es.length).map fun i => (geomOf es i).toLine)
  obtain ⟨pos, st, X, h1, h2, h3, h4, h5⟩ := full_init' (org := fun c => (LineOrPoint.ofLine (geomOf es c).toLine).first)
    (fun i => (geomOf es i).toLine) (List.range es.length) (fun _ _ => rfl)
  obtain ⟨em, t1, t2⟩ := sweepLoop_trace (ty := ty) he (hst.imp_right opEdges_apart) nextAfter choice hcl (X.measure cl + 1)
    (cells := fun _ => (Region.infinity ty, Region.infinity ty)) (by omega) h2 h3
    (by intro L g R e; rw [h4] at e; simp at e)
  have hlt : ∀ e ∈ em, e.1.first < e.1.second := by
    intro e he
    obtain ⟨⟨x, y, k1, k2⟩, -⟩ := t1.second_gt e he
    rw [k1]; exact k2
  obtain ⟨rg, rings, r1, r2⟩ := finish_total em hlt (fun v => t1.even he v (.inr h4)) t1.spread
  refine ⟨X.measure cl + 1, em, rg, rings, ?_, ⟨hlt, t1.sorted, fun v => t1.even he v (.inr h4), t1.spread, fun v => t1.vertex he v (.inr h4)⟩,
    t1.endsOnly, r1, r2, ?_, t1.ordered⟩
  · intro fuel hf
    unfold BoolOp.sweep BoolOp.sweepDebug sweepRings
    have : CrossingsIter.ofInput (fun i => (geomOf es i).toLine) (List.range es.length) = some ⟨st, []⟩ := by
      unfold CrossingsIter.ofInput; rw [h1]; rfl
    rw [this]
    simp only
    have e1 : addAll false em Rings.default = some rg := (addAll_false _ _).trans r1
    rw [t2 fuel fuel (by omega) (by omega), t2 fuel fuel (by omega) (by omega), e1, Option.bind_some, r2]
    exact ⟨rfl, rfl⟩
  · have := t1.bounds he h5
    rwa [plainEdges_eq] at this

/-- **C79.** The edges that `Op::sweep` hands to `Rings`, each with a winding: they are exactly the segments between consecutive ends or crossings
of input edges that have the result of the operation on one side and not on the other, and the winding tells the side. They come sorted by their
right ends, and those with a common right end from above to below. -/
theorem C79_edges (ty : OpType) {a b : List (Polygon K)} (ha : ∀ p ∈ a, ∀ ring ∈ ringsOf p, Closed ring)
    (hb : ∀ p ∈ b, ∀ ring ∈ ringsOf p, Closed ring) (nextAfter : K → K) (choice : Nat → Nat)
    {srt : List (Crossing K Nat) → List (Crossing K Nat)} (hst : Stable compareCrossings srt ∨ NoOverlap ((a ++ b).flatMap Spec.ringsOf)) :
    ∃ N em, (∀ fuel, N ≤ fuel → BoolOp.sweep ty (opEdges a b) nextAfter choice srt fuel = (ofEdges em).bind Rings.finish ∧
        BoolOp.sweepDebug ty (opEdges a b) nextAfter choice srt fuel = (addAll true em Rings.default).bind Rings.finish) ∧
      (∀ e, e ∈ em ↔ ∃ p q, e.1 = .line p q ∧ Bounds ty (plain (opEdges a b)) p q e.2) ∧
      em.Pairwise fun x y => x.1.second < y.1.second ∨ x.1.second = y.1.second ∧ 0 < det y.1.first y.1.second x.1.first := by
  obtain ⟨N, em, rg, rings, h1, -, -, r1, r2, h2, h3⟩ := sweep_edges ty ha hb nextAfter choice hst
  refine ⟨N, em, fun fuel hf => ⟨?_, (h1 fuel hf).2⟩, h2, h3⟩
  rw [(h1 fuel hf).1, r1, Option.bind_some, r2]

/-! ## What the result depends on -/

/-- The specification depends on the edges as a multiset. -/
theorem bounds_perm {ty : OpType} {es es' : List (Bool × Pt K × Pt K)} (h : es.Perm es') {p q : Pt K} {w : Winding} (hb : Bounds ty es p q w) :
    Bounds ty es' p q w := by
  have hc : ∀ x, Critical (es.map fun e => ⟨e.2.1, e.2.2⟩) x ↔ Critical (es'.map fun e => ⟨e.2.1, e.2.2⟩) x :=
    fun x => critical_perm (lineOf := fun e : Bool × Pt K × Pt K => (⟨e.2.1, e.2.2⟩ : Line K)) h x
  have e1 : ∀ f, edgesBelowOf es f p q = edgesBelowOf es' f p q := fun f => h.countP_eq _
  have e2 : ∀ f, edgesAlongOf es f p q = edgesAlongOf es' f p q := fun f => h.countP_eq _
  have e3 : resultBelow ty es p q = resultBelow ty es' p q := by unfold resultBelow; rw [e1, e1]
  have e4 : resultAbove ty es p q = resultAbove ty es' p q := by unfold resultAbove; rw [e1, e1, e2, e2]
  obtain ⟨⟨h1, ⟨e, he, h2⟩, h3, h4, h5⟩, h6, h7⟩ := hb
  exact ⟨⟨h1, ⟨e, h.mem_iff.1 he, h2⟩, (hc _).1 h3, (hc _).1 h4, fun x hx => h5 x ((hc _).2 hx)⟩, by rw [← e3, ← e4]; exact h6, by rw [← e3]; exact h7⟩

/-- If the operation is symmetric, the operands can be interchanged. -/
theorem bounds_swap {ty : OpType} (hty : ty ≠ .difference) {es : List (Bool × Pt K × Pt K)} {p q : Pt K} {w : Winding} (hb : Bounds ty es p q w) :
    Bounds ty (es.map fun e => (!e.1, e.2)) p q w := by
  have hc : (es.map fun e => (!e.1, e.2)).map (fun e => (⟨e.2.1, e.2.2⟩ : Line K)) = es.map fun e => ⟨e.2.1, e.2.2⟩ := by
    rw [List.map_map]; rfl
  have e1 : ∀ f, edgesBelowOf (es.map fun e => (!e.1, e.2)) f p q = edgesBelowOf es (!f) p q := by
    intro f
    unfold edgesBelowOf
    rw [List.countP_map]
    refine List.countP_congr fun e _ => ?_
    obtain ⟨g, e⟩ := e
    cases g <;> cases f <;> simp
  have e2 : ∀ f, edgesAlongOf (es.map fun e => (!e.1, e.2)) f p q = edgesAlongOf es (!f) p q := by
    intro f
    unfold edgesAlongOf
    rw [List.countP_map]
    refine List.countP_congr fun e _ => ?_
    obtain ⟨g, e⟩ := e
    cases g <;> cases f <;> simp
  have hs : ∀ x y, inResult ty x y = inResult ty y x := by
    intro x y
    cases ty <;> first | exact absurd rfl hty | (cases x <;> cases y <;> rfl)
  have e3 : resultBelow ty (es.map fun e => (!e.1, e.2)) p q = resultBelow ty es p q := by
    unfold resultBelow; rw [e1, e1]; exact hs _ _
  have e4 : resultAbove ty (es.map fun e => (!e.1, e.2)) p q = resultAbove ty es p q := by
    unfold resultAbove; rw [e1, e1, e2, e2]; exact hs _ _
  obtain ⟨⟨h1, ⟨e, he, h2⟩, h3, h4, h5⟩, h6, h7⟩ := hb
  exact ⟨⟨h1, ⟨_, List.mem_map_of_mem he, h2⟩, by rw [hc]; exact h3, by rw [hc]; exact h4, by rw [hc]; exact h5⟩,
    by rw [e3, e4]; exact h6, by rw [e3]; exact h7⟩

/-- Lists sorted in the order of edges are equal if they have the same members. -/
theorem edges_unique {em em' : List (LineOrPoint K × Winding)} (h : em.Pairwise fun x y => EdgeBefore x.1 y.1)
    (h' : em'.Pairwise fun x y => EdgeBefore x.1 y.1) (hm : ∀ e, e ∈ em ↔ e ∈ em') : em = em' := by
  have hne : ∀ {x y : LineOrPoint K × Winding}, EdgeBefore x.1 y.1 → x ≠ y := by
    rintro x y hxy rfl
    exact hxy.asymm hxy
  refine List.Perm.eq_of_pairwise (fun a b _ _ h1 h2 => (EdgeBefore.asymm h1 h2).elim) h h' ?_
  rw [List.perm_ext_iff_of_nodup (h.imp hne) (h'.imp hne)]
  exact hm

/-- The edges of a multipolygon that `Op` records. -/
def outline (mp : List (Polygon K)) : List (LineOrPoint K) := ((mp.flatMap ringsOf).filter fun r => 3 < r.length).flatMap properEdges

theorem polyEdges_outline (mp : List (Polygon K)) (f : Bool) : (mp.flatMap fun p => polyEdges p f) = (outline mp).map fun g => ⟨g, f⟩ := by
  unfold outline polyEdges
  rw [List.filter_flatMap, List.flatMap_assoc, List.map_flatMap]
  refine List.flatMap_congr fun p _ => ?_
  rw [List.map_flatMap]

theorem plain_opEdges (a b : List (Polygon K)) : plain (opEdges a b) =
    (outline a).map (fun g => (true, g.first, g.second)) ++ (outline b).map fun g => (false, g.first, g.second) := by
  unfold plain opEdges
  rw [List.map_append, polyEdges_outline, polyEdges_outline, List.map_map, List.map_map]
  rfl

section
variable {ty ty' : OpType} {a b a' b' : List (Polygon K)} {na na' : K → K} {ch ch' : Nat → Nat} {srt srt' : List (Crossing K Nat) → List (Crossing K Nat)}

theorem sweep_same (ha : ∀ p ∈ a, ∀ ring ∈ ringsOf p, Closed ring) (hb : ∀ p ∈ b, ∀ ring ∈ ringsOf p, Closed ring)
    (ha' : ∀ p ∈ a', ∀ ring ∈ ringsOf p, Closed ring) (hb' : ∀ p ∈ b', ∀ ring ∈ ringsOf p, Closed ring)
    (hst : Stable compareCrossings srt ∨ NoOverlap ((a ++ b).flatMap Spec.ringsOf))
    (hst' : Stable compareCrossings srt' ∨ NoOverlap ((a' ++ b').flatMap Spec.ringsOf))
    (h : ∀ p q w, Bounds ty (plain (opEdges a b)) p q w ↔ Bounds ty' (plain (opEdges a' b')) p q w) :
    ∃ N rings, ∀ fuel, N ≤ fuel → BoolOp.sweep ty (opEdges a b) na ch srt fuel = some rings ∧
      BoolOp.sweep ty' (opEdges a' b') na' ch' srt' fuel = some rings ∧
      BoolOp.sweepDebug ty (opEdges a b) na ch srt fuel = BoolOp.sweepDebug ty' (opEdges a' b') na' ch' srt' fuel := by
  obtain ⟨N, em, h1, h2, h3⟩ := C79_edges ty ha hb na ch hst
  obtain ⟨N', em', h1', h2', h3'⟩ := C79_edges ty' ha' hb' na' ch' hst'
  have : em = em' := edges_unique h3 h3' fun e => (h2 e).trans (Iff.trans (by simp only [h]) (h2' e).symm)
  subst this
  obtain ⟨M, rings, k, -⟩ := sweep_spec ty ha hb na ch hst
  refine ⟨max N (max N' M), rings, fun fuel hf => ⟨k fuel (by omega), ?_, ?_⟩⟩
  · rw [(h1' fuel (by omega)).1, ← (h1 fuel (by omega)).1]
    exact k fuel (by omega)
  · rw [(h1 fuel (by omega)).2, (h1' fuel (by omega)).2]

/-- **C79.** What `Op::sweep` returns depends on nothing but which edges the operands have: not on the order of the polygons, rings and
edges, not on where a ring starts and in which direction it goes, not on the order of equal events in the heap, not on `next_after`, and, unless
edges overlap, not on the sort. -/
theorem C79_determined (ha : ∀ p ∈ a, ∀ ring ∈ ringsOf p, Closed ring) (hb : ∀ p ∈ b, ∀ ring ∈ ringsOf p, Closed ring)
    (ha' : ∀ p ∈ a', ∀ ring ∈ ringsOf p, Closed ring) (hb' : ∀ p ∈ b', ∀ ring ∈ ringsOf p, Closed ring)
    (hst : Stable compareCrossings srt ∨ NoOverlap ((a ++ b).flatMap Spec.ringsOf))
    (hst' : Stable compareCrossings srt' ∨ NoOverlap ((a' ++ b').flatMap Spec.ringsOf))
    (haa : (outline a).Perm (outline a')) (hbb : (outline b).Perm (outline b')) :
    ∃ N rings, ∀ fuel, N ≤ fuel → BoolOp.sweep ty (opEdges a b) na ch srt fuel = some rings ∧
      BoolOp.sweep ty (opEdges a' b') na' ch' srt' fuel = some rings ∧
      BoolOp.sweepDebug ty (opEdges a b) na ch srt fuel = BoolOp.sweepDebug ty (opEdges a' b') na' ch' srt' fuel := by
  have hp : (plain (opEdges a b)).Perm (plain (opEdges a' b')) := by
    rw [plain_opEdges, plain_opEdges]
    exact (haa.map _).append (hbb.map _)
  exact sweep_same ha hb ha' hb' hst hst' fun p q w => ⟨bounds_perm hp, bounds_perm hp.symm⟩

/-- **C79.** Intersection, union and symmetric difference are commutative: with the operands interchanged `Op::sweep` returns the very same rings,
with the same first vertices, in the same order. -/
theorem C79_commutative (hty : ty ≠ .difference) (ha : ∀ p ∈ a, ∀ ring ∈ ringsOf p, Closed ring) (hb : ∀ p ∈ b, ∀ ring ∈ ringsOf p, Closed ring)
    (hst : (Stable compareCrossings srt ∧ Stable compareCrossings srt') ∨ NoOverlap ((a ++ b).flatMap Spec.ringsOf)) :
    ∃ N rings, ∀ fuel, N ≤ fuel → BoolOp.sweep ty (opEdges a b) na ch srt fuel = some rings ∧
      BoolOp.sweep ty (opEdges b a) na' ch' srt' fuel = some rings ∧
      BoolOp.sweepDebug ty (opEdges a b) na ch srt fuel = BoolOp.sweepDebug ty (opEdges b a) na' ch' srt' fuel := by
  have hp : ∀ a b : List (Polygon K), ((plain (opEdges a b)).map fun e => (!e.1, e.2)).Perm (plain (opEdges b a)) := by
    intro a b
    rw [plain_opEdges, plain_opEdges, List.map_append, List.map_map, List.map_map]
    exact List.perm_append_comm
  refine sweep_same ha hb hb ha (hst.imp_left And.left) (hst.imp And.right fun h => ?_) fun p q w =>
    ⟨fun h => bounds_perm (hp a b) (bounds_swap hty h), fun h => bounds_perm (hp b a) (bounds_swap hty h)⟩
  unfold NoOverlap at h ⊢
  refine h.perm ?_ ?_
  · exact (List.Perm.flatMap_right _ (List.perm_append_comm.flatMap_right _))
  · exact fun {e e'} h x y h1 h2 h3 h4 => h x y h3 h4 h1 h2

theorem boolean_op_same (ha : ∀ p ∈ a, ∀ ring ∈ ringsOf p, Closed ring) (hb : ∀ p ∈ b, ∀ ring ∈ ringsOf p, Closed ring)
    (ha' : ∀ p ∈ a', ∀ ring ∈ ringsOf p, Closed ring) (hb' : ∀ p ∈ b', ∀ ring ∈ ringsOf p, Closed ring)
    (hst : Stable compareCrossings srt ∨ NoOverlap ((a ++ b).flatMap Spec.ringsOf)) (srt2 srt2' : List (Crossing K Nat) → List (Crossing K Nat))
    (h : ∃ N rings, ∀ fuel, N ≤ fuel → BoolOp.sweep ty (opEdges a b) na ch srt fuel = some rings ∧
      BoolOp.sweep ty' (opEdges a' b') na' ch' srt' fuel = some rings ∧
      BoolOp.sweepDebug ty (opEdges a b) na ch srt fuel = BoolOp.sweepDebug ty' (opEdges a' b') na' ch' srt' fuel) :
    ∃ N res, ∀ fuel, N ≤ fuel → booleanOp a b ty na ch srt srt2 fuel = res ∧ booleanOp a' b' ty' na' ch' srt' srt2' fuel = res := by
  obtain ⟨N, rings, h⟩ := h
  obtain ⟨em, rg, H, hm, r1, r2, -, -⟩ := sweep_run_of ty ha hb hst (h N le_rfl).1
  obtain ⟨M, par, k⟩ := findParents_same H hm r1 r2 srt2 srt2' na na' ch ch'
  refine ⟨max N M, Laminar.placeRings rings par, fun fuel hf => ?_⟩
  obtain ⟨es, j1, j2⟩ := Option.bind_eq_some_iff.1 (opEdges_eq ha hb)
  obtain ⟨es', j1', j2'⟩ := Option.bind_eq_some_iff.1 (opEdges_eq ha' hb')
  have hN := h fuel (by omega)
  have hM := k fuel (by omega)
  unfold booleanOp Laminar.assemble
  simp only [j1, j2, j1', j2', Option.bind_some, hN.1, hN.2.1, hM.1, hM.2]
  exact ⟨trivial, trivial⟩

/-- **C79.** Also what `boolean_op` returns, the polygons with their holes, depends on nothing but which edges the operands have. -/
theorem C79_boolean_op (ha : ∀ p ∈ a, ∀ ring ∈ ringsOf p, Closed ring) (hb : ∀ p ∈ b, ∀ ring ∈ ringsOf p, Closed ring)
    (ha' : ∀ p ∈ a', ∀ ring ∈ ringsOf p, Closed ring) (hb' : ∀ p ∈ b', ∀ ring ∈ ringsOf p, Closed ring)
    (hst : Stable compareCrossings srt ∨ NoOverlap ((a ++ b).flatMap Spec.ringsOf))
    (hst' : Stable compareCrossings srt' ∨ NoOverlap ((a' ++ b').flatMap Spec.ringsOf))
    (haa : (outline a).Perm (outline a')) (hbb : (outline b).Perm (outline b')) (srt2 srt2' : List (Crossing K Nat) → List (Crossing K Nat)) :
    ∃ N res, ∀ fuel, N ≤ fuel → booleanOp a b ty na ch srt srt2 fuel = res ∧ booleanOp a' b' ty na' ch' srt' srt2' fuel = res :=
  boolean_op_same ha hb ha' hb' hst srt2 srt2' (C79_determined ha hb ha' hb' hst hst' haa hbb)

/-- **C79.** Intersection, union and symmetric difference, as `boolean_op` has them, are commutative. -/
theorem C79_boolean_op_commutative (hty : ty ≠ .difference) (ha : ∀ p ∈ a, ∀ ring ∈ ringsOf p, Closed ring)
    (hb : ∀ p ∈ b, ∀ ring ∈ ringsOf p, Closed ring)
    (hst : (Stable compareCrossings srt ∧ Stable compareCrossings srt') ∨ NoOverlap ((a ++ b).flatMap Spec.ringsOf))
    (srt2 srt2' : List (Crossing K Nat) → List (Crossing K Nat)) :
    ∃ N res, ∀ fuel, N ≤ fuel → booleanOp a b ty na ch srt srt2 fuel = res ∧ booleanOp b a ty na' ch' srt' srt2' fuel = res :=
  boolean_op_same ha hb hb ha (hst.imp_left And.left) srt2 srt2' (C79_commutative hty ha hb hst)

end

/-! ## Operands with the same edges -/

theorem segBetween_comm (x y : Pt K) : segBetween x y = segBetween y x := by
  unfold segBetween
  rcases lt_trichotomy x y with h | h | h
  · simp [h, _root_.lt_asymm h]
  · simp [h]
  · simp [h, _root_.lt_asymm h]

theorem properEdges_snoc (x y : Pt K) (l : List (Pt K)) : properEdges (l ++ [x, y]) = properEdges (l ++ [x]) ++ (segBetween x y).toList := by
  induction l with
  | nil => rw [List.nil_append, properEdges_cons]; simp [properEdges]
  | cons z l ih =>
    cases l with
    | nil =>
      simp only [List.cons_append, List.nil_append, properEdges_cons] at ih ⊢
      simp [properEdges]
    | cons w l =>
      simp only [List.cons_append, properEdges_cons] at ih ⊢
      rw [ih, List.append_assoc]

/-- A ring in the other direction has the same edges. -/
theorem properEdges_reverse (l : List (Pt K)) : (properEdges l.reverse).Perm (properEdges l) := by
  induction l with
  | nil => exact .refl _
  | cons x l ih =>
    cases l with
    | nil => exact .refl _
    | cons y l =>
      rw [List.reverse_cons, List.reverse_cons, List.append_assoc, List.singleton_append, properEdges_snoc, properEdges_cons, segBetween_comm y x, ← List.reverse_cons]
      exact List.perm_append_comm.trans (ih.append_left _)

/-- A ring that starts at the next vertex has the same edges. -/
theorem properEdges_rotate (x y : Pt K) (l : List (Pt K)) : (properEdges (y :: l ++ [x, y])).Perm (properEdges (x :: (y :: l ++ [x]))) := by
  rw [properEdges_snoc]
  simp only [List.cons_append]
  rw [properEdges_cons x]
  exact List.perm_append_comm

/-- The order of the polygons does not matter. -/
theorem outline_perm {a a' : List (Polygon K)} (h : a.Perm a') : (outline a).Perm (outline a') :=
  ((h.flatMap_right ringsOf).filter _).flatMap_right _

/-- A ring can be turned around. -/
theorem outline_reverse (l m : List (Polygon K)) (ints : List (List (Pt K))) (r : List (Pt K)) :
    (outline (l ++ ⟨r.reverse, ints⟩ :: m)).Perm (outline (l ++ ⟨r, ints⟩ :: m)) := by
  unfold outline
  simp only [List.flatMap_append, List.flatMap_cons, ringsOf, List.filter_append, List.filter_cons, List.length_reverse]
  refine List.Perm.append_left _ (List.Perm.append_right _ ?_)
  split
  · rw [List.flatMap_cons, List.flatMap_cons]
    exact (properEdges_reverse r).append_right _
  · exact .refl _

/-- A hole can be turned around. -/
theorem outline_reverse_hole (l m : List (Polygon K)) (ext : List (Pt K)) (i j : List (List (Pt K))) (r : List (Pt K)) :
    (outline (l ++ ⟨ext, i ++ r.reverse :: j⟩ :: m)).Perm (outline (l ++ ⟨ext, i ++ r :: j⟩ :: m)) := by
  unfold outline
  simp only [List.flatMap_append, List.flatMap_cons, ringsOf, List.filter_append]
  refine List.Perm.append_left _ (List.Perm.append_right _ ?_)
  rw [← List.cons_append, ← List.cons_append, List.filter_append, List.filter_append, List.flatMap_append, List.flatMap_append,
    List.filter_cons (x := r.reverse), List.filter_cons (x := r), List.length_reverse]
  refine List.Perm.append_left _ ?_
  by_cases k : 3 < r.length
  · simp only [k, decide_true, if_true, List.flatMap_cons]
    exact (properEdges_reverse r).append_right _
  · simp only [k, decide_false, if_false, Bool.false_eq_true]
    exact .refl _

/-- A ring can start at another vertex. -/
theorem outline_rotate (l m : List (Polygon K)) (ints : List (List (Pt K))) (x y : Pt K) (r : List (Pt K)) :
    (outline (l ++ ⟨y :: r ++ [x, y], ints⟩ :: m)).Perm (outline (l ++ ⟨x :: (y :: r ++ [x]), ints⟩ :: m)) := by
  unfold outline
  simp only [List.flatMap_append, List.flatMap_cons, ringsOf, List.filter_append, List.filter_cons]
  refine List.Perm.append_left _ (List.Perm.append_right _ ?_)
  have e : (y :: r ++ [x, y]).length = (x :: (y :: r ++ [x])).length := by simp
  rw [e]
  split
  · rw [List.flatMap_cons, List.flatMap_cons]
    exact (properEdges_rotate x y r).append_right _
  · exact .refl _

/-! ## Examples -/

/-- For the example below: `triA`, from another start and in the other direction. -/
def triA' : List (Polygon ℚ) := [⟨[⟨4, 0⟩, ⟨0, 0⟩, ⟨0, 4⟩, ⟨4, 0⟩], []⟩]
/-- See `triA'`. -/
def triB' : List (Polygon ℚ) := [⟨[⟨5, 1⟩, ⟨1, 5⟩, ⟨1, 1⟩, ⟨5, 1⟩], []⟩]

set_option synthInstance.maxSize 1024 in
/-- Two triangles that cross, and the same ones the other way round, with other starts and in the other order. -/
example : ((outline triA).Perm (outline triA') ∧ (outline triB).Perm (outline triB')) ∧
    ((BoolOp.sweep .difference (opEdges triA triB) id (fun _ => 0) id 40).map fun l => l.map (·.coords)) =
      some [[⟨0, 0⟩, ⟨0, 4⟩, ⟨1, 3⟩, ⟨1, 1⟩, ⟨3, 1⟩, ⟨4, 0⟩, ⟨0, 0⟩]] ∧
    ((BoolOp.sweep .difference (opEdges triA' triB') id (fun n => n + 1) id 40).map
        fun l => l.map (·.coords)) =
      some [[⟨0, 0⟩, ⟨0, 4⟩, ⟨1, 3⟩, ⟨1, 1⟩, ⟨3, 1⟩, ⟨4, 0⟩, ⟨0, 0⟩]] := by
  decide +kernel

/-- Interchanged operands, with overlapping edges. -/
example : BoolOp.sweep .union (opEdges overlapA overlapB) id (fun _ => 0) id 60 = BoolOp.sweep .union (opEdges overlapB overlapA) id (fun _ => 0) id 60 ∧
    (BoolOp.sweep .union (opEdges overlapA overlapB) id (fun _ => 0) id 60).isSome ∧
    BoolOp.sweep .difference (opEdges overlapA overlapB) id (fun _ => 0) id 60 ≠ BoolOp.sweep .difference (opEdges overlapB overlapA) id (fun _ => 0) id 60 := by
  decide +kernel

set_option synthInstance.maxSize 1024 in
/-- The polygons of the result, with the operands interchanged. -/
example : booleanOp triA triB .intersection id (fun _ => 0) id id 40 = some [⟨[⟨1, 1⟩, ⟨1, 3⟩, ⟨3, 1⟩, ⟨1, 1⟩], []⟩] ∧
    booleanOp triB triA .intersection id (fun n => n + 1) id List.reverse 40 = some [⟨[⟨1, 1⟩, ⟨1, 3⟩, ⟨3, 1⟩, ⟨1, 1⟩], []⟩] := by
  decide +kernel

/-- The part of an edge of the first triangle within the second bounds the intersection, and lies above it. -/
example : resultBelow .intersection (plain (opEdges triA triB)) ⟨1, 3⟩ ⟨3, 1⟩ = true ∧ resultAbove .intersection (plain (opEdges triA triB)) ⟨1, 3⟩ ⟨3, 1⟩ = false := by
  decide +kernel

end GeoCrossings
