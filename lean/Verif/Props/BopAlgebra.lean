import Verif.Props.BopEdges

/-! # C80: boolean operations of an operand with itself and with the empty multipolygon; C81: results are in normal form -/
set_option linter.unusedSectionVars false
namespace GeoCrossings
open Spec BoolOp Rings

variable {K : Type} [Field K] [LinearOrder K] [IsStrictOrderedRing K]

/-- Which operations with the operand `a`, itself or the empty multipolygon, have the region of `a` as their result. -/
inductive Keeps (a : List (Polygon K)) : OpType → List (Polygon K) → List (Polygon K) → Prop
  | unionSelf : Keeps a .union a a
  | interSelf : Keeps a .intersection a a
  | unionEmpty : Keeps a .union a []
  | emptyUnion : Keeps a .union [] a
  | diffEmpty : Keeps a .difference a []
  | xorEmpty : Keeps a .xor a []
  | emptyXor : Keeps a .xor [] a

/-- Which operations have an empty result. -/
inductive Kills (a : List (Polygon K)) : OpType → List (Polygon K) → List (Polygon K) → Prop
  | interEmpty : Kills a .intersection a []
  | emptyInter : Kills a .intersection [] a
  | emptyDiff : Kills a .difference [] a
  | diffSelf : Kills a .difference a a
  | xorSelf : Kills a .xor a a

/-- The segments that are pieces depend on the set of edges only. -/
theorem isPiece_congr {es es' : List (Bool × Pt K × Pt K)} (h : ∀ g, (∃ f, (f, g) ∈ es) ↔ ∃ f, (f, g) ∈ es') {p q : Pt K} (hp : IsPiece es p q) :
    IsPiece es' p q := by
  have hm : ∀ l, l ∈ es.map (fun e => (⟨e.2.1, e.2.2⟩ : Line K)) ↔ l ∈ es'.map fun e => (⟨e.2.1, e.2.2⟩ : Line K) := by
    intro l
    simp only [List.mem_map, Prod.exists]
    constructor
    · rintro ⟨f, x, y, k, rfl⟩
      obtain ⟨f', k'⟩ := (h (x, y)).1 ⟨f, k⟩
      exact ⟨f', x, y, k', rfl⟩
    · rintro ⟨f, x, y, k, rfl⟩
      obtain ⟨f', k'⟩ := (h (x, y)).2 ⟨f, k⟩
      exact ⟨f', x, y, k', rfl⟩
  have hc : ∀ x, Critical (es.map fun e => (⟨e.2.1, e.2.2⟩ : Line K)) x ↔ Critical (es'.map fun e => (⟨e.2.1, e.2.2⟩ : Line K)) x := by
    intro x
    unfold Critical
    simp only [hm]
  refine ⟨hp.lt, ?_, (hc _).1 hp.cp, (hc _).1 hp.cq, fun x hx => hp.free x ((hc x).2 hx)⟩
  obtain ⟨⟨f, g⟩, k1, k2⟩ := hp.on
  obtain ⟨f', k'⟩ := (h g).1 ⟨f, k1⟩
  exact ⟨(f', g), k', k2⟩

section
variable {a a' b' : List (Polygon K)} {ty : OpType}

/-- The edges of the operands are those of `a`. -/
theorem plain_self (a : List (Polygon K)) (g : Pt K × Pt K) :
    ((∃ f, (f, g) ∈ plain (opEdges a a)) ↔ ∃ f, (f, g) ∈ plain (opEdges a [])) ∧
      ((∃ f, (f, g) ∈ plain (opEdges [] a)) ↔ ∃ f, (f, g) ∈ plain (opEdges a [])) := by
  have h0 : outline ([] : List (Polygon K)) = [] := rfl
  simp only [plain_opEdges, h0, List.map_nil, List.append_nil, List.nil_append, List.mem_append, List.mem_map, Prod.mk.injEq]
  constructor
  · constructor
    · rintro ⟨f, ⟨x, k, -, e⟩ | ⟨x, k, -, e⟩⟩
      · exact ⟨true, x, k, rfl, e⟩
      · exact ⟨true, x, k, rfl, e⟩
    · rintro ⟨f, x, k, -, e⟩
      exact ⟨true, .inl ⟨x, k, rfl, e⟩⟩
  · constructor
    · rintro ⟨f, x, k, -, e⟩
      exact ⟨true, x, k, rfl, e⟩
    · rintro ⟨f, x, k, -, e⟩
      exact ⟨false, x, k, rfl, e⟩

theorem edgesBelowOf_op (a b : List (Polygon K)) (p q : Pt K) :
    edgesBelowOf (plain (opEdges a b)) true p q = (outline a).countP (fun g => RunsBelow p q g.first g.second) ∧
    edgesBelowOf (plain (opEdges a b)) false p q = (outline b).countP (fun g => RunsBelow p q g.first g.second) := by
  unfold edgesBelowOf
  rw [plain_opEdges]
  simp only [List.countP_append, List.countP_map]
  constructor
  · have e1 : (outline b).countP ((fun e : Bool × Pt K × Pt K => decide (e.1 = true ∧ RunsBelow p q e.2.1 e.2.2)) ∘ fun g => (false, g.first, g.second)) = 0 :=
      List.countP_eq_zero.2 fun g _ => by simp
    rw [e1, Nat.add_zero]
    exact List.countP_congr fun g _ => by simp
  · have e1 : (outline a).countP ((fun e : Bool × Pt K × Pt K => decide (e.1 = false ∧ RunsBelow p q e.2.1 e.2.2)) ∘ fun g => (true, g.first, g.second)) = 0 :=
      List.countP_eq_zero.2 fun g _ => by simp
    rw [e1, Nat.zero_add]
    exact List.countP_congr fun g _ => by simp

theorem edgesAlongOf_op (a b : List (Polygon K)) (p q : Pt K) :
    edgesAlongOf (plain (opEdges a b)) true p q = (outline a).countP (fun g => RunsAlong p q g.first g.second) ∧
    edgesAlongOf (plain (opEdges a b)) false p q = (outline b).countP (fun g => RunsAlong p q g.first g.second) := by
  unfold edgesAlongOf
  rw [plain_opEdges]
  simp only [List.countP_append, List.countP_map]
  constructor
  · have e1 : (outline b).countP ((fun e : Bool × Pt K × Pt K => decide (e.1 = true ∧ RunsAlong p q e.2.1 e.2.2)) ∘ fun g => (false, g.first, g.second)) = 0 :=
      List.countP_eq_zero.2 fun g _ => by simp
    rw [e1, Nat.add_zero]
    exact List.countP_congr fun g _ => by simp
  · have e1 : (outline a).countP ((fun e : Bool × Pt K × Pt K => decide (e.1 = false ∧ RunsAlong p q e.2.1 e.2.2)) ∘ fun g => (true, g.first, g.second)) = 0 :=
      List.countP_eq_zero.2 fun g _ => by simp
    rw [e1, Nat.zero_add]
    exact List.countP_congr fun g _ => by simp

theorem result_op (ty : OpType) (a b : List (Polygon K)) (p q : Pt K) :
    resultBelow ty (plain (opEdges a b)) p q = inResult ty (decide (Odd ((outline a).countP (fun g => RunsBelow p q g.first g.second))))
      (decide (Odd ((outline b).countP (fun g => RunsBelow p q g.first g.second)))) ∧
    resultAbove ty (plain (opEdges a b)) p q = inResult ty
      (decide (Odd ((outline a).countP (fun g => RunsBelow p q g.first g.second) + (outline a).countP (fun g => RunsAlong p q g.first g.second))))
      (decide (Odd ((outline b).countP (fun g => RunsBelow p q g.first g.second) + (outline b).countP (fun g => RunsAlong p q g.first g.second)))) := by
  unfold resultBelow resultAbove
  rw [(edgesBelowOf_op a b p q).1, (edgesBelowOf_op a b p q).2, (edgesAlongOf_op a b p q).1, (edgesAlongOf_op a b p q).2]
  exact ⟨rfl, rfl⟩

theorem Keeps.bounds (h : Keeps a ty a' b') (p q : Pt K) (w : Winding) :
    Bounds ty (plain (opEdges a' b')) p q w ↔ Bounds .union (plain (opEdges a [])) p q w := by
  have h0 : outline ([] : List (Polygon K)) = [] := rfl
  have e : resultBelow ty (plain (opEdges a' b')) p q = resultBelow .union (plain (opEdges a [])) p q ∧
      resultAbove ty (plain (opEdges a' b')) p q = resultAbove .union (plain (opEdges a [])) p q := by
    cases h <;> simp [result_op, inResult, h0]
  have hp : IsPiece (plain (opEdges a' b')) p q ↔ IsPiece (plain (opEdges a [])) p q := by
    have hs : IsPiece (plain (opEdges a a)) p q ↔ IsPiece (plain (opEdges a [])) p q :=
      ⟨isPiece_congr fun g => (plain_self a g).1, isPiece_congr fun g => (plain_self a g).1.symm⟩
    have he : IsPiece (plain (opEdges [] a)) p q ↔ IsPiece (plain (opEdges a [])) p q :=
      ⟨isPiece_congr fun g => (plain_self a g).2, isPiece_congr fun g => (plain_self a g).2.symm⟩
    cases h <;> first | exact hs | exact he | exact Iff.rfl
  constructor
  · rintro ⟨k1, k2, k3⟩
    rw [e.1, e.2] at k2
    rw [e.1] at k3
    exact ⟨hp.1 k1, k2, k3⟩
  · rintro ⟨k1, k2, k3⟩
    rw [← e.1, ← e.2] at k2
    rw [← e.1] at k3
    exact ⟨hp.2 k1, k2, k3⟩

theorem Kills.bounds (h : Kills a ty a' b') (p q : Pt K) (w : Winding) : ¬ Bounds ty (plain (opEdges a' b')) p q w := by
  have h0 : outline ([] : List (Polygon K)) = [] := rfl
  rintro ⟨-, k, -⟩
  refine k ?_
  cases h <;> simp [result_op, inResult, h0]

end

theorem Keeps.closed {a a' b' : List (Polygon K)} {ty : OpType} (h : Keeps a ty a' b') (ha : ∀ p ∈ a, ∀ ring ∈ ringsOf p, Closed ring) :
    (∀ p ∈ a', ∀ ring ∈ ringsOf p, Closed ring) ∧ ∀ p ∈ b', ∀ ring ∈ ringsOf p, Closed ring := by
  cases h <;> refine ⟨?_, ?_⟩ <;> first | exact ha | simp

theorem Kills.closed {a a' b' : List (Polygon K)} {ty : OpType} (h : Kills a ty a' b') (ha : ∀ p ∈ a, ∀ ring ∈ ringsOf p, Closed ring) :
    (∀ p ∈ a', ∀ ring ∈ ringsOf p, Closed ring) ∧ ∀ p ∈ b', ∀ ring ∈ ringsOf p, Closed ring := by
  cases h <;> refine ⟨?_, ?_⟩ <;> first | exact ha | simp

/-- **C80.** For each operand `a` there is one list of rings, and one list of polygons (or panic of `assemble`), that `a ∪ a`, `a ∩ a`, `a ∪ ∅`, `∅ ∪ a`,
`a ∖ ∅`, `a ⊕ ∅` and `∅ ⊕ a` return, in any run. -/
theorem C80_keeps {a : List (Polygon K)} (ha : ∀ p ∈ a, ∀ ring ∈ ringsOf p, Closed ring) :
    ∃ rings res, ∀ ty a' b', Keeps a ty a' b' → ∀ (na : K → K) (ch : Nat → Nat) (srt srt2 : List (Crossing K Nat) → List (Crossing K Nat)),
      (Stable compareCrossings srt ∨ NoOverlap ((a' ++ b').flatMap Spec.ringsOf)) →
      ∃ N, ∀ fuel, N ≤ fuel → BoolOp.sweep ty (opEdges a' b') na ch srt fuel = some rings ∧ booleanOp a' b' ty na ch srt srt2 fuel = res := by
  have h0 : ∀ p ∈ ([] : List (Polygon K)), ∀ ring ∈ ringsOf p, Closed ring := by simp
  have hid : Stable (compareCrossings (K := K) (C := Nat)) id ∨ NoOverlap ((a ++ []).flatMap Spec.ringsOf) := .inl (id_stable _)
  obtain ⟨N0, rings, k1⟩ := sweep_same (ty := .union) (ty' := .union) (na := id) (na' := id) (ch := id) (ch' := id) ha h0 ha h0 hid hid fun _ _ _ => Iff.rfl
  obtain ⟨M0, res, k2⟩ := boolean_op_same ha h0 ha h0 hid id id ⟨N0, rings, k1⟩
  refine ⟨rings, res, fun ty a' b' h na ch srt srt2 hst => ?_⟩
  obtain ⟨ca, cb⟩ := h.closed ha
  have hs := sweep_same (ty := .union) (ty' := ty) (na := id) (na' := na) (ch := id) (ch' := ch) ha h0 ca cb hid hst fun p q w => (h.bounds p q w).symm
  obtain ⟨N1, rings1, j1⟩ := hs
  obtain ⟨N2, res1, j2⟩ := boolean_op_same ha h0 ca cb hid id srt2 ⟨N1, rings1, j1⟩
  have e1 : rings = rings1 := by
    have x := (k1 (max N0 N1) (by omega)).1
    have y := (j1 (max N0 N1) (by omega)).1
    exact Option.some.inj (x.symm.trans y)
  have e2 : res = res1 := by
    have x := (k2 (max M0 N2) (by omega)).1
    have y := (j2 (max M0 N2) (by omega)).1
    exact x.symm.trans y
  subst e1 e2
  exact ⟨max N1 N2, fun fuel hf => ⟨(j1 fuel (by omega)).2.1, (j2 fuel (by omega)).2⟩⟩

/-- **C80.** `a ∖ a`, `a ⊕ a`, `a ∩ ∅`, `∅ ∩ a` and `∅ ∖ a` return no rings and no polygons. -/
theorem C80_kills {a : List (Polygon K)} (ha : ∀ p ∈ a, ∀ ring ∈ ringsOf p, Closed ring) {ty : OpType} {a' b' : List (Polygon K)} (h : Kills a ty a' b')
    (na : K → K) (ch : Nat → Nat) {srt : List (Crossing K Nat) → List (Crossing K Nat)} (srt2 : List (Crossing K Nat) → List (Crossing K Nat))
    (hst : Stable compareCrossings srt ∨ NoOverlap ((a' ++ b').flatMap Spec.ringsOf)) :
    ∃ N, ∀ fuel, N ≤ fuel → BoolOp.sweep ty (opEdges a' b') na ch srt fuel = some [] ∧ booleanOp a' b' ty na ch srt srt2 fuel = some [] := by
  obtain ⟨ca, cb⟩ := h.closed ha
  obtain ⟨N, em, rg, rings, h1, H, hm, r1, r2, h2, -⟩ := sweep_edges ty ca cb na ch hst
  have hem : em = [] := by
    rw [List.eq_nil_iff_forall_not_mem]
    intro e he
    obtain ⟨p, q, -, k⟩ := (h2 e).1 he
    exact h.bounds p q _ k
  subst hem
  have hr : rings = [] := by
    have : rg = Rings.default := (Option.some.inj r1).symm
    subst this
    exact (Option.some.inj r2).symm
  subst hr
  obtain ⟨M, par, k⟩ := findParents_same H hm r1 r2 srt2 srt2 na na ch ch
  refine ⟨max N M, fun fuel hf => ⟨(h1 fuel (by omega)).1, ?_⟩⟩
  obtain ⟨es, j1, j2⟩ := Option.bind_eq_some_iff.1 (opEdges_eq ca cb)
  unfold booleanOp Laminar.assemble
  simp only [j1, j2, Option.bind_some, (h1 fuel (by omega)).1, (k fuel (by omega)).1]
  rfl

/-! ## Examples -/

set_option synthInstance.maxSize 1024 in
/-- The union, intersection and differences of a triangle and itself, and those with the empty multipolygon. -/
example : BoolOp.sweep .union (opEdges triA triA) id (fun _ => 0) id 60 = BoolOp.sweep .union (opEdges triA []) id (fun n => n + 1) id 60 ∧
    BoolOp.sweep .intersection (opEdges triA triA) id (fun _ => 0) id 60 = BoolOp.sweep .difference (opEdges triA []) id (fun n => n + 1) id 60 ∧
    (BoolOp.sweep .union (opEdges triA []) id (fun _ => 0) id 60).map (·.map (·.coords)) = some [[⟨0, 0⟩, ⟨0, 4⟩, ⟨4, 0⟩, ⟨0, 0⟩]] ∧
    booleanOp triA triA .difference id (fun _ => 0) id id 60 = some [] ∧ booleanOp triA triA .xor id (fun _ => 0) id id 60 = some [] ∧
    booleanOp [] triA .difference id (fun _ => 0) id id 60 = some [] := by
  decide +kernel

end GeoCrossings
