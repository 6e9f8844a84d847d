import Verif.Lemmas.RingDebug
import Verif.Props.BopMulti

/-! # C62: `boolean_op` in a build with debug assertions -/
set_option linter.unusedSectionVars false
namespace GeoCrossings
open Spec BoolOp Rings

variable {K : Type} [Field K] [LinearOrder K] [IsStrictOrderedRing K]

/-- **C62 (`Op::sweep`).** If no point is the left end of more than two edges of the result, no debug assertion of `Op::sweep` fails:
it returns what it returns in a release build. -/
theorem C62_sweep_debug (ty : OpType) {a b : List (Polygon K)} (ha : ∀ p ∈ a, ∀ ring ∈ ringsOf p, Closed ring)
    (hb : ∀ p ∈ b, ∀ ring ∈ ringsOf p, Closed ring) (nextAfter : K → K) (choice : Nat → Nat)
    {srt : List (Crossing K Nat) → List (Crossing K Nat)} (hst : Stable compareCrossings srt ∨ NoOverlap ((a ++ b).flatMap Spec.ringsOf))
    {es : List (OpEdge K)} (hes : (addMultiPolygon [] a true).bind (fun es => addMultiPolygon es b false) = some es)
    (h2 : ∀ fuel rings, BoolOp.sweep ty es nextAfter choice srt fuel = some rings → ∀ v, (edgesOf rings).countP (fun e => e.first = v) ≤ 2) :
    ∃ N rings, ∀ fuel, N ≤ fuel → BoolOp.sweep ty es nextAfter choice srt fuel = some rings ∧
      BoolOp.sweepDebug ty es nextAfter choice srt fuel = some rings := by
  rw [opEdges_eq ha hb, Option.some.injEq] at hes
  subst hes
  obtain ⟨N, em, rg, rings, h, H, -, r1, r2, -, -⟩ := sweep_run_debug ty ha hb nextAfter choice hst
  have hp := edgesOf_perm (C35_edges_conserved em (fun e he => (H.lt e he).ne) r1 r2) H.lines
  have h4 : ∀ v, em.countP (fun e => e.1.first = v) ≤ 2 := by
    intro v
    have := h2 N rings (h N (le_refl _)).1 v
    rwa [hp.countP_eq, List.countP_map] at this
  refine ⟨N, rings, fun fuel hf => ⟨(h fuel hf).1, ?_⟩⟩
  rw [(h fuel hf).2, addAll_debug em (fun e he => (H.lt e he).ne) fun v => (H.vertex v).paired H.lt H.sorted (H.even v) (h4 v), r1,
    Option.bind_some, r2]

/-- **C62.** If no point is the left end of more than two edges of the result or an end of more than four, no debug assertion of
`boolean_op` fails: it returns what it returns in a release build. -/
theorem C62_boolean_op_debug (ty : OpType) {a b : List (Polygon K)} (ha : ∀ p ∈ a, ∀ ring ∈ ringsOf p, Closed ring)
    (hb : ∀ p ∈ b, ∀ ring ∈ ringsOf p, Closed ring) (nextAfter : K → K) (choice : Nat → Nat)
    {srt srt' : List (Crossing K Nat) → List (Crossing K Nat)} (hst : Stable compareCrossings srt ∨ NoOverlap ((a ++ b).flatMap Spec.ringsOf))
    (h2 : ∀ es fuel rings, (addMultiPolygon [] a true).bind (fun es => addMultiPolygon es b false) = some es →
      BoolOp.sweep ty es nextAfter choice srt fuel = some rings → ∀ v, (edgesOf rings).countP (fun e => e.first = v) ≤ 2 ∧
        (edgesOf rings).countP (fun e => e.first = v) + (edgesOf rings).countP (fun e => e.second = v) ≤ 4) :
    ∃ N polys, ∀ fuel, N ≤ fuel → booleanOp a b ty nextAfter choice srt srt' fuel = some polys ∧
      booleanOpDebug a b ty nextAfter choice srt srt' fuel = some polys := by
  have e1 : (addMultiPolygon [] a true).bind (fun es => addMultiPolygon es b false) = some (opEdges a b) := opEdges_eq ha hb
  obtain ⟨N, rings, h⟩ := C62_sweep_debug ty ha hb nextAfter choice hst e1 fun fuel rings hr v => (h2 _ fuel rings e1 hr v).1
  obtain ⟨em, rg, H, hm, r1, r2, -, -⟩ := sweep_run_of ty ha hb hst (h N (le_refl _)).1
  have hh := h2 _ N rings e1 (h N (le_refl _)).1
  obtain ⟨N', parents, k1, k2, k3, k4⟩ := assemble_run H hm r1 r2 (paired_of_two H r1 r2 fun v => (hh v).1) (fun v => (hh v).2) srt' nextAfter choice
  refine ⟨max N N', polygonsFor rings parents, fun fuel hf => ?_⟩
  obtain ⟨es1, q1, q2⟩ := Option.bind_eq_some_iff.1 e1
  obtain ⟨d1, d2⟩ := h fuel (by omega)
  unfold booleanOp booleanOpDebug Laminar.assemble Laminar.assembleDebug
  rw [q1, Option.bind_some, Option.bind_some, q2, Option.bind_some, Option.bind_some, d1, d2, Option.bind_some, Option.bind_some,
    k1 false fuel (by omega), k1 true fuel (by omega), Option.bind_some]
  exact ⟨Laminar.C39_each_ring_once rings parents k3, Laminar.C39_each_ring_once rings parents k3⟩

/-- **C62 (operands in general position).** The same for operands whose edges leave every point in few directions. -/
theorem C62_general_position (ty : OpType) {a b : List (Polygon K)} (ha : ∀ p ∈ a, ∀ ring ∈ ringsOf p, Closed ring)
    (hb : ∀ p ∈ b, ∀ ring ∈ ringsOf p, Closed ring) (hgen : ∀ v, FewRays (a.flatMap ringsOf ++ b.flatMap ringsOf) v)
    (nextAfter : K → K) (choice : Nat → Nat)
    {srt srt' : List (Crossing K Nat) → List (Crossing K Nat)} (hst : Stable compareCrossings srt ∨ NoOverlap ((a ++ b).flatMap Spec.ringsOf)) :
    ∃ N polys, ∀ fuel, N ≤ fuel → booleanOp a b ty nextAfter choice srt srt' fuel = some polys ∧
      booleanOpDebug a b ty nextAfter choice srt srt' fuel = some polys :=
  C62_boolean_op_debug ty ha hb nextAfter choice hst (few_edges ty ha hb hgen nextAfter choice hst)

/-! ## What fails in a release build, or returns, does the same in a debug build -/

theorem addEdgeD_le {r r' : Rings K} {g : LineOrPoint K} {w : Winding} (h : r.addEdgeD true g w = some r') : r.addEdgeD false g w = some r' := by
  unfold addEdgeD at h ⊢
  split at h
  · cases h
  · simpa using h

theorem endLoop_le {ty : OpType} {geom : Nat → LineOrPoint K} {isFirst : Nat → Bool} {cells : Cells} : ∀ {l : List (Crossing K Nat)}
    {next : Option Region} {rings : Rings K} {x}, endLoop true ty geom isFirst cells l next rings = some x →
      endLoop false ty geom isFirst cells l next rings = some x
  | [], _, _, _, h => h
  | c :: rest, next, rings, x, h => by
    rw [endLoop] at h ⊢
    split at h
    · rename_i hc; rw [if_pos hc]; exact h
    · rename_i hc
      rw [if_neg hc]
      simp only at h ⊢
      cases ho : hasOverlap c rest with
      | none => rw [ho] at h; cases h
      | some b =>
        rw [ho] at h
        cases b with
        | true => exact endLoop_le h
        | false =>
          simp only at h ⊢
          split at h
          · rename_i hp
            rw [if_pos hp]
            split at h
            · cases h
            · rename_i r' hr
              rw [addEdgeD_le hr]
              exact endLoop_le h
          · rename_i hp
            rw [if_neg hp]
            exact endLoop_le h

theorem batchStep_le {ty : OpType} {geom : Nat → LineOrPoint K} {isFirst : Nat → Bool} {srt : List (Crossing K Nat) → List (Crossing K Nat)}
    {it : CrossingsIter K Nat} {cells : Cells} {rings : Rings K} {x} (h : BoolOp.batchStep true ty geom isFirst srt it cells rings = some x) :
    BoolOp.batchStep false ty geom isFirst srt it cells rings = some x := by
  unfold BoolOp.batchStep at h ⊢
  split at h
  · cases h
  · rename_i batch hb
    simp only
    cases hl : endLoop true ty geom isFirst cells batch none rings with
    | none => rw [hl] at h; cases h
    | some y => rw [hl] at h; rw [endLoop_le hl]; exact h

/-- If the release build returns, more steps make no difference to the debug build. -/
theorem sweepLoop_agree {ty : OpType} {geom : Nat → LineOrPoint K} {isFirst : Nat → Bool} {nextAfter : K → K} {choice : Nat → Nat}
    {srt : List (Crossing K Nat) → List (Crossing K Nat)} {fuel n : Nat} :
    ∀ {it : CrossingsIter K Nat} {cells rings res}, BoolOp.sweepLoop false ty geom isFirst nextAfter choice srt fuel n it cells rings = some res →
      BoolOp.sweepLoop true ty geom isFirst nextAfter choice srt (fuel + 1) (n + 1) it cells rings =
        BoolOp.sweepLoop true ty geom isFirst nextAfter choice srt fuel n it cells rings := by
  induction n with
  | zero => intro it cells rings res h; simp [BoolOp.sweepLoop] at h
  | succ n ih =>
    intro it cells rings res h
    rw [BoolOp.sweepLoop] at h
    rw [BoolOp.sweepLoop, BoolOp.sweepLoop]
    cases hn : it.next (fun i => (geom i).toLine) nextAfter choice fuel with
    | none => rw [hn] at h; cases h
    | some o =>
      rw [hn] at h; rw [next_mono hn]
      obtain ⟨it', o⟩ := o
      cases o with
      | none => rfl
      | some p =>
        simp only at h ⊢
        cases hb : BoolOp.batchStep true ty geom isFirst srt it' cells rings with
        | none => rfl
        | some x =>
          rw [batchStep_le hb] at h
          exact ih h

theorem sweepDebug_agree {ty : OpType} {edges : List (OpEdge K)} {nextAfter : K → K} {choice : Nat → Nat}
    {srt : List (Crossing K Nat) → List (Crossing K Nat)} {fuel : Nat} {res} (h : BoolOp.sweep ty edges nextAfter choice srt fuel = some res) (k : Nat) :
    BoolOp.sweepDebug ty edges nextAfter choice srt (fuel + k) = BoolOp.sweepDebug ty edges nextAfter choice srt fuel := by
  induction k with
  | zero => rfl
  | succ k ih =>
    rw [← ih]
    have h := sweep_mono h k
    unfold BoolOp.sweep at h
    obtain ⟨r, h1, -⟩ := Option.bind_eq_some_iff.1 h
    unfold BoolOp.sweepDebug sweepRings
    unfold sweepRings at h1
    cases ho : CrossingsIter.ofInput (fun i => (geomOf edges i).toLine) (List.range edges.length) with
    | none => rfl
    | some it =>
      rw [ho] at h1
      simp only at h1 ⊢
      rw [← Nat.add_assoc, sweepLoop_agree h1]

theorem sweepDebug_mono {ty : OpType} {edges : List (OpEdge K)} {nextAfter : K → K} {choice : Nat → Nat}
    {srt : List (Crossing K Nat) → List (Crossing K Nat)} {fuel : Nat} {res} (h : BoolOp.sweepDebug ty edges nextAfter choice srt fuel = some res) (k : Nat) :
    BoolOp.sweepDebug ty edges nextAfter choice srt (fuel + k) = some res := by
  induction k with
  | zero => exact h
  | succ k ih =>
    unfold BoolOp.sweepDebug at ih ⊢
    obtain ⟨r, h1, h2⟩ := Option.bind_eq_some_iff.1 ih
    refine Option.bind_eq_some_iff.2 ⟨r, ?_, h2⟩
    unfold sweepRings at h1 ⊢
    cases ho : CrossingsIter.ofInput (fun i => (geomOf edges i).toLine) (List.range edges.length) with
    | none => rw [ho] at h1; cases h1
    | some it => rw [ho] at h1; exact sweepLoop_mono h1

/-- Two squares that overlap: the debug build returns the two parts of their symmetric difference, which touch in two points. -/
example : (booleanOpDebug bigS overS .xor id (fun _ => 0) id id 60).map (·.map Polygon.rings) =
    some [([⟨9, 3⟩, ⟨6, 3⟩, ⟨6, 6⟩, ⟨3, 6⟩, ⟨3, 9⟩, ⟨9, 9⟩, ⟨9, 3⟩], []),
      ([⟨6, 0⟩, ⟨0, 0⟩, ⟨0, 6⟩, ⟨3, 6⟩, ⟨3, 3⟩, ⟨6, 3⟩, ⟨6, 0⟩], [])] := by decide +kernel

/-- **The condition is needed.** For the union of two triangles that touch in their left corners, a debug assertion on the winding of
a chain fails, and the release build returns wrong polygons (`C41_fails_for_boolean_op`). -/
theorem C62_needs_two : BoolOp.sweepDebug .union (opEdges touchA touchB) id (fun _ => 0) id 60 = none ∧
    (BoolOp.sweep .union (opEdges touchA touchB) id (fun _ => 0) id 60).isSome = true ∧
    ∀ fuel, booleanOpDebug touchA touchB .union id (fun _ => 0) id id fuel = none := by
  have h1 : BoolOp.sweepDebug .union (opEdges touchA touchB) id (fun _ => 0) id 60 = none := by decide +kernel
  have h2 : (BoolOp.sweep .union (opEdges touchA touchB) id (fun _ => 0) id 60).isSome = true := by decide +kernel
  refine ⟨h1, h2, fun fuel => ?_⟩
  have e1 : (addMultiPolygon [] touchA true).bind (fun es => addMultiPolygon es touchB false) = some (opEdges touchA touchB) :=
    opEdges_eq (by decide +kernel) (by decide +kernel)
  obtain ⟨es1, q1, q2⟩ := Option.bind_eq_some_iff.1 e1
  have h3 : BoolOp.sweepDebug .union (opEdges touchA touchB) id (fun _ => 0) id fuel = none := by
    obtain ⟨res, h2⟩ := Option.isSome_iff_exists.1 h2
    cases h : BoolOp.sweepDebug .union (opEdges touchA touchB) id (fun _ => 0) id fuel with
    | none => rfl
    | some x =>
      have h4 := sweepDebug_mono h 60
      rw [Nat.add_comm, sweepDebug_agree h2, h1] at h4
      cases h4
  unfold booleanOpDebug
  rw [q1, Option.bind_some, q2, Option.bind_some, h3]
  rfl

end GeoCrossings
