import Verif.Props.BopDebug

/-! # C63: what `boolean_op` returns in a build with debug assertions is right -/
set_option linter.unusedSectionVars false
namespace GeoCrossings
open Spec BoolOp Rings

variable {K : Type} [Field K] [LinearOrder K] [IsStrictOrderedRing K]

/-! ## The sweep of `assemble` with and without assertions -/

theorem Laminar.batchStep_le {isHole : Nat → Bool} {ringOf : Nat → Nat} {srt : List (Crossing K Nat) → List (Crossing K Nat)}
    {it : CrossingsIter K Nat} {parents : Nat → Nat} {region : Nat → Option Nat} {x}
    (h : Laminar.batchStep true isHole ringOf srt it parents region = some x) :
    Laminar.batchStep false isHole ringOf srt it parents region = some x := by
  unfold Laminar.batchStep at h ⊢
  cases hs : sortBy Laminar.compareCrossings srt it.segments with
  | none => rw [hs] at h; cases h
  | some l =>
    rw [hs] at h
    cases l with
    | nil => cases h
    | cons first rest =>
      simp only at h ⊢
      by_cases hl : (!first.atLeft) = true
      · rw [if_pos hl] at h ⊢; exact h
      · rw [if_neg hl] at h ⊢
        cases hp : it.sweep.prevActive first with
        | none => rw [hp] at h; cases h
        | some y =>
          rw [hp] at h
          simp only at h ⊢
          obtain ⟨sw, prev⟩ := y
          cases prev with
          | none =>
            simp only at h ⊢
            by_cases hv : Laminar.visitsOk isHole ringOf ((first :: rest).takeWhile (·.atLeft)) (none, parents, region) = true
            · simpa [hv] using h
            · simp [hv] at h
          | some s =>
            simp only at h ⊢
            by_cases hv : Laminar.visitsOk isHole ringOf ((first :: rest).takeWhile (·.atLeft)) (region s.crossable, parents, region) = true
            · simpa [hv] using h
            · simp [hv] at h

theorem Laminar.sweepLoop_le {isHole : Nat → Bool} {ringOf : Nat → Nat} {lineOf : Nat → Line K} {nextAfter : K → K} {choice : Nat → Nat}
    {srt : List (Crossing K Nat) → List (Crossing K Nat)} {fuel n : Nat} :
    ∀ {it : CrossingsIter K Nat} {parents region res},
      Laminar.sweepLoop true isHole ringOf lineOf nextAfter choice srt fuel n it parents region = some res →
      Laminar.sweepLoop false isHole ringOf lineOf nextAfter choice srt fuel n it parents region = some res := by
  induction n with
  | zero => intro it parents region res h; simp [Laminar.sweepLoop] at h
  | succ n ih =>
    intro it parents region res h
    rw [Laminar.sweepLoop] at h ⊢
    cases hn : it.next lineOf nextAfter choice fuel with
    | none => rw [hn] at h; cases h
    | some o =>
      rw [hn] at h
      obtain ⟨it', o⟩ := o
      cases o with
      | none => exact h
      | some p =>
        simp only at h ⊢
        cases hb : Laminar.batchStep true isHole ringOf srt it' parents region with
        | none => rw [hb] at h; cases h
        | some x =>
          rw [hb] at h; rw [Laminar.batchStep_le hb]
          exact ih h

theorem Laminar.sweepLoop_mono {dbg : Bool} {isHole : Nat → Bool} {ringOf : Nat → Nat} {lineOf : Nat → Line K} {nextAfter : K → K}
    {choice : Nat → Nat} {srt : List (Crossing K Nat) → List (Crossing K Nat)} {fuel n : Nat} :
    ∀ {it : CrossingsIter K Nat} {parents region res},
      Laminar.sweepLoop dbg isHole ringOf lineOf nextAfter choice srt fuel n it parents region = some res →
      Laminar.sweepLoop dbg isHole ringOf lineOf nextAfter choice srt (fuel + 1) (n + 1) it parents region = some res := by
  induction n with
  | zero => intro it parents region res h; simp [Laminar.sweepLoop] at h
  | succ n ih =>
    intro it parents region res h
    rw [Laminar.sweepLoop] at h ⊢
    cases hn : it.next lineOf nextAfter choice fuel with
    | none => rw [hn] at h; cases h
    | some o =>
      rw [hn] at h; rw [next_mono hn]
      obtain ⟨it', o⟩ := o
      cases o with
      | none => exact h
      | some p =>
        simp only at h ⊢
        cases hb : Laminar.batchStep dbg isHole ringOf srt it' parents region with
        | none => rw [hb] at h; cases h
        | some x =>
          rw [hb] at h
          exact ih h

theorem Laminar.findParents_le {rings : List (Ring K)} {nextAfter : K → K} {choice : Nat → Nat}
    {srt : List (Crossing K Nat) → List (Crossing K Nat)} {fuel : Nat} {par} (h : Laminar.findParents true rings nextAfter choice srt fuel = some par) :
    Laminar.findParents false rings nextAfter choice srt fuel = some par := by
  unfold Laminar.findParents at h ⊢
  split at h
  · cases h
  · rw [if_neg (by simp)]
    simp only at h ⊢
    split at h
    · cases h
    · exact Laminar.sweepLoop_le h

theorem Laminar.findParents_mono {dbg : Bool} {rings : List (Ring K)} {nextAfter : K → K} {choice : Nat → Nat}
    {srt : List (Crossing K Nat) → List (Crossing K Nat)} {fuel : Nat} {par} (h : Laminar.findParents dbg rings nextAfter choice srt fuel = some par)
    (k : Nat) : Laminar.findParents dbg rings nextAfter choice srt (fuel + k) = some par := by
  induction k with
  | zero => exact h
  | succ k ih =>
    unfold Laminar.findParents at ih ⊢
    by_cases hc : (dbg && !rings.all fun r => decide (r.coords.head? = r.coords.getLast?)) = true
    · rw [if_pos hc] at ih; cases ih
    · rw [if_neg hc] at ih ⊢
      simp only at ih ⊢
      split at ih
      · cases ih
      · exact Laminar.sweepLoop_mono ih

/-! ## The theorems -/

/-- If `Op::sweep` returns in a debug build, it returns the same in a release build, and the edges of the result are paired at each point. -/
theorem sweepDebug_run (ty : OpType) {a b : List (Polygon K)} (ha : ∀ p ∈ a, ∀ ring ∈ ringsOf p, Closed ring)
    (hb : ∀ p ∈ b, ∀ ring ∈ ringsOf p, Closed ring) {nextAfter : K → K} {choice : Nat → Nat}
    {srt : List (Crossing K Nat) → List (Crossing K Nat)} (hst : Stable compareCrossings srt ∨ NoOverlap ((a ++ b).flatMap Spec.ringsOf)) {fuel : Nat} {rings : List (Ring K)}
    (h : BoolOp.sweepDebug ty (opEdges a b) nextAfter choice srt fuel = some rings) :
    ∃ N em rg, (∀ fuel', N ≤ fuel' → BoolOp.sweep ty (opEdges a b) nextAfter choice srt fuel' = some rings ∧
        BoolOp.sweepDebug ty (opEdges a b) nextAfter choice srt fuel' = some rings) ∧
      Emitted em ∧ (em.map (·.1)).Pairwise EndsOnly ∧ ofEdges em = some rg ∧ rg.finish = some rings ∧ (∀ v, PairedAt em v) ∧
      ∀ r, em.countP (edgeUnder r) % 2 = 1 ↔
        inResult ty (decide (EvenOdd (a.flatMap ringsOf) r)) (decide (EvenOdd (b.flatMap ringsOf) r)) = true := by
  obtain ⟨N, em, rg, rings', h1, H, hm, r1, r2, -, h4⟩ := sweep_run_debug ty ha hb nextAfter choice hst
  have h2 := sweepDebug_mono h N
  rw [(h1 _ (Nat.le_add_left N fuel)).2] at h2
  obtain ⟨rg', h3, h5⟩ := Option.bind_eq_some_iff.1 h2
  have hpa := paired_of_debug em (fun e he => (H.lt e he).ne) h3
  have h6 := addAll_debug em (fun e he => (H.lt e he).ne) hpa
  rw [r1, h3, Option.some.injEq] at h6
  subst h6
  rw [r2, Option.some.injEq] at h5
  subst h5
  exact ⟨N, em, rg', fun fuel' hf => ⟨(h1 fuel' hf).1, by rw [(h1 fuel' hf).2, h2]⟩, H, hm, r1, r2, hpa, h4⟩

/-- **C63.** When `boolean_op` returns in a build with debug assertions, a release build returns the same polygons, and a point is
inside their rings, by the even-odd rule, iff the truth table of the operation holds for its membership in the two operands. There is
no condition on the operands but that their rings are closed. -/
theorem C63_debug_sound (ty : OpType) {a b : List (Polygon K)} (ha : ∀ p ∈ a, ∀ ring ∈ ringsOf p, Closed ring)
    (hb : ∀ p ∈ b, ∀ ring ∈ ringsOf p, Closed ring) {nextAfter : K → K} {choice : Nat → Nat}
    {srt srt' : List (Crossing K Nat) → List (Crossing K Nat)} (hst : Stable compareCrossings srt ∨ NoOverlap ((a ++ b).flatMap Spec.ringsOf)) {fuel : Nat} {polys : List (Polygon K)}
    (h : booleanOpDebug a b ty nextAfter choice srt srt' fuel = some polys) :
    (∃ N, ∀ fuel', N ≤ fuel' → booleanOp a b ty nextAfter choice srt srt' fuel' = some polys) ∧
      ∀ r, EvenOdd (polys.flatMap ringsOf) r ↔
        inResult ty (decide (EvenOdd (a.flatMap ringsOf) r)) (decide (EvenOdd (b.flatMap ringsOf) r)) = true := by
  have e1 : (addMultiPolygon [] a true).bind (fun es => addMultiPolygon es b false) = some (opEdges a b) := opEdges_eq ha hb
  obtain ⟨es1, q1, q2⟩ := Option.bind_eq_some_iff.1 e1
  unfold booleanOpDebug at h
  rw [q1, Option.bind_some, q2, Option.bind_some] at h
  obtain ⟨rings, d1, d2⟩ := Option.bind_eq_some_iff.1 h
  obtain ⟨par, d3, d4⟩ := Option.bind_eq_some_iff.1 d2
  obtain ⟨N, em, rg, k, H, hm, r1, r2, hpa, h4⟩ := sweepDebug_run ty ha hb hst d1
  obtain ⟨N', parents, k1, k2⟩ := findParents_of H hm r1 r2 hpa srt' nextAfter choice
  have d5 := Laminar.findParents_mono (Laminar.findParents_le d3) N'
  rw [k1 _ (Nat.le_add_left _ _), Option.some.injEq] at d5
  subst d5
  rw [Laminar.C39_each_ring_once rings parents k2, Option.some.injEq] at d4
  subst d4
  constructor
  · refine ⟨max N N', fun fuel' hf => ?_⟩
    unfold booleanOp Laminar.assemble
    rw [q1, Option.bind_some, q2, Option.bind_some, (k fuel' (by omega)).1, Option.bind_some, k1 fuel' (by omega), Option.bind_some]
    exact Laminar.C39_each_ring_once rings parents k2
  · intro r
    rw [evenOdd_polygonsFor k2 r]
    obtain ⟨N0, rings0, s1, -, s3⟩ := sweep_spec ty ha hb nextAfter choice hst
    have := s1 (max N N0) (le_max_right _ _)
    rw [(k _ (le_max_left _ _)).1, Option.some.injEq] at this
    subst this
    exact s3 r

/-- **C63 (as polygons with holes).** If `Op::sweep` returns in a debug build and at most four edges of the result meet at each point,
`boolean_op` returns in a debug build and in a release build, and it returns the same; a point is in one of the polygons
and in none of its holes iff the truth table of the operation holds for its membership in the operands; holes are inside their
polygon and do not overlap, and neither do polygons. Any number of edges may start at a point. -/
theorem C63_debug_multi (ty : OpType) {a b : List (Polygon K)} (ha : ∀ p ∈ a, ∀ ring ∈ ringsOf p, Closed ring)
    (hb : ∀ p ∈ b, ∀ ring ∈ ringsOf p, Closed ring) {nextAfter : K → K} {choice : Nat → Nat}
    {srt srt' : List (Crossing K Nat) → List (Crossing K Nat)} (hst : Stable compareCrossings srt ∨ NoOverlap ((a ++ b).flatMap Spec.ringsOf)) {fuel : Nat}
    {es : List (OpEdge K)} (hes : (addMultiPolygon [] a true).bind (fun es => addMultiPolygon es b false) = some es)
    {rings : List (Ring K)} (h : BoolOp.sweepDebug ty es nextAfter choice srt fuel = some rings)
    (h4 : ∀ v, (edgesOf rings).countP (fun e => e.first = v) + (edgesOf rings).countP (fun e => e.second = v) ≤ 4) :
    ∃ N polys, (∀ fuel', N ≤ fuel' → booleanOp a b ty nextAfter choice srt srt' fuel' = some polys ∧
        booleanOpDebug a b ty nextAfter choice srt srt' fuel' = some polys) ∧
      (∀ r, InMulti (polys.map Polygon.rings) r ↔
        inResult ty (decide (EvenOdd (a.flatMap ringsOf) r)) (decide (EvenOdd (b.flatMap ringsOf) r)) = true) ∧
      ProperMulti (polys.map Polygon.rings) := by
  have e1 : (addMultiPolygon [] a true).bind (fun es => addMultiPolygon es b false) = some (opEdges a b) := opEdges_eq ha hb
  rw [e1, Option.some.injEq] at hes
  subst hes
  obtain ⟨es1, q1, q2⟩ := Option.bind_eq_some_iff.1 e1
  obtain ⟨N, em, rg, k, H, hm, r1, r2, hpa, h5⟩ := sweepDebug_run ty ha hb hst h
  obtain ⟨N', parents, k1, k2, k3, k4⟩ := assemble_run H hm r1 r2 hpa h4 srt' nextAfter choice
  obtain ⟨s1, s2⟩ := polygons_spec H hm r1 r2 hpa h4 k2 k4
  refine ⟨max N N', polygonsFor rings parents, fun fuel hf => ?_, fun r => (s1 r).trans (h5 r), s2⟩
  obtain ⟨d1, d2⟩ := k fuel (by omega)
  unfold booleanOp booleanOpDebug Laminar.assemble Laminar.assembleDebug
  rw [q1, Option.bind_some, Option.bind_some, q2, Option.bind_some, Option.bind_some, d1, d2, Option.bind_some, Option.bind_some,
    k1 false fuel (by omega), k1 true fuel (by omega), Option.bind_some]
  exact ⟨Laminar.C39_each_ring_once rings parents k3, Laminar.C39_each_ring_once rings parents k3⟩

/-! ## Examples -/

/-- Two triangles that touch in their left corners, one of which ends before the other begins to close. -/
def fanA : List (Polygon ℚ) := [⟨[⟨0, 0⟩, ⟨1, -3⟩, ⟨2, -1⟩, ⟨0, 0⟩], []⟩]
def fanB : List (Polygon ℚ) := [⟨[⟨0, 0⟩, ⟨4, 1⟩, ⟨5, 5⟩, ⟨0, 0⟩], []⟩]

/-- Four edges of the result start at the origin, so C62 does not apply; the debug build returns the two triangles. -/
example : ((BoolOp.sweepDebug .union (opEdges fanA fanB) id (fun _ => 0) id 60).map fun rings =>
      ((edgesOf rings).countP (fun e => e.first = ⟨0, 0⟩), decide (∀ v ∈ (edgesOf rings).flatMap fun e => [e.first, e.second],
        (edgesOf rings).countP (fun e => e.first = v) + (edgesOf rings).countP (fun e => e.second = v) ≤ 4))) = some (4, true) ∧
    (booleanOpDebug fanA fanB .union id (fun _ => 0) id id 60).map (·.map Polygon.rings) =
      some [([⟨5, 5⟩, ⟨0, 0⟩, ⟨4, 1⟩, ⟨5, 5⟩], []), ([⟨2, -1⟩, ⟨0, 0⟩, ⟨1, -3⟩, ⟨2, -1⟩], [])] := by decide +kernel

end GeoCrossings
