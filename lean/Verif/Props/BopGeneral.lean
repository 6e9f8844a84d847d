import Verif.Lemmas.BopCross
import Verif.Props.BopValid

/-! # C68: which operands give a result that `monotone_chains` can decompose -/
set_option linter.unusedSectionVars false
namespace GeoCrossings
open Spec BoolOp Rings

variable {K : Type} [Field K] [LinearOrder K] [IsStrictOrderedRing K]

theorem edge_of_id {a b : List (Polygon K)} {i : Nat} (hi : i ∈ List.range (opEdges a b).length) :
    ∃ e ∈ edgePairs (if isFirstOf (opEdges a b) i then a else b), segBetween e.1 e.2 = some (geomOf (opEdges a b) i) := by
  have hi := List.mem_range.1 hi
  have e1 : geomOf (opEdges a b) i = (opEdges a b)[i].geom := by unfold geomOf; rw [List.getElem?_eq_getElem hi]; rfl
  have e2 : isFirstOf (opEdges a b) i = (opEdges a b)[i].isFirst := by unfold isFirstOf; rw [List.getElem?_eq_getElem hi]; rfl
  have hm : (opEdges a b)[i] ∈ opEdges a b := List.getElem_mem hi
  rw [e1, e2]
  generalize (opEdges a b)[i] = o at hm
  have key : ∀ (mp : List (Polygon K)) f, o ∈ mp.flatMap (fun p => polyEdges p f) → ∃ e ∈ edgePairs mp, segBetween e.1 e.2 = some o.geom := by
    intro mp f h
    obtain ⟨p, hp, h⟩ := List.mem_flatMap.1 h
    unfold polyEdges at h
    obtain ⟨ring, hr, h⟩ := List.mem_flatMap.1 h
    obtain ⟨g, hg, rfl⟩ := List.mem_map.1 h
    obtain ⟨e, he, hs⟩ := List.mem_filterMap.1 hg
    exact ⟨e, List.mem_flatMap.2 ⟨ring, List.mem_flatMap.2 ⟨p, hp, (List.mem_filter.1 hr).1⟩, he⟩, hs⟩
  rcases List.mem_append.1 hm with h | h
  · rw [polyEdges_flag o h]; exact key a true h
  · rw [polyEdges_flag o h]; exact key b false h

theorem segBetween_onSeg {x : Pt K × Pt K} {g : LineOrPoint K} (h : segBetween x.1 x.2 = some g) {z : Pt K} :
    OnSeg g.first g.second z ↔ OnSeg x.1 x.2 z := by
  obtain ⟨p, q, g1, g2, g3⟩ := segBetween_line h
  rw [g1]
  show OnSeg p q z ↔ _
  rcases g3 with ⟨rfl, rfl⟩ | ⟨rfl, rfl⟩
  · rfl
  · exact ⟨OnSeg.swap, OnSeg.swap⟩

/-- If no three edges of the operands have a point in common and no two of one operand cross, at most two edges of the result meet at each point,
unless the operation is xor. -/
theorem two_edges {ty : OpType} (hty : ty ≠ .xor) {a b : List (Polygon K)} (ha : ∀ p ∈ a, ∀ ring ∈ ringsOf p, Closed ring)
    (hb : ∀ p ∈ b, ∀ ring ∈ ringsOf p, Closed ring)
    (h3 : ∀ e₁ ∈ edgePairs (a ++ b), ∀ e₂ ∈ edgePairs (a ++ b), ∀ e₃ ∈ edgePairs (a ++ b), e₁ ≠ e₂ → e₁ ≠ e₃ → e₂ ≠ e₃ →
      ∀ v, ¬ (OnSeg e₁.1 e₁.2 v ∧ OnSeg e₂.1 e₂.2 v ∧ OnSeg e₃.1 e₃.2 v))
    (hx : ∀ mp ∈ [a, b], ∀ e₁ ∈ edgePairs mp, ∀ e₂ ∈ edgePairs mp, e₁ ≠ e₂ → ∀ v, OnSeg e₁.1 e₁.2 v → OnSeg e₂.1 e₂.2 v →
      v ∈ [e₁.1, e₁.2, e₂.1, e₂.2])
    (nextAfter : K → K) (choice : Nat → Nat) {srt : List (Crossing K Nat) → List (Crossing K Nat)} (hst : Stable compareCrossings srt ∨ NoOverlap ((a ++ b).flatMap Spec.ringsOf)) :
    ∀ es fuel rings, (addMultiPolygon [] a true).bind (fun es => addMultiPolygon es b false) = some es →
      BoolOp.sweep ty es nextAfter choice srt fuel = some rings → ∀ v,
        (edgesOf rings).countP (fun e => e.first = v) + (edgesOf rings).countP (fun e => e.second = v) ≤ 2 := by
  intro es fuel rings hes hr v
  rw [opEdges_eq ha hb, Option.some.injEq] at hes
  subst hes
  obtain ⟨N, em, rg, rings', h, hv, H, -, r1, r2, -⟩ := sweep_run_full ty ha hb nextAfter choice hst
  have h1 := sweep_mono hr N
  rw [(h _ (by omega)).1, Option.some.injEq] at h1
  subst h1
  have hp := edgesOf_perm (C35_edges_conserved em (fun e he => (H.lt e he).ne) r1 r2) H.lines
  rw [hp.countP_eq, hp.countP_eq, List.countP_map, List.countP_map]
  have hin : ∀ f, ∀ e ∈ edgePairs (if f = true then a else b), e ∈ edgePairs (a ++ b) := by
    intro f e he
    unfold edgePairs at he ⊢
    rw [List.flatMap_append, List.flatMap_append]
    cases f
    · exact List.mem_append_right _ he
    · exact List.mem_append_left _ he
  refine AtVertex.two (opEdges_ok ha hb) hty ?_ ?_ (hv v)
  · intro i hi j hj k hk oi oj ok
    obtain ⟨e1, m1, s1⟩ := edge_of_id hi
    obtain ⟨e2, m2, s2⟩ := edge_of_id hj
    obtain ⟨e3, m3, s3⟩ := edge_of_id hk
    by_contra hno
    rw [not_or, not_or] at hno
    refine h3 e1 (hin _ _ m1) e2 (hin _ _ m2) e3 (hin _ _ m3) ?_ ?_ ?_ v ⟨(segBetween_onSeg s1).1 oi, (segBetween_onSeg s2).1 oj, (segBetween_onSeg s3).1 ok⟩
    · rintro rfl; exact hno.1 (Option.some.inj (s1.symm.trans s2))
    · rintro rfl; exact hno.2.1 (Option.some.inj (s1.symm.trans s3))
    · rintro rfl; exact hno.2.2 (Option.some.inj (s2.symm.trans s3))
  · intro i hi j hj hf oi oj
    obtain ⟨e1, m1, s1⟩ := edge_of_id hi
    obtain ⟨e2, m2, s2⟩ := edge_of_id hj
    by_contra hno
    rw [← hf] at m2
    have hne : e1 ≠ e2 := by rintro rfl; exact hno (Option.some.inj (s1.symm.trans s2))
    have hab : (if isFirstOf (opEdges a b) i = true then a else b) ∈ [a, b] := by split <;> simp
    have hend : ∀ {x : Pt K × Pt K} {g : LineOrPoint K}, segBetween x.1 x.2 = some g → Inside g.first g.second v → v ≠ x.1 ∧ v ≠ x.2 := by
      intro x g hs ho
      obtain ⟨p, q, g1, g2, g3⟩ := segBetween_line hs
      rw [g1] at ho
      have ho : Inside p q v := ho
      rcases g3 with ⟨rfl, rfl⟩ | ⟨rfl, rfl⟩
      · exact ⟨ho.1.ne', ho.2.1.ne⟩
      · exact ⟨ho.2.1.ne, ho.1.ne'⟩
    have := hx _ hab e1 m1 e2 m2 hne v ((segBetween_onSeg s1).1 oi.onSeg) ((segBetween_onSeg s2).1 oj.onSeg)
    simp only [List.mem_cons, List.not_mem_nil, or_false] at this
    obtain ⟨q1, q2⟩ := hend s1 oi
    obtain ⟨q3, q4⟩ := hend s2 oj
    rcases this with k | k | k | k <;> contradiction

/-- **C68.** If no three edges of the operands have a point in common and no two edges of one operand cross, the polygons that `boolean_op` returns for
a union, an intersection or a difference are valid input for `monotone_chains`; applied to all of them, it returns pieces such that a point is in
exactly one of them if the truth table of the operation holds for it, and in none otherwise. -/
theorem C68_general_position {ty : OpType} (hty : ty ≠ .xor) {a b : List (Polygon K)} (ha : ∀ p ∈ a, ∀ ring ∈ ringsOf p, Closed ring)
    (hb : ∀ p ∈ b, ∀ ring ∈ ringsOf p, Closed ring)
    (h3 : ∀ e₁ ∈ edgePairs (a ++ b), ∀ e₂ ∈ edgePairs (a ++ b), ∀ e₃ ∈ edgePairs (a ++ b), e₁ ≠ e₂ → e₁ ≠ e₃ → e₂ ≠ e₃ →
      ∀ v, ¬ (OnSeg e₁.1 e₁.2 v ∧ OnSeg e₂.1 e₂.2 v ∧ OnSeg e₃.1 e₃.2 v))
    (hx : ∀ mp ∈ [a, b], ∀ e₁ ∈ edgePairs mp, ∀ e₂ ∈ edgePairs mp, e₁ ≠ e₂ → ∀ v, OnSeg e₁.1 e₁.2 v → OnSeg e₂.1 e₂.2 v →
      v ∈ [e₁.1, e₁.2, e₂.1, e₂.2])
    (nextAfter : K → K) (choice : Nat → Nat)
    {srt srt' : List (Crossing K Nat) → List (Crossing K Nat)} (hst : Stable compareCrossings srt ∨ NoOverlap ((a ++ b).flatMap Spec.ringsOf)) :
    ∃ N polys, (∀ fuel, N ≤ fuel → booleanOp a b ty nextAfter choice srt srt' fuel = some polys) ∧
      (∀ p ∈ polys, ValidPolygon p.ext p.ints) ∧ PlainRings (polys.flatMap ringsOf) ∧
      ∀ dbg srt'', ∃ outs pieces, polys.mapM (Monotone.monotoneChains dbg srt'') = some outs ∧ outs.flatten.mapM MonoPoly.intoPolygon = some pieces ∧
        (∀ m ∈ outs.flatten, MonotonePair m.top m.bot ∧ NowhereBelow m.top m.bot) ∧ (∀ ring ∈ pieces, ringArea ring < 0) ∧
        ∀ r, (pieces.countP fun ring => EvenOdd [ring] r) =
          if inResult ty (decide (EvenOdd (a.flatMap ringsOf) r)) (decide (EvenOdd (b.flatMap ringsOf) r)) = true then 1 else 0 :=
  C60_boolean_op_chains ty ha hb nextAfter choice hst (two_edges hty ha hb h3 hx nextAfter choice hst)

/-! ## Examples -/

/-- The boxes of two edges have no point in common, or only an end of one of them. -/
def boxEnd (e₁ e₂ : Pt K × Pt K) : Bool :=
  decide (min (max e₁.1.x e₁.2.x) (max e₂.1.x e₂.2.x) < max (min e₁.1.x e₁.2.x) (min e₂.1.x e₂.2.x) ∨
    min (max e₁.1.y e₁.2.y) (max e₂.1.y e₂.2.y) < max (min e₁.1.y e₁.2.y) (min e₂.1.y e₂.2.y) ∨
    ∃ w ∈ [e₁.1, e₁.2, e₂.1, e₂.2], min (max e₁.1.x e₁.2.x) (max e₂.1.x e₂.2.x) = w.x ∧ max (min e₁.1.x e₁.2.x) (min e₂.1.x e₂.2.x) = w.x ∧
      min (max e₁.1.y e₁.2.y) (max e₂.1.y e₂.2.y) = w.y ∧ max (min e₁.1.y e₁.2.y) (min e₂.1.y e₂.2.y) = w.y)

theorem boxEnd_spec {e₁ e₂ : Pt K × Pt K} (h : boxEnd e₁ e₂ = true) (v : Pt K) (h1 : OnSeg e₁.1 e₁.2 v) (h2 : OnSeg e₂.1 e₂.2 v) :
    v ∈ [e₁.1, e₁.2, e₂.1, e₂.2] := by
  obtain ⟨a1, a2, a3, a4⟩ := OnSeg.box h1
  obtain ⟨b1, b2, b3, b4⟩ := OnSeg.box h2
  rcases of_decide_eq_true h with h | h | ⟨w, hw, k1, k2, k3, k4⟩
  · exact absurd h (not_lt.2 ((max_le a1 b1).trans (le_min a2 b2)))
  · exact absurd h (not_lt.2 ((max_le a3 b3).trans (le_min a4 b4)))
  · have c1 := max_le a1 b1
    have c2 := le_min a2 b2
    have c3 := max_le a3 b3
    have c4 := le_min a4 b4
    rw [k2] at c1
    rw [k1] at c2
    rw [k4] at c3
    rw [k3] at c4
    have : v = w := by
      have h1 := le_antisymm c2 c1
      have h2 := le_antisymm c4 c3
      cases v; cases w; simp only at h1 h2; rw [h1, h2]
    rw [this]; exact hw

/-- Two squares that overlap: the assumptions of C68, and the pieces of the difference. -/
example : (∀ p ∈ bigS, ∀ ring ∈ ringsOf p, Closed ring) ∧ (∀ p ∈ overS, ∀ ring ∈ ringsOf p, Closed ring) ∧
    (∀ e₁ ∈ edgePairs (bigS ++ overS), ∀ e₂ ∈ edgePairs (bigS ++ overS), ∀ e₃ ∈ edgePairs (bigS ++ overS), e₁ ≠ e₂ → e₁ ≠ e₃ → e₂ ≠ e₃ →
      ∀ v, ¬ (OnSeg e₁.1 e₁.2 v ∧ OnSeg e₂.1 e₂.2 v ∧ OnSeg e₃.1 e₃.2 v)) ∧
    (∀ mp ∈ [bigS, overS], ∀ e₁ ∈ edgePairs mp, ∀ e₂ ∈ edgePairs mp, e₁ ≠ e₂ → ∀ v, OnSeg e₁.1 e₁.2 v → OnSeg e₂.1 e₂.2 v →
      v ∈ [e₁.1, e₁.2, e₂.1, e₂.2]) ∧
    ((booleanOp bigS overS .difference id (fun _ => 0) id id 60).bind fun polys => polys.mapM (Monotone.monotoneChains true id)).map
      (fun l => l.map fun out => out.map fun m => (m.top, m.bot)) =
      some [[([⟨0, 0⟩, ⟨0, 6⟩, ⟨3, 3⟩, ⟨6, 3⟩], [⟨0, 0⟩, ⟨6, 0⟩, ⟨6, 3⟩]), ([⟨0, 6⟩, ⟨3, 6⟩], [⟨0, 6⟩, ⟨3, 3⟩, ⟨3, 6⟩])]] :=
  ⟨by decide +kernel, by decide +kernel, boxes_of (by decide +kernel),
    fun mp hm e₁ m1 e₂ m2 hne => boxEnd_spec ((by decide +kernel : ∀ mp ∈ [bigS, overS], ∀ e₁ ∈ edgePairs mp, ∀ e₂ ∈ edgePairs mp, e₁ ≠ e₂ →
      boxEnd e₁ e₂ = true) mp hm e₁ m1 e₂ m2 hne), by decide +kernel⟩

/-- With `xor`, four edges of the result meet where the squares cross. -/
example : (BoolOp.sweep .xor (opEdges bigS overS) id (fun _ => 0) id 60).map (fun rings =>
    (edgesOf rings).countP (fun e => e.first = ⟨3, 6⟩) + (edgesOf rings).countP (fun e => e.second = ⟨3, 6⟩)) = some 4 := by decide +kernel

end GeoCrossings
