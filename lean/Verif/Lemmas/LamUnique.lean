import Verif.Lemmas.LamInput

/-! # The steps of the column of `assemble` are determined by the edges -/
set_option linter.unusedSectionVars false
namespace GeoCrossings
open Spec

variable {K : Type} [Field K] [LinearOrder K] [IsStrictOrderedRing K]
variable {geom : Nat → LineOrPoint K} {isFirst : Nat → Bool} {input : List Nat} {isHole : Nat → Bool} {ringOf : Nat → Nat}

/-- What is reached by steps of the column. -/
inductive ColReach (geom : Nat → LineOrPoint K) (input : List Nat) (isHole : Nat → Bool) (ringOf : Nat → Nat) :
    Pt K → List Nat → (Nat → Nat) → (Nat → Option Nat) → Prop
  | init {pos} (h : ∀ c ∈ input, pos < (geom c).first) : ColReach geom input isHole ringOf pos [] (fun _ => 0) fun _ => none
  | step {pos pt l e s u par reg} (hs : ColStep geom input pos pt l e s u) (h : ColReach geom input isHole ringOf pos (l ++ e ++ u) par reg) :
    ColReach geom input isHole ringOf pt (l ++ s ++ u) (s.foldl (Laminar.visit isHole ringOf) (l.getLast?.bind reg, par, reg)).2.1
        (s.foldl (Laminar.visit isHole ringOf) (l.getLast?.bind reg, par, reg)).2.2

/-- The column at a point is divided in one way, and the edges that start there have one order. -/
theorem ColStep.unique {pos pos' pt : Pt K} {l e s u l' e' s' u' : List Nat} (h : ColStep geom input pos pt l e s u)
    (h' : ColStep geom input pos' pt l' e' s' u') (hc : l ++ e ++ u = l' ++ e' ++ u') : l = l' ∧ s = s' ∧ u = u' := by
  obtain ⟨n1, n2, n3, n4, -⟩ := h.nodup3
  obtain ⟨m1, m2, m3, m4, -⟩ := h'.nodup3
  have pl : l.Perm l' := (List.perm_ext_iff_of_nodup n1 m1).2 fun c => (h.low c).trans (h'.low c).symm
  have pe : e.Perm e' := (List.perm_ext_iff_of_nodup n2 m2).2 fun c => (h.ends c).trans (h'.ends c).symm
  have ps : s.Perm s' := (List.perm_ext_iff_of_nodup n3 m3).2 fun c => (h.starts c).trans (h'.starts c).symm
  obtain ⟨k1, k2⟩ := List.append_inj hc (by rw [List.length_append, List.length_append, pl.length_eq, pe.length_eq])
  refine ⟨(List.append_inj k1 pl.length_eq).1, ?_, k2⟩
  refine List.Perm.eq_of_pairwise (fun a b _ _ h1 h2 => ?_) h.ord h'.ord ps
  exfalso
  rw [det_neg'] at h2
  linarith

/-- At points between which no edge starts or ends, what is reached is the same. -/
theorem ColReach.unique (hlt : ∀ c ∈ input, (geom c).first < (geom c).second) {pos : Pt K} {col par reg}
    (h : ColReach geom input isHole ringOf pos col par reg) :
    ∀ {pos' col' par' reg'}, ColReach geom input isHole ringOf pos' col' par' reg' →
      (∀ c ∈ input, ((geom c).first ≤ pos ↔ (geom c).first ≤ pos') ∧ ((geom c).second ≤ pos ↔ (geom c).second ≤ pos')) →
      col = col' ∧ par = par' ∧ reg = reg' := by
  induction h with
  | init h0 =>
    intro pos' col' par' reg' h' hp
    cases h' with
    | init => exact ⟨rfl, rfl, rfl⟩
    | step hs h =>
      obtain ⟨c, hc, k⟩ := hs.hit
      exfalso
      rcases k with k | k
      · exact absurd ((hp c hc).1.2 k.le) (not_le.2 (h0 c hc))
      · exact absurd ((hp c hc).2.2 k.le) (not_le.2 ((h0 c hc).trans (hlt c hc)))
  | @step pos pt l e s u par reg hs h ih =>
    intro pos' col' par' reg' h' hp
    cases h' with
    | init h0 =>
      obtain ⟨c, hc, k⟩ := hs.hit
      exfalso
      rcases k with k | k
      · exact absurd ((hp c hc).1.1 k.le) (not_le.2 (h0 c hc))
      · exact absurd ((hp c hc).2.1 k.le) (not_le.2 ((h0 c hc).trans (hlt c hc)))
    | @step pos1 pt1 l1 e1 s1 u1 par1 reg1 hs1 h1 =>
      have hpt : pt = pos' := by
        refine le_antisymm ?_ ?_
        · obtain ⟨c, hc, k | k⟩ := hs.hit
          · exact k ▸ (hp c hc).1.1 k.le
          · exact k ▸ (hp c hc).2.1 k.le
        · obtain ⟨c, hc, k | k⟩ := hs1.hit
          · exact k ▸ (hp c hc).1.2 k.le
          · exact k ▸ (hp c hc).2.2 k.le
      subst hpt
      have key : ∀ {x : Pt K}, (x ≤ pos ∨ pt ≤ x) → (x ≤ pos1 ∨ pt ≤ x) → (x ≤ pos ↔ x ≤ pos1) := by
        intro x k1 k2
        constructor
        · intro k; exact k2.resolve_right (not_le.2 (k.trans_lt hs.lt))
        · intro k; exact k1.resolve_right (not_le.2 (k.trans_lt hs1.lt))
      obtain ⟨q1, q2, q3⟩ := ih h1 fun c hc => ⟨key (hs.first c hc) (hs1.first c hc), key (hs.second c hc) (hs1.second c hc)⟩
      subst q2 q3
      obtain ⟨w1, w2, w3⟩ := hs.unique hs1 q1
      subst w1 w2 w3
      exact ⟨rfl, rfl, rfl⟩

/-- The loop of `assemble` finds the same parents, whatever the order of equal events and the sort. -/
theorem lam_same (he : EdgesOk geom isFirst input) (ha : Disj geom input) (srt srt' : List (Crossing K Nat) → List (Crossing K Nat))
    (na na' : K → K) (ch ch' : Nat → Nat) :
    ∃ it, CrossingsIter.ofInput (fun i => (geom i).toLine) input = some it ∧ ∃ N par, ∀ fuel, N ≤ fuel →
      Laminar.sweepLoop false isHole ringOf (fun i => (geom i).toLine) na ch srt fuel fuel it (fun _ => 0) (fun _ => none) = some par ∧
      Laminar.sweepLoop false isHole ringOf (fun i => (geom i).toLine) na' ch' srt' fuel fuel it (fun _ => 0) (fun _ => none) = some par := by
  obtain ⟨it, i1, N, par, k1, pos, reg, k2, k3⟩ := lam_run (P := ColReach geom input isHole ringOf) he ha isHole ringOf srt na ch
    (fun _ h => .init h) fun _ _ _ _ _ _ _ _ hs h => .step hs h
  obtain ⟨it', i1', N', par', k1', pos', reg', k2', k3'⟩ := lam_run (P := ColReach geom input isHole ringOf) he ha isHole ringOf srt' na' ch'
    (fun _ h => .init h) fun _ _ _ _ _ _ _ _ hs h => .step hs h
  rw [i1, Option.some.injEq] at i1'
  subst i1'
  have hlt : ∀ c ∈ input, (geom c).first < (geom c).second := fun c hc => (he.ends hc).2.2
  obtain ⟨-, q, -⟩ := k3.unique hlt k3' fun c hc => ⟨iff_of_true ((hlt c hc).le.trans (k2 c hc)) ((hlt c hc).le.trans (k2' c hc)),
    iff_of_true (k2 c hc) (k2' c hc)⟩
  subst q
  exact ⟨it, i1, max N N', par, fun fuel hf => ⟨k1 false (by simp) fuel (by omega), k1' false (by simp) fuel (by omega)⟩⟩

/-- The parents that `assemble` finds for the rings of `Op::sweep` are determined. -/
theorem findParents_same {em : List (LineOrPoint K × Winding)} (H : Emitted em) (hm : (em.map (·.1)).Pairwise EndsOnly) {rg : Rings K} {rings : List (Ring K)}
    (r1 : Rings.ofEdges em = some rg) (r2 : rg.finish = some rings) (srt srt' : List (Crossing K Nat) → List (Crossing K Nat))
    (na na' : K → K) (ch ch' : Nat → Nat) :
    ∃ N par, ∀ fuel, N ≤ fuel → Laminar.findParents false rings na ch srt fuel = some par ∧
      Laminar.findParents false rings na' ch' srt' fuel = some par := by
  obtain ⟨he, ha⟩ := ringEdges_base H hm r1 r2
  obtain ⟨it, i1, N, par, h⟩ := lam_same (isHole := holeR rings) (ringOf := ringR rings) he ha srt srt' na na' ch ch'
  refine ⟨N, par, fun fuel hf => ?_⟩
  rw [findParents_eq (by simp), findParents_eq (by simp), i1, Option.bind_some, Option.bind_some]
  exact h fuel hf

end GeoCrossings
