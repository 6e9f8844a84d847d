import Verif.Props.BopBoundary
import Verif.Props.SweepBound

/-! # C86: the vertices and the size of the result of a boolean operation -/
set_option linter.unusedSectionVars false
namespace GeoCrossings
open Spec BoolOp Rings

variable {K : Type} [Field K] [LinearOrder K] [IsStrictOrderedRing K]

/-- The sides of the two operands, as lines. -/
def sidesOf (a b : List (Polygon K)) : List (Line K) := (plain (opEdges a b)).map fun e => ⟨e.2.1, e.2.2⟩

theorem plain_lt (a b : List (Polygon K)) : ∀ e ∈ plain (opEdges a b), e.2.1 < e.2.2 := by
  intro e he
  rw [plain_opEdges] at he
  rcases List.mem_append.1 he with he | he <;> obtain ⟨g, hg, rfl⟩ := List.mem_map.1 he <;> obtain ⟨p, q, rfl, k⟩ := outline_lt g hg <;> exact k

/-- There are no more pieces than edges and points within edges. -/
theorem Subdivision.length_le {es : List (Bool × Pt K × Pt K)} {D : List (Grp K (Bool × Pt K × Pt K))} (h : Subdivision lineOfEdge es D)
    {cl : List (Pt K)} (hcl : ∀ r, Critical (es.map lineOfEdge) r → r ∈ cl) : D.length ≤ es.length + incidences (es.map lineOfEdge) cl := by
  have h1 := wsum_tri cl D fun g hg => (h.ok g hg).ne
  have h2 := tiled_weight (cl := cl) h.tiled (fun t ht => by
    obtain ⟨g, hg, ht⟩ := List.mem_flatMap.1 ht
    obtain ⟨c, hc, rfl⟩ := List.mem_map.1 ht
    have ok := h.ok g hg
    exact ⟨(ok.sub c hc).line, (ok.sub c hc).q, hcl _ ok.cq⟩)
  have h3 := linesOf_weight (lineOf := lineOfEdge) cl es
  have h4 : D.length ≤ (D.flatMap Grp.tri).length := by
    have : ∀ g ∈ D, g.cs ≠ [] := fun g hg => (h.ok g hg).ne
    clear h h1 h2 h3
    induction D with
    | nil => simp
    | cons g D ih =>
      have ih := ih fun g hg => this g (by simp [hg])
      have := List.length_pos_of_ne_nil (this g (by simp))
      have e2 : g.tri.length = g.cs.length := by unfold Grp.tri; simp
      rw [List.flatMap_cons, List.length_append, List.length_cons]
      omega
  omega

section
variable {ty : OpType} {a b : List (Polygon K)} {na : K → K} {ch : Nat → Nat} {srt : List (Crossing K Nat) → List (Crossing K Nat)} {fuel : Nat} {rings : List (Ring K)}
  (ha : ∀ p ∈ a, ∀ ring ∈ ringsOf p, Closed ring) (hb : ∀ p ∈ b, ∀ ring ∈ ringsOf p, Closed ring)
  (hst : Stable compareCrossings srt ∨ NoOverlap ((a ++ b).flatMap Spec.ringsOf)) (h : BoolOp.sweep ty (opEdges a b) na ch srt fuel = some rings)
include ha hb hst h

/-- The sides of the result are pieces of the sides of the operands, each once. -/
theorem result_pieces : (∀ g ∈ rings, SimpleClosed g.coords) ∧ (edgesOf rings).Nodup ∧ (∀ g ∈ edgesOf rings, IsPiece (plain (opEdges a b)) g.first g.second ∧ g = .line g.first g.second) ∧
    (edgesOf rings).length = (rings.map fun g => g.coords.length - 1).sum ∧
    ∀ g ∈ rings, ∀ v ∈ g.coords, ∃ e ∈ edgesOf rings, v = e.first ∨ v = e.second := by
  obtain ⟨N, em, rg, rings1, h1, H, hm, r1, r2, hbd, hord⟩ := sweep_edges ty ha hb na ch hst
  have e := sweep_mono h N
  rw [(h1 _ (by omega)).1, Option.some.injEq] at e
  subst e
  have hcon := C35_edges_conserved em (fun e he => (H.lt e he).ne) r1 r2
  have hp := edgesOf_perm hcon H.lines
  have hsc := C37_rings_simple em (fun e he => (H.lt e he).ne) r1 r2
  have hne := consec_ne hcon H.lt
  have seg : ∀ g ∈ rings1, ∀ x ∈ g.coords.zip g.coords.tail, ∃ d, segBetween x.1 x.2 = some d ∧ (x.1 = d.first ∨ x.1 = d.second) ∧ (x.2 = d.first ∨ x.2 = d.second) := by
    intro g hg x hx
    unfold segBetween
    rcases lt_or_gt_of_ne (hne g hg x hx) with k | k
    · exact ⟨_, if_pos k, .inl rfl, .inr rfl⟩
    · rw [if_neg (_root_.lt_asymm k), if_pos k]
      exact ⟨_, rfl, .inr rfl, .inl rfl⟩
  refine ⟨hsc, hp.nodup_iff.2 ?_, ?_, ?_, ?_⟩
  · refine List.pairwise_map.2 (hord.imp ?_)
    intro x y hxy e
    rw [e] at hxy
    exact hxy.asymm hxy
  · intro g hg
    obtain ⟨x, hx, rfl⟩ := List.mem_map.1 (hp.mem_iff.1 hg)
    obtain ⟨p, q, e1, e2⟩ := (hbd x).1 hx
    rw [e1]
    exact ⟨e2.1, rfl⟩
  · unfold edgesOf
    rw [List.length_flatMap]
    congr 1
    refine List.map_congr_left fun g hg => ?_
    unfold properEdges
    have : ∀ l : List (Pt K × Pt K), (∀ x ∈ l, ∃ d, segBetween x.1 x.2 = some d) → (l.filterMap fun x => segBetween x.1 x.2).length = l.length := by
      intro l hl
      induction l with
      | nil => rfl
      | cons x l ih =>
        obtain ⟨d, hd⟩ := hl x (by simp)
        rw [List.filterMap_cons_some (f := fun x : Pt K × Pt K => segBetween x.1 x.2) hd, List.length_cons, List.length_cons, ih fun x hx => hl x (by simp [hx])]
    have k := this (g.coords.zip g.coords.tail) fun x hx => let ⟨d, hd, _⟩ := seg g hg x hx; ⟨d, hd⟩
    refine Eq.trans k ?_
    simp
  · intro g hg v hv
    have hl := (hsc g hg).2.2
    obtain ⟨i, hi, rfl⟩ := List.getElem_of_mem hv
    have mem : ∀ x ∈ g.coords.zip g.coords.tail, ∀ d, segBetween x.1 x.2 = some d → d ∈ edgesOf rings1 := by
      intro x hx d hd
      exact List.mem_flatMap.2 ⟨g, hg, List.mem_filterMap.2 ⟨x, hx, hd⟩⟩
    by_cases h0 : i + 1 < g.coords.length
    · have hx : (g.coords[i], g.coords[i + 1]) ∈ g.coords.zip g.coords.tail := by
        rw [List.mem_iff_getElem]
        exact ⟨i, by simp; omega, by simp⟩
      obtain ⟨d, k1, k2, -⟩ := seg g hg _ hx
      exact ⟨d, mem _ hx d k1, k2⟩
    · obtain ⟨j, rfl⟩ : ∃ j, i = j + 1 := ⟨i - 1, by omega⟩
      have hx : (g.coords[j], g.coords[j + 1]) ∈ g.coords.zip g.coords.tail := by
        rw [List.mem_iff_getElem]
        exact ⟨j, by simp; omega, by simp⟩
      obtain ⟨d, k1, -, k2⟩ := seg g hg _ hx
      exact ⟨d, mem _ hx d k1, k2⟩

/-- **C86.** Every vertex of the result is a vertex of an operand or a point where sides of the operands meet. -/
theorem C86_vertices : ∀ g ∈ rings, ∀ v ∈ g.coords, Critical (sidesOf a b) v := by
  obtain ⟨-, -, k1, -, k2⟩ := result_pieces ha hb hst h
  intro g hg v hv
  obtain ⟨e, he, rfl | rfl⟩ := k2 g hg v hv
  · exact (k1 e he).1.cp
  · exact (k1 e he).1.cq

/-- **C86.** The result has at most `n + I` sides in all, where `n` is the number of sides of the operands and `I` the number of times a vertex of
an operand or a point where sides meet lies strictly within a side. -/
theorem C86_sides {cl : List (Pt K)} (hcl : ∀ r, Critical (sidesOf a b) r → r ∈ cl) :
    (rings.map fun g => g.coords.length - 1).sum ≤ (sidesOf a b).length + incidences (sidesOf a b) cl := by
  obtain ⟨-, k1, k2, k3, -⟩ := result_pieces ha hb hst h
  have hlt := plain_lt a b
  obtain ⟨D, hD⟩ := subdivision_exists (plain (opEdges a b))
  have hle := hD.length_le hcl
  have hsub : edgesOf rings ⊆ D.map fun g => .line g.p g.q := by
    intro d hd
    obtain ⟨hp, e⟩ := k2 d hd
    obtain ⟨c, hc', op, oq⟩ := hp.on
    obtain ⟨g, hg, e1, e2⟩ := hD.exists (fun c hc => (hlt c hc).ne) hc' hp.lt op oq hp.cp hp.cq
      (fun x hx hb => hp.free x hx ((between_inside hp.lt).2 hb))
    rw [e, ← e1, ← e2]
    exact List.mem_map_of_mem hg
  have := (List.subperm_of_subset k1 hsub).length_le
  rw [List.length_map] at this
  rw [← k3]
  refine this.trans (hle.trans (le_of_eq ?_))
  unfold sidesOf
  rw [List.length_map]
  rfl

/-- **C86.** So there are at most a third as many rings. -/
theorem C86_rings {cl : List (Pt K)} (hcl : ∀ r, Critical (sidesOf a b) r → r ∈ cl) :
    3 * rings.length ≤ (sidesOf a b).length + incidences (sidesOf a b) cl := by
  refine le_trans ?_ (C86_sides ha hb hst h hcl)
  have := (result_pieces ha hb hst h).1
  clear h hst
  induction rings with
  | nil => simp
  | cons g l ih =>
    have ih := ih fun g hg => this g (by simp [hg])
    have := (this g (by simp)).2.2
    rw [List.map_cons, List.sum_cons, List.length_cons]
    omega

/-- **C86.** With `n` sides in the operands, the result has at most `n + 3 n²` sides. -/
theorem C86_worst : (rings.map fun g => g.coords.length - 1).sum ≤ (sidesOf a b).length + 3 * (sidesOf a b).length ^ 2 := by
  obtain ⟨cl, hn, hcl⟩ := critical_nodup (sidesOf a b)
  have h1 := C86_sides ha hb hst h fun r hr => (hcl r).2 hr
  have h2 := C82_incidences hn fun r hr => (hcl r).1 hr
  omega

end

/-! ## Examples -/

set_option synthInstance.maxSize 1024 in
/-- Two triangles that cross in two points, each of which is within two of the six sides: the symmetric difference has `6 + 4` sides, the
most possible, and its vertices are those of the triangles and the two points. -/
example : (sidesOf triA triB).length = 6 ∧
    (BoolOp.sweep .xor (opEdges triA triB) id (fun _ => 0) id 60).map (fun l => (l.map fun g => g.coords.length - 1).sum) = some 10 ∧
    (BoolOp.sweep .xor (opEdges triA triB) id (fun _ => 0) id 60).map (·.map (·.coords)) =
      some [[⟨3, 1⟩, ⟨4, 0⟩, ⟨0, 0⟩, ⟨0, 4⟩, ⟨1, 3⟩, ⟨1, 1⟩, ⟨3, 1⟩], [⟨3, 1⟩, ⟨1, 3⟩, ⟨1, 5⟩, ⟨5, 1⟩, ⟨3, 1⟩]] := by
  decide +kernel

end GeoCrossings
