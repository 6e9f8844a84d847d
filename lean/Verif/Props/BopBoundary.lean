import Verif.Props.BopRegion
import Verif.Spec.Boundary

/-! # C84: results of boolean operations have the same boundary exactly if they have the same points inside -/
set_option linter.unusedSectionVars false
namespace GeoCrossings
open Spec BoolOp Rings

variable {K : Type} [Field K] [LinearOrder K] [IsStrictOrderedRing K]

/-! ## Pieces of the edges of two operands -/

section
variable {es : List (Bool × Pt K × Pt K)} {D : List (Grp K (Bool × Pt K × Pt K))}

/-- The edge as a line. -/
def lineOfEdge (e : Bool × Pt K × Pt K) : Line K := ⟨e.2.1, e.2.2⟩

theorem subdivision_exists (es : List (Bool × Pt K × Pt K)) : ∃ D, Subdivision lineOfEdge es D := by
  obtain ⟨N, res, X, -, h⟩ := run_final (lineOfEdge (K := K)) id (fun _ => 0) es
  exact ⟨X.D, h.ok, h.meet, h.tiled⟩

theorem between_inside {p q x : Pt K} (hpq : p < q) : Between p q x ↔ Inside p q x := by
  unfold Between Inside
  rw [onSeg_iff hpq]
  constructor
  · rintro ⟨⟨h1, h2, h3⟩, h4, h5⟩
    exact ⟨lt_of_le_of_ne h2 (Ne.symm h4), lt_of_le_of_ne h3 h5, h1⟩
  · rintro ⟨h1, h2, h3⟩
    exact ⟨⟨h3, h1.le, h2.le⟩, h1.ne', h2.ne⟩

variable (hlt : ∀ e ∈ es, e.2.1 < e.2.2)
include hlt

theorem lo_edge {e : Bool × Pt K × Pt K} (he : e ∈ es) : lo (lineOfEdge e) = e.2.1 ∧ hi (lineOfEdge e) = e.2.2 :=
  ⟨min_eq_left (hlt e he).le, max_eq_right (hlt e he).le⟩

theorem Subdivision.piece (h : Subdivision lineOfEdge es D) {g : Grp K (Bool × Pt K × Pt K)} (hg : g ∈ D) : IsPiece es g.p g.q := by
  have hok := h.ok g hg
  refine ⟨hok.line.2, ?_, hok.cp, hok.cq, fun x hx hb => ?_⟩
  · obtain ⟨c, hc⟩ := List.exists_mem_of_ne_nil _ hok.ne
    have hs := hok.sub c hc
    exact ⟨c, hs.mem, hs.p, hs.q⟩
  · exact h.free (fun c hc => (hlt c hc).ne) hg hx ((between_inside hok.line.2).1 hb)

/-- An edge runs along a piece iff it has a given point inside the piece, iff it has the whole piece. -/
theorem Subdivision.along (h : Subdivision lineOfEdge es D) {g : Grp K (Bool × Pt K × Pt K)} (hg : g ∈ D) {m : Pt K} (hm : Inside g.p g.q m)
    {e : Bool × Pt K × Pt K} (he : e ∈ es) : (RunsAlong g.p g.q e.2.1 e.2.2 ↔ OnSeg e.2.1 e.2.2 m) ∧
      (OnSeg e.2.1 e.2.2 m → ∀ z, OnSeg g.p g.q z → OnSeg e.2.1 e.2.2 z) := by
  have hok := h.ok g hg
  have hl := hlt e he
  have whole : OnSeg e.2.1 e.2.2 m → OnSeg e.2.1 e.2.2 g.p ∧ OnSeg e.2.1 e.2.2 g.q := by
    intro ho
    obtain ⟨g', hg', hc', ho'⟩ := h.cover he hl.ne ho
    rw [h.unique hg hg' hm ho'] at hc'
    have hs := hok.sub e hc'
    exact ⟨hs.p, hs.q⟩
  refine ⟨⟨?_, ?_⟩, ?_⟩
  · rintro ⟨h1, h2, h3, h4⟩
    have hpe : det g.p g.q e.2.1 = 0 := (det_symm hl.ne h4 h3).1
    have hle : e.2.1 ≤ g.p := by
      by_contra hc
      exact h.free (fun c hc => (hlt c hc).ne) hg (.inl ⟨lineOfEdge e, List.mem_map_of_mem he, .inl rfl⟩) ⟨not_le.1 hc, h1, hpe⟩
    exact (onSeg_iff hl).2 ⟨det_onSeg_of hm.onSeg h4 h3, hle.trans hm.1.le, hm.2.1.le.trans h2⟩
  · intro ho
    obtain ⟨k1, k2⟩ := whole ho
    rw [onSeg_iff hl] at k1 k2
    exact ⟨k1.2.1.trans_lt hok.line.2, k2.2.2, k2.1, k1.1⟩
  · intro ho z hz
    obtain ⟨k1, k2⟩ := whole ho
    rw [onSeg_iff hl] at k1 k2
    rw [onSeg_iff hok.line.2] at hz
    exact (onSeg_iff hl).2 ⟨det_trans hok.line.2.ne k1.1 k2.1 hz.1, k1.2.1.trans hz.2.1, hz.2.2.trans k2.2.2⟩

end

/-- Edges that meet in ends only: at most one has a point inside a piece. -/
theorem along_le_one {l : List (LineOrPoint K)} (h : l.Pairwise EndsOnly) (hlt : ∀ g ∈ l, g.first < g.second) {p q : Pt K} (hpq : p < q) :
    l.countP (fun g => RunsAlong p q g.first g.second) ≤ 1 := by
  induction l with
  | nil => simp
  | cons g l ih =>
    rw [List.pairwise_cons] at h
    have ih := ih h.2 fun g hg => hlt g (by simp [hg])
    rw [List.countP_cons]
    split
    · rename_i k
      simp only [decide_eq_true_eq] at k
      have : l.countP (fun g => RunsAlong p q g.first g.second) = 0 := by
        rw [List.countP_eq_zero]
        intro g' hg'
        simp only [decide_eq_true_eq]
        intro k'
        obtain ⟨a1, a2, a3, a4⟩ := k
        obtain ⟨b1, b2, b3, b4⟩ := k'
        have w := hlt g (by simp)
        have w' := hlt g' (by simp [hg'])
        obtain ⟨m, hm⟩ := inside_mid (max_lt a1 b1 : max g.first g'.first < q)
        have ho : ∀ {d : LineOrPoint K}, d.first < d.second → d.first ≤ max g.first g'.first → q ≤ d.second → det d.first d.second q = 0 →
            det d.first d.second (max g.first g'.first) = 0 → Inside d.first d.second m := by
          intro d k1 k2 k3 k4 k5
          exact ⟨k2.trans_lt hm.1, hm.2.1.trans_le k3, det_onSeg_of hm.onSeg k5 k4⟩
        have c1 : det p q g.first = 0 := (det_symm w.ne a4 a3).1
        have c2 : det p q g'.first = 0 := (det_symm w'.ne b4 b3).1
        have c3 : det p q (max g.first g'.first) = 0 := by
          rcases max_choice g.first g'.first with e | e <;> rw [e] <;> assumption
        have i1 := ho w (le_max_left _ _) a2 a3 (det_trans hpq.ne a4 a3 c3)
        have i2 := ho w' (le_max_right _ _) b2 b3 (det_trans hpq.ne b4 b3 c3)
        exact (h.1 g' hg' m i1.onSeg i2.onSeg).1 i1
      omega
    · omega

/-- The edges of two operands. -/
def twoEdges (l1 l2 : List (LineOrPoint K)) : List (Bool × Pt K × Pt K) :=
  l1.map (fun g => (true, g.first, g.second)) ++ l2.map fun g => (false, g.first, g.second)

theorem twoEdges_along (l1 l2 : List (LineOrPoint K)) (p q : Pt K) :
    edgesAlongOf (twoEdges l1 l2) true p q = l1.countP (fun g => RunsAlong p q g.first g.second) ∧
    edgesAlongOf (twoEdges l1 l2) false p q = l2.countP (fun g => RunsAlong p q g.first g.second) := by
  unfold edgesAlongOf twoEdges
  simp [List.countP_append, List.countP_map, Function.comp_def]

theorem xor_changes {es : List (Bool × Pt K × Pt K)} {p q : Pt K} : resultAbove .xor es p q = resultBelow .xor es p q ↔
    Even (edgesAlongOf es true p q + edgesAlongOf es false p q) := by
  unfold resultAbove resultBelow inResult
  generalize edgesBelowOf es true p q = b1
  generalize edgesBelowOf es false p q = b2
  generalize edgesAlongOf es true p q = a1
  generalize edgesAlongOf es false p q = a2
  simp only [Nat.even_add, ← Nat.not_even_iff_odd]
  by_cases h1 : Even b1 <;> by_cases h2 : Even b2 <;> by_cases h3 : Even a1 <;> by_cases h4 : Even a2 <;> simp [h1, h2, h3, h4]

section
variable {l1 l2 : List (LineOrPoint K)} (h1 : l1.Pairwise EndsOnly) (h2 : l2.Pairwise EndsOnly) (k1 : ∀ g ∈ l1, g.first < g.second)
  (k2 : ∀ g ∈ l2, g.first < g.second)

theorem twoEdges_lt (k1 : ∀ g ∈ l1, g.first < g.second) (k2 : ∀ g ∈ l2, g.first < g.second) : ∀ e ∈ twoEdges l1 l2, e.2.1 < e.2.2 := by
  intro e he
  rcases List.mem_append.1 he with he | he <;> obtain ⟨g, hg, rfl⟩ := List.mem_map.1 he
  · exact k1 g hg
  · exact k2 g hg

include h1 h2 k1 k2

/-- If no piece bounds the symmetric difference, the edges of both have the same points. -/
theorem same_points_of (hb : ∀ p q w, ¬ Bounds .xor (twoEdges l1 l2) p q w) (z : Pt K) :
    (∃ g ∈ l1, OnSeg g.first g.second z) ↔ ∃ g ∈ l2, OnSeg g.first g.second z := by
  have hlt := twoEdges_lt k1 k2
  obtain ⟨D, hD⟩ := subdivision_exists (twoEdges l1 l2)
  have even : ∀ g ∈ D, Even (l1.countP (fun e => RunsAlong g.p g.q e.first e.second) + l2.countP (fun e => RunsAlong g.p g.q e.first e.second)) := by
    intro g hg
    have hp := hD.piece hlt hg
    rw [← (twoEdges_along l1 l2 g.p g.q).1, ← (twoEdges_along l1 l2 g.p g.q).2, ← xor_changes]
    by_contra hc
    exact hb g.p g.q _ ⟨hp, hc, rfl⟩
  constructor
  · rintro ⟨e, he, hz⟩
    have hm : (true, e.first, e.second) ∈ twoEdges l1 l2 := List.mem_append_left _ (List.mem_map.2 ⟨e, he, rfl⟩)
    obtain ⟨g, hg, hc, ho⟩ := hD.cover hm (k1 e he).ne hz
    have hok := hD.ok g hg
    obtain ⟨m, hmi⟩ := inside_mid hok.line.2
    have hs := hok.sub _ hc
    have hon : OnSeg e.first e.second m := by
      have a1 := (onSeg_iff (k1 e he)).1 hs.p
      have a2 := (onSeg_iff (k1 e he)).1 hs.q
      exact (onSeg_iff (k1 e he)).2 ⟨det_onSeg_of hmi.onSeg a1.1 a2.1, a1.2.1.trans hmi.1.le, hmi.2.1.le.trans a2.2.2⟩
    have hal := ((hD.along hlt hg hmi hm).1).2 hon
    have c1 := along_le_one h1 k1 hok.line.2 (p := g.p) (q := g.q)
    have c2 : 0 < l1.countP (fun e => RunsAlong g.p g.q e.first e.second) := List.countP_pos_iff.2 ⟨e, he, decide_eq_true hal⟩
    have c3 := even g hg
    have c4 : 0 < l2.countP (fun e => RunsAlong g.p g.q e.first e.second) := by
      by_contra hc
      rw [show l2.countP (fun e => RunsAlong g.p g.q e.first e.second) = 0 by omega,
        show l1.countP (fun e => RunsAlong g.p g.q e.first e.second) = 1 by omega] at c3
      exact absurd c3 (by decide)
    obtain ⟨e', he', k⟩ := List.countP_pos_iff.1 c4
    have hm' : (false, e'.first, e'.second) ∈ twoEdges l1 l2 := List.mem_append_right _ (List.mem_map.2 ⟨e', he', rfl⟩)
    have hal' := hD.along hlt hg hmi hm'
    exact ⟨e', he', hal'.2 (hal'.1.1 (of_decide_eq_true k)) z ho⟩
  · rintro ⟨e, he, hz⟩
    have hm : (false, e.first, e.second) ∈ twoEdges l1 l2 := List.mem_append_right _ (List.mem_map.2 ⟨e, he, rfl⟩)
    obtain ⟨g, hg, hc, ho⟩ := hD.cover hm (k2 e he).ne hz
    have hok := hD.ok g hg
    obtain ⟨m, hmi⟩ := inside_mid hok.line.2
    have hs := hok.sub _ hc
    have hon : OnSeg e.first e.second m := by
      have a1 := (onSeg_iff (k2 e he)).1 hs.p
      have a2 := (onSeg_iff (k2 e he)).1 hs.q
      exact (onSeg_iff (k2 e he)).2 ⟨det_onSeg_of hmi.onSeg a1.1 a2.1, a1.2.1.trans hmi.1.le, hmi.2.1.le.trans a2.2.2⟩
    have hal := ((hD.along hlt hg hmi hm).1).2 hon
    have c1 := along_le_one h2 k2 hok.line.2 (p := g.p) (q := g.q)
    have c2 : 0 < l2.countP (fun e => RunsAlong g.p g.q e.first e.second) := List.countP_pos_iff.2 ⟨e, he, decide_eq_true hal⟩
    have c3 := even g hg
    have c4 : 0 < l1.countP (fun e => RunsAlong g.p g.q e.first e.second) := by
      by_contra hc
      rw [show l1.countP (fun e => RunsAlong g.p g.q e.first e.second) = 0 by omega,
        show l2.countP (fun e => RunsAlong g.p g.q e.first e.second) = 1 by omega] at c3
      exact absurd c3 (by decide)
    obtain ⟨e', he', k⟩ := List.countP_pos_iff.1 c4
    have hm' : (true, e'.first, e'.second) ∈ twoEdges l1 l2 := List.mem_append_left _ (List.mem_map.2 ⟨e', he', rfl⟩)
    have hal' := hD.along hlt hg hmi hm'
    exact ⟨e', he', hal'.2 (hal'.1.1 (of_decide_eq_true k)) z ho⟩

/-- And conversely. -/
theorem no_bounds_of (h : ∀ z, (∃ g ∈ l1, OnSeg g.first g.second z) ↔ ∃ g ∈ l2, OnSeg g.first g.second z) :
    ∀ p q w, ¬ Bounds .xor (twoEdges l1 l2) p q w := by
  rintro p q w ⟨hp, hc, -⟩
  have hlt := twoEdges_lt k1 k2
  obtain ⟨D, hD⟩ := subdivision_exists (twoEdges l1 l2)
  obtain ⟨c, hc', op, oq⟩ := hp.on
  obtain ⟨g, hg, rfl, rfl⟩ := hD.exists (fun c hc => (hlt c hc).ne) hc' hp.lt op oq hp.cp hp.cq
    (fun x hx hb => hp.free x hx ((between_inside hp.lt).2 hb))
  refine hc (xor_changes.2 ?_)
  rw [(twoEdges_along l1 l2 g.p g.q).1, (twoEdges_along l1 l2 g.p g.q).2]
  obtain ⟨m, hmi⟩ := inside_mid hp.lt
  have c1 := along_le_one h1 k1 hp.lt
  have c2 := along_le_one h2 k2 hp.lt
  have e1 : 0 < l1.countP (fun e => RunsAlong g.p g.q e.first e.second) ↔ ∃ e ∈ l1, OnSeg e.first e.second m := by
    rw [List.countP_pos_iff]
    refine exists_congr fun e => and_congr_right fun he => ?_
    rw [decide_eq_true_iff]
    exact (hD.along hlt hg hmi (List.mem_append_left _ (List.mem_map.2 ⟨e, he, rfl⟩) : (true, e.first, e.second) ∈ twoEdges l1 l2)).1
  have e2 : 0 < l2.countP (fun e => RunsAlong g.p g.q e.first e.second) ↔ ∃ e ∈ l2, OnSeg e.first e.second m := by
    rw [List.countP_pos_iff]
    refine exists_congr fun e => and_congr_right fun he => ?_
    rw [decide_eq_true_iff]
    exact (hD.along hlt hg hmi (List.mem_append_right _ (List.mem_map.2 ⟨e, he, rfl⟩) : (false, e.first, e.second) ∈ twoEdges l1 l2)).1
  have e3 := e1.trans ((h m).trans e2.symm)
  have : l1.countP (fun e => RunsAlong g.p g.q e.first e.second) = l2.countP (fun e => RunsAlong g.p g.q e.first e.second) := by omega
  rw [this]
  exact ⟨_, rfl⟩

end

/-! ## Results -/

/-- What is known about the rings of a result. -/
theorem result_edges {ty : OpType} {a b : List (Polygon K)} (ha : ∀ p ∈ a, ∀ ring ∈ ringsOf p, Closed ring) (hb : ∀ p ∈ b, ∀ ring ∈ ringsOf p, Closed ring)
    {na : K → K} {ch : Nat → Nat} {srt : List (Crossing K Nat) → List (Crossing K Nat)} (hst : Stable compareCrossings srt ∨ NoOverlap ((a ++ b).flatMap Spec.ringsOf))
    {fuel : Nat} {rings : List (Ring K)} (h : BoolOp.sweep ty (opEdges a b) na ch srt fuel = some rings) :
    (∀ g ∈ rings, SimpleClosed g.coords) ∧ (edgesOf rings).Pairwise EndsOnly ∧ (∀ g ∈ edgesOf rings, g.first < g.second) ∧
      (∀ p ∈ asPolys rings, ∀ ring ∈ ringsOf p, Closed ring) ∧
      (∀ r, EvenOdd (rings.map (·.coords)) r ↔ inResult ty (decide (EvenOdd (a.flatMap ringsOf) r)) (decide (EvenOdd (b.flatMap ringsOf) r)) = true) ∧
      ∀ z, OnRings (rings.map (·.coords)) z ↔ ∃ g ∈ edgesOf rings, OnSeg g.first g.second z := by
  obtain ⟨N, em, rg, rings1, h1, H, hm, r1, r2, -, -⟩ := sweep_edges ty ha hb na ch hst
  obtain ⟨M, rings2, s1, s2, s3⟩ := sweep_spec ty ha hb na ch hst
  have e := sweep_mono h (N + M)
  have e' := e
  rw [(h1 _ (by omega)).1, Option.some.injEq] at e
  rw [s1 _ (by omega), Option.some.injEq] at e'
  subst e e'
  have hcon := C35_edges_conserved em (fun e he => (H.lt e he).ne) r1 r2
  have hp := edgesOf_perm hcon H.lines
  refine ⟨s2, hp.symm.pairwise hm EndsOnly.symm, ?_, ?_, s3, ?_⟩
  · intro g hg
    obtain ⟨x, hx, rfl⟩ := List.mem_map.1 (hp.mem_iff.1 hg)
    exact H.lt x hx
  · intro p hp ring hr
    obtain ⟨g, hg, rfl⟩ := List.mem_map.1 hp
    have : ring = g.coords := by simpa [ringsOf] using hr
    rw [this]
    exact (s2 g hg).1
  · intro z
    unfold OnRings edgesOf
    constructor
    · rintro ⟨ring, hr, x, hx, hz⟩
      obtain ⟨g, hg, rfl⟩ := List.mem_map.1 hr
      have hne : x.1 ≠ x.2 := consec_ne hcon H.lt g hg x hx
      rcases lt_or_gt_of_ne hne with k | k
      · refine ⟨.line x.1 x.2, List.mem_flatMap.2 ⟨g, hg, List.mem_filterMap.2 ⟨x, hx, ?_⟩⟩, hz⟩
        unfold segBetween; rw [if_pos k]
      · refine ⟨.line x.2 x.1, List.mem_flatMap.2 ⟨g, hg, List.mem_filterMap.2 ⟨x, hx, ?_⟩⟩, onSeg_comm.1 hz⟩
        unfold segBetween; rw [if_neg (_root_.lt_asymm k), if_pos k]
    · rintro ⟨d, hd, hz⟩
      obtain ⟨g, hg, hd⟩ := List.mem_flatMap.1 hd
      obtain ⟨x, hx, hd⟩ := List.mem_filterMap.1 hd
      refine ⟨_, List.mem_map_of_mem hg, x, hx, ?_⟩
      unfold segBetween at hd
      split at hd
      · rw [Option.some.injEq] at hd; rw [← hd] at hz; exact hz
      · split at hd
        · rw [Option.some.injEq] at hd; rw [← hd] at hz; exact onSeg_comm.1 hz
        · cases hd

/-- Rings that are simple, and whose sides meet in ends only, have the same points inside exactly if they have the same points on their sides. -/
theorem rings_same {rings rings' : List (Ring K)} (s1 : ∀ g ∈ rings, SimpleClosed g.coords) (s2 : (edgesOf rings).Pairwise EndsOnly)
    (s3 : ∀ g ∈ edgesOf rings, g.first < g.second) (s4 : ∀ p ∈ asPolys rings, ∀ ring ∈ ringsOf p, Closed ring)
    (s6 : ∀ z, OnRings (rings.map (·.coords)) z ↔ ∃ g ∈ edgesOf rings, OnSeg g.first g.second z)
    (t1 : ∀ g ∈ rings', SimpleClosed g.coords) (t2 : (edgesOf rings').Pairwise EndsOnly)
    (t3 : ∀ g ∈ edgesOf rings', g.first < g.second) (t4 : ∀ p ∈ asPolys rings', ∀ ring ∈ ringsOf p, Closed ring)
    (t6 : ∀ z, OnRings (rings'.map (·.coords)) z ↔ ∃ g ∈ edgesOf rings', OnSeg g.first g.second z) :
    (∀ r, EvenOdd (rings.map (·.coords)) r ↔ EvenOdd (rings'.map (·.coords)) r) ↔
    ∀ z, OnRings (rings.map (·.coords)) z ↔ OnRings (rings'.map (·.coords)) z := by
  have o1 := outline_of_rings (a := asPolys rings) (by rw [asPolys_rings]) s1
  have o2 := outline_of_rings (a := asPolys rings') (by rw [asPolys_rings]) t1
  have hpl : (plain (opEdges (asPolys rings) (asPolys rings'))).Perm (twoEdges (edgesOf rings) (edgesOf rings')) := by
    rw [plain_opEdges]
    exact (o1.map _).append (o2.map _)
  obtain ⟨N, em, rg, rings2, h1, H, hm, r1, r2, hbd, -⟩ := sweep_edges .xor s4 t4 id (fun _ => 0) (.inl (id_stable _))
  have hx := C83_equal s4 t4 (.inl (id_stable _)) (h1 N (le_refl _)).1
  rw [asPolys_rings, asPolys_rings] at hx
  have hem : rings2 = [] ↔ em = [] := by
    have hp := edgesOf_perm (C35_edges_conserved em (fun e he => (H.lt e he).ne) r1 r2) H.lines
    constructor
    · rintro rfl
      have : em.map (·.1) = [] := by simpa [edgesOf] using hp.symm.eq_nil
      simpa using this
    · rintro rfl
      have : rg = Rings.default := (Option.some.inj r1).symm
      subst this
      exact (Option.some.inj r2).symm
  have hnb : em = [] ↔ ∀ p q w, ¬ Bounds .xor (twoEdges (edgesOf rings) (edgesOf rings')) p q w := by
    constructor
    · rintro rfl p q w k
      exact absurd ((hbd (.line p q, w)).2 ⟨p, q, rfl, bounds_perm hpl.symm k⟩) (by simp)
    · intro k
      rw [List.eq_nil_iff_forall_not_mem]
      intro e he
      obtain ⟨p, q, -, k'⟩ := (hbd e).1 he
      exact k p q _ (bounds_perm hpl k')
  rw [← hx, hem, hnb]
  constructor
  · intro k z
    rw [s6 z, t6 z]
    exact same_points_of s2 t2 s3 t3 k z
  · intro k
    refine no_bounds_of s2 t2 s3 t3 fun z => ?_
    rw [← s6 z, ← t6 z]
    exact k z

/-- **C84.** The results of two boolean operations, of any kind and on any operands, have the same points inside exactly if their rings have the
same points on their sides. They can differ only in the points at which a straight part of the boundary is divided, and in how
the sides that meet at a point are joined to rings. -/
theorem C84_boundary {ty ty' : OpType} {a b a' b' : List (Polygon K)} (ha : ∀ p ∈ a, ∀ ring ∈ ringsOf p, Closed ring) (hb : ∀ p ∈ b, ∀ ring ∈ ringsOf p, Closed ring)
    (ha' : ∀ p ∈ a', ∀ ring ∈ ringsOf p, Closed ring) (hb' : ∀ p ∈ b', ∀ ring ∈ ringsOf p, Closed ring)
    {na na' : K → K} {ch ch' : Nat → Nat} {srt srt' : List (Crossing K Nat) → List (Crossing K Nat)}
    (hst : Stable compareCrossings srt ∨ NoOverlap ((a ++ b).flatMap Spec.ringsOf)) (hst' : Stable compareCrossings srt' ∨ NoOverlap ((a' ++ b').flatMap Spec.ringsOf))
    {fuel fuel' : Nat} {rings rings' : List (Ring K)} (h : BoolOp.sweep ty (opEdges a b) na ch srt fuel = some rings)
    (h' : BoolOp.sweep ty' (opEdges a' b') na' ch' srt' fuel' = some rings') :
    (∀ r, inResult ty (decide (EvenOdd (a.flatMap ringsOf) r)) (decide (EvenOdd (b.flatMap ringsOf) r)) =
      inResult ty' (decide (EvenOdd (a'.flatMap ringsOf) r)) (decide (EvenOdd (b'.flatMap ringsOf) r))) ↔
    ∀ z, OnRings (rings.map (·.coords)) z ↔ OnRings (rings'.map (·.coords)) z := by
  obtain ⟨s1, s2, s3, s4, s5, s6⟩ := result_edges ha hb hst h
  obtain ⟨t1, t2, t3, t4, t5, t6⟩ := result_edges ha' hb' hst' h'
  rw [← rings_same s1 s2 s3 s4 s6 t1 t2 t3 t4 t6]
  refine forall_congr' fun r => ?_
  rw [s5 r, t5 r, Bool.eq_iff_iff]

/-! ## Examples -/

set_option synthInstance.maxSize 1024 in
/-- The triangle `triA` and the same triangle with more vertices: the results of the operations have different rings, ... -/
example : (BoolOp.sweep .union (opEdges triA []) id (fun _ => 0) id 60).map (·.map (·.coords)) = some [[⟨0, 0⟩, ⟨0, 4⟩, ⟨4, 0⟩, ⟨0, 0⟩]] ∧
    (BoolOp.sweep .difference (opEdges triASub []) id (fun _ => 0) id 60).map (·.map (·.coords)) =
      some [[⟨2, 0⟩, ⟨0, 0⟩, ⟨0, 1⟩, ⟨0, 4⟩, ⟨2, 2⟩, ⟨4, 0⟩, ⟨2, 0⟩]] := by
  decide +kernel

/-- ... with the same points on their sides. -/
example {rings rings' : List (Ring ℚ)} (h : BoolOp.sweep .union (opEdges triA []) id (fun _ => 0) id 60 = some rings)
    (h' : BoolOp.sweep .difference (opEdges triASub []) id (fun _ => 0) id 60 = some rings') (z : Pt ℚ) :
    OnRings (rings.map (·.coords)) z ↔ OnRings (rings'.map (·.coords)) z := by
  refine (C84_boundary (a := triA) (b := []) (a' := triASub) (b' := []) (by decide +kernel) (by simp) (by decide +kernel) (by simp)
    (.inl (id_stable _)) (.inl (id_stable _)) h h').1 (fun r => ?_) z
  have : ¬ EvenOdd ([] : List (List (Pt ℚ))) r := by simp [EvenOdd, edgesBelow]
  simp [inResult, triASub_same r, this]

end GeoCrossings
