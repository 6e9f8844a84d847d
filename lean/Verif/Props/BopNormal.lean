import Verif.Props.BopAlgebra
import Verif.Props.BopDebugSound

/-! # C81: the results of boolean operations are in normal form -/
set_option linter.unusedSectionVars false
namespace GeoCrossings
open Spec BoolOp Rings

variable {K : Type} [Field K] [LinearOrder K] [IsStrictOrderedRing K]

/-! ## Edges that meet in their ends only -/

theorem endsOnly_of {O : List (LineOrPoint K)} (hpw : O.Pairwise EndsOnly) {g d : LineOrPoint K} (hg : g ∈ O) (hd : d ∈ O) (hne : d ≠ g) : EndsOnly d g := by
  have : Std.Symm (EndsOnly (K := K)) := ⟨fun _ _ h => h.symm⟩
  exact hpw.forall hd hg hne

/-- Their critical points are their ends. -/
theorem critical_ends {O : List (LineOrPoint K)} (hlt : ∀ g ∈ O, g.first < g.second) (hpw : O.Pairwise EndsOnly) {g : LineOrPoint K} (hg : g ∈ O)
    {r : Pt K} (hr : Critical (O.map fun g => (⟨g.first, g.second⟩ : Line K)) r) (ho : OnSeg g.first g.second r) : r = g.first ∨ r = g.second := by
  rcases end_or_inside (hlt g hg) ho with k | k | k
  · exact .inl k
  · exact .inr k
  · exfalso
    have other : ∀ d ∈ O, OnSeg d.first d.second r → d = g := by
      intro d hd hdr
      by_contra hne
      exact (endsOnly_of hpw hg hd hne r hdr ho).2 k
    rcases hr with ⟨l, hl, hle⟩ | ⟨l1, hl1, l2, hl2, hm⟩
    · obtain ⟨d, hd, rfl⟩ := List.mem_map.1 hl
      have hdr : OnSeg d.first d.second r := by
        rcases hle with rfl | rfl
        · exact onSeg_left _ _
        · exact onSeg_right _ _
      have := other d hd hdr
      subst this
      rcases hle with rfl | rfl
      · exact lt_irrefl _ k.1
      · exact lt_irrefl _ k.2.1
    · obtain ⟨d1, hd1, rfl⟩ := List.mem_map.1 hl1
      obtain ⟨d2, hd2, rfl⟩ := List.mem_map.1 hl2
      have h := (hm r).2 rfl
      have k1 := other d1 hd1 h.1
      have k2 := other d2 hd2 h.2
      subst k1; subst k2
      have h1 := (hm d2.first).1 ⟨onSeg_left _ _, onSeg_left _ _⟩
      exact lt_irrefl _ (h1 ▸ k.1)

theorem det_onSeg_of {a b p q m : Pt K} (h : OnSeg p q m) (hp : det a b p = 0) (hq : det a b q = 0) : det a b m = 0 := by
  obtain ⟨t, -, -, hx, hy⟩ := h
  unfold det at *
  rw [hx, hy]
  linear_combination (1 - t) * hp + t * hq

/-- Only one of them runs along itself. -/
theorem along_self {O : List (LineOrPoint K)} (hlt : ∀ g ∈ O, g.first < g.second) (hpw : O.Pairwise EndsOnly) {g d : LineOrPoint K} (hg : g ∈ O)
    (hd : d ∈ O) (h : RunsAlong g.first g.second d.first d.second) : d = g := by
  by_contra hne
  obtain ⟨h1, h2, h3, h4⟩ := h
  have hdl := hlt d hd
  obtain ⟨m, hmid⟩ := inside_mid (max_lt h1 (hlt g hg))
  have hp : det d.first d.second (max d.first g.first) = 0 := by
    rcases max_choice d.first g.first with e | e <;> rw [e]
    · unfold det; ring
    · exact h4
  have hdm : OnSeg d.first d.second m :=
    (onSeg_iff hdl).2 ⟨det_onSeg_of hmid.onSeg hp h3, ((le_max_left _ _).trans_lt hmid.1).le, (hmid.2.1.trans_le h2).le⟩
  obtain ⟨c1, c2⟩ := collinear_comm hdl ⟨h4, h3⟩
  have hgm : Inside g.first g.second m := ⟨(le_max_right _ _).trans_lt hmid.1, hmid.2.1, det_onSeg_of hdm c1 c2⟩
  exact (endsOnly_of hpw hg hd hne m hdm hgm.onSeg).2 hgm

theorem self_along (p q : Pt K) (h : p < q) : RunsAlong p q p q := ⟨h, le_rfl, by unfold det; ring, by unfold det; ring⟩

theorem outline_lt {a : List (Polygon K)} : ∀ g ∈ outline a, ∃ p q, g = .line p q ∧ p < q := by
  intro g hg
  obtain ⟨r, -, hr⟩ := List.mem_flatMap.1 hg
  obtain ⟨x, y, k1, k2, -⟩ := mem_properEdges hr
  exact ⟨x, y, k1, k2⟩

/-- If the edges of the operand meet in their ends only, they are the edges of its normal form. -/
theorem normal_bounds {a : List (Polygon K)} (hpw : (outline a).Pairwise EndsOnly) (p q : Pt K) :
    (∃ w, Bounds .union (plain (opEdges a [])) p q w) ↔ .line p q ∈ outline a := by
  have hl : ∀ g ∈ outline a, g.first < g.second := by
    intro g hg
    obtain ⟨x, y, rfl, k⟩ := outline_lt g hg
    exact k
  have hpl : (plain (opEdges a [])).map (fun e => (⟨e.2.1, e.2.2⟩ : Line K)) = (outline a).map fun g => (⟨g.first, g.second⟩ : Line K) := by
    rw [plain_opEdges]
    simp [outline, Function.comp_def]
  constructor
  · rintro ⟨w, ⟨hpq, ⟨e, he, o1, o2⟩, cp, cq, -⟩, -, -⟩
    rw [hpl] at cp cq
    obtain ⟨g, hg, rfl⟩ : ∃ g ∈ outline a, e = (true, g.first, g.second) := by
      rw [plain_opEdges] at he
      have h0 : outline ([] : List (Polygon K)) = [] := rfl
      rw [h0, List.map_nil, List.append_nil] at he
      obtain ⟨g, hg, rfl⟩ := List.mem_map.1 he
      exact ⟨g, hg, rfl⟩
    simp only at o1 o2
    have hgl := hl g hg
    have e1 := critical_ends hl hpw hg cp o1
    have e2 := critical_ends hl hpw hg cq o2
    obtain ⟨x, y, rfl, -⟩ := outline_lt g hg
    simp only [LineOrPoint.first, LineOrPoint.second] at e1 e2 hgl
    rcases e1 with rfl | rfl <;> rcases e2 with rfl | rfl
    · exact absurd hpq (lt_irrefl _)
    · exact hg
    · exact absurd hpq (_root_.lt_asymm hgl)
    · exact absurd hpq (lt_irrefl _)
  · intro hg
    have hpq : p < q := hl _ hg
    have hmem : (true, p, q) ∈ plain (opEdges a []) := by
      rw [plain_opEdges]
      exact List.mem_append_left _ (List.mem_map.2 ⟨_, hg, rfl⟩)
    have hml : (⟨p, q⟩ : Line K) ∈ (outline a).map fun g => (⟨g.first, g.second⟩ : Line K) := List.mem_map.2 ⟨_, hg, rfl⟩
    refine ⟨_, ⟨hpq, ⟨_, hmem, onSeg_left _ _, onSeg_right _ _⟩, ?_, ?_, ?_⟩, ?_, rfl⟩
    · rw [hpl]; exact .inl ⟨_, hml, .inl rfl⟩
    · rw [hpl]; exact .inl ⟨_, hml, .inr rfl⟩
    · intro x hx hb
      rw [hpl] at hx
      rcases critical_ends hl hpw hg hx hb.1 with k | k
      · exact hb.2.1 k
      · exact hb.2.2 k
    · have hnd : (outline a).Nodup := by
        refine hpw.imp_of_mem ?_
        rintro x y hx - hxy rfl
        obtain ⟨m, hm⟩ := inside_mid (hl x hx)
        exact (hxy m hm.onSeg hm.onSeg).1 hm
      have hone : (outline a).countP (fun g => RunsAlong p q g.first g.second) = 1 := by
        rw [← List.count_eq_one_of_mem hnd hg, List.count]
        refine List.countP_congr fun d hd => ?_
        rw [decide_eq_true_iff, beq_iff_eq]
        constructor
        · exact fun k => along_self hl hpw hg hd k
        · rintro rfl; exact self_along p q hpq
      have h0 : outline ([] : List (Polygon K)) = [] := rfl
      rw [(result_op _ _ _ _ _).1, (result_op _ _ _ _ _).2, hone, h0]
      simp only [inResult, List.countP_nil, Nat.add_zero, Nat.odd_add_one]
      by_cases hx : Odd ((outline a).countP fun g => decide (RunsBelow p q g.first g.second)) <;> simp [hx]

/-- The windings of the edges of a result are determined by the edges. -/
theorem windings_unique {em em' : List (LineOrPoint K × Winding)} (H : Emitted em) (H' : Emitted em') (h : (em.map (·.1)).Perm (em'.map (·.1))) :
    ∀ e ∈ em, e ∈ em' := by
  intro e he
  obtain ⟨b, S, s1, s2, s3, -, s5⟩ := H.vertex e.1.first
  obtain ⟨b', S', t1, t2, t3, -, t5⟩ := H'.vertex e.1.first
  have hf : ∀ (P : LineOrPoint K → Bool) (l : List (LineOrPoint K × Winding)), (l.filter fun e => P e.1).map (·.1) = (l.map (·.1)).filter P := by
    intro P l
    rw [List.filter_map]; rfl
  have hS : S.map (·.1) = S'.map (·.1) := by
    refine List.Perm.eq_of_pairwise (le := fun a b : LineOrPoint K => 0 < det e.1.first a.second b.second) (fun a b _ _ h1 h2 => ?_)
      (List.pairwise_map.2 s2) (List.pairwise_map.2 t2) ?_
    · exfalso
      rw [det_neg'] at h2
      linarith
    · refine (s1.map _).trans (List.Perm.trans ?_ (t1.map _).symm)
      rw [hf fun g => decide (g.first = e.1.first), hf fun g => decide (g.first = e.1.first)]
      exact h.filter _
  have hc : em.countP (edgeUnder e.1.first) = em'.countP (edgeUnder e.1.first) := by
    have : ∀ l : List (LineOrPoint K × Winding), l.countP (edgeUnder e.1.first) =
        (l.map (·.1)).countP fun g => decide (Under e.1.first g.first g.second) := by
      intro l; rw [List.countP_map]; rfl
    rw [this, this, h.countP_eq]
  have he' : ∃ e' ∈ em', e'.1 = e.1 := by
    have := h.mem_iff.1 (List.mem_map_of_mem he)
    obtain ⟨e', k1, k2⟩ := List.mem_map.1 this
    exact ⟨e', k1, k2⟩
  have hb : b = b' := by
    have x := s5 ⟨e, he, .inl rfl⟩
    obtain ⟨e', k1, k2⟩ := he'
    have y := t5 ⟨e', k1, .inl (by rw [k2])⟩
    rw [hc] at x
    have := x.trans y.symm
    cases b <;> cases b' <;> simp_all
  subst hb
  have alt : ∀ {b : Bool} {S S' : List (LineOrPoint K × Winding)}, S.map (·.1) = S'.map (·.1) → Alt b (S.map (·.2)) → Alt b (S'.map (·.2)) → S = S' := by
    intro b S
    induction S generalizing b with
    | nil => intro S' h _ _; cases S' with
      | nil => rfl
      | cons => simp at h
    | cons x S ih =>
      intro S' h h1 h2
      cases S' with
      | nil => simp at h
      | cons y S' =>
        rw [List.map_cons, List.map_cons, List.cons.injEq] at h
        obtain ⟨k1, k2⟩ := h1
        obtain ⟨l1, l2⟩ := h2
        rw [ih h.2 k2 l2]
        congr 1
        exact Prod.ext h.1 (k1.trans l1.symm)
  have hSS := alt hS s3 t3
  have : e ∈ S := s1.mem_iff.2 (List.mem_filter.2 ⟨he, by simp⟩)
  rw [hSS] at this
  exact (List.mem_filter.1 (t1.mem_iff.1 this)).1

/-- Rings as polygons without holes. -/
def asPolys (rings : List (Ring K)) : List (Polygon K) := rings.map fun g => ⟨g.coords, []⟩

theorem asPolys_rings (rings : List (Ring K)) : (asPolys rings).flatMap ringsOf = rings.map (·.coords) := by
  unfold asPolys ringsOf
  induction rings with
  | nil => rfl
  | cons g l ih => rw [List.map_cons, List.flatMap_cons, ih]; rfl

theorem outline_of_rings {a : List (Polygon K)} {rings : List (Ring K)} (hp : (a.flatMap ringsOf).Perm (rings.map (·.coords)))
    (h : ∀ g ∈ rings, SimpleClosed g.coords) : (outline a).Perm (edgesOf rings) := by
  unfold outline edgesOf
  refine ((hp.filter _).flatMap_right _).trans (List.Perm.of_eq ?_)
  have : (rings.map (·.coords)).filter (fun r => decide (3 < r.length)) = rings.map (·.coords) := by
    rw [List.filter_eq_self]
    intro r hr
    obtain ⟨g, hg, rfl⟩ := List.mem_map.1 hr
    have := (h g hg).2.2
    exact decide_eq_true (by omega)
  rw [this, List.flatMap_map]

/-- Edges that meet in their ends only do not overlap. -/
theorem noOverlap_of {rings : List (List (Pt K))} (h : (rings.flatMap properEdges).Pairwise EndsOnly) : NoOverlap rings := by
  unfold NoOverlap
  have e : rings.flatMap properEdges = (rings.flatMap Spec.ringEdges).filterMap fun x => segBetween x.1 x.2 := by
    rw [List.filterMap_flatMap]; rfl
  rw [e, List.pairwise_filterMap] at h
  refine h.imp ?_
  rintro ⟨u, v⟩ ⟨u', v'⟩ hh
  have key : ∀ x y, x < y → OnSeg u v x → OnSeg u v y → OnSeg u' v' x → OnSeg u' v' y → False := by
    intro x y hxy h1 h2 h3 h4
    have hs : ∀ {u v : Pt K}, OnSeg u v x → OnSeg u v y → ∃ g, segBetween u v = some g ∧ g.first < g.second ∧ OnSeg g.first g.second x ∧ OnSeg g.first g.second y := by
      intro u v k1 k2
      unfold segBetween
      rcases lt_trichotomy u v with k | k | k
      · exact ⟨_, if_pos k, k, k1, k2⟩
      · subst k
        have a1 := onSeg_self.1 k1
        have a2 := onSeg_self.1 k2
        exact absurd (a1.trans a2.symm) hxy.ne
      · rw [if_neg (_root_.lt_asymm k), if_pos k]
        exact ⟨_, rfl, k, onSeg_comm.1 k1, onSeg_comm.1 k2⟩
    obtain ⟨g, g1, g2, g3, g4⟩ := hs h1 h2
    obtain ⟨d, d1, d2, d3, d4⟩ := hs h3 h4
    obtain ⟨m, hm⟩ := inside_mid hxy
    have on : ∀ {g : LineOrPoint K}, g.first < g.second → OnSeg g.first g.second x → OnSeg g.first g.second y → Inside g.first g.second m := by
      intro g k k1 k2
      have a1 := (onSeg_iff k).1 k1
      have a2 := (onSeg_iff k).1 k2
      exact ⟨a1.2.1.trans_lt hm.1, hm.2.1.trans_le a2.2.2, det_onSeg_of hm.onSeg a1.1 a2.1⟩
    exact (hh g g1 d d1 m (on g2 g3 g4).onSeg (on d2 d3 d4).onSeg).1 (on g2 g3 g4)
  intro x y h1 h2 h3 h4
  rcases lt_trichotomy x y with k | k | k
  · exact (key x y k h1 h2 h3 h4).elim
  · exact k
  · exact (key y x k h2 h1 h4 h3).elim

/-- **C81 (no overlaps).** No two edges of the rings that `Op::sweep` returns overlap, so that the result can be an operand without any
condition on the sort. -/
theorem C81_no_overlap {ty : OpType} {a b : List (Polygon K)} (ha : ∀ p ∈ a, ∀ ring ∈ ringsOf p, Closed ring) (hb : ∀ p ∈ b, ∀ ring ∈ ringsOf p, Closed ring)
    {na : K → K} {ch : Nat → Nat} {srt : List (Crossing K Nat) → List (Crossing K Nat)} (hst : Stable compareCrossings srt ∨ NoOverlap ((a ++ b).flatMap Spec.ringsOf))
    {fuel : Nat} {rings : List (Ring K)} (hr : BoolOp.sweep ty (opEdges a b) na ch srt fuel = some rings) : NoOverlap (rings.map (·.coords)) := by
  obtain ⟨N, em, rg, rings1, h1, H, hm, r1, r2, -, -⟩ := sweep_edges ty ha hb na ch hst
  have e := sweep_mono hr N
  rw [(h1 _ (by omega)).1, Option.some.injEq] at e
  subst e
  refine noOverlap_of ?_
  rw [List.flatMap_map]
  exact (edgesOf_perm (C35_edges_conserved em (fun e he => (H.lt e he).ne) r1 r2) H.lines).symm.pairwise hm EndsOnly.symm

/-- **C81.** The rings of a result are in normal form: if a multipolygon has the rings that `Op::sweep` returned, then its union with the
empty multipolygon, and the other operations that keep its region, return the very same rings, in any run. -/
theorem C81_normal {ty : OpType} {a b : List (Polygon K)} (ha : ∀ p ∈ a, ∀ ring ∈ ringsOf p, Closed ring) (hb : ∀ p ∈ b, ∀ ring ∈ ringsOf p, Closed ring)
    {na : K → K} {ch : Nat → Nat} {srt : List (Crossing K Nat) → List (Crossing K Nat)} (hst : Stable compareCrossings srt ∨ NoOverlap ((a ++ b).flatMap Spec.ringsOf))
    {fuel : Nat} {rings : List (Ring K)} (hr : BoolOp.sweep ty (opEdges a b) na ch srt fuel = some rings)
    {c : List (Polygon K)} (hc : (c.flatMap ringsOf).Perm (rings.map (·.coords))) {ty' : OpType} {a' b' : List (Polygon K)} (hk : Keeps c ty' a' b')
    (na' : K → K) (ch' : Nat → Nat) {srt' : List (Crossing K Nat) → List (Crossing K Nat)}
    (hst' : Stable compareCrossings srt' ∨ NoOverlap ((a' ++ b').flatMap Spec.ringsOf)) :
    ∃ N, ∀ fuel', N ≤ fuel' → BoolOp.sweep ty' (opEdges a' b') na' ch' srt' fuel' = some rings := by
  obtain ⟨N, em, rg, rings1, h1, H, hm, r1, r2, h2, h3⟩ := sweep_edges ty ha hb na ch hst
  have e := sweep_mono hr N
  rw [(h1 _ (by omega)).1, Option.some.injEq] at e
  subst e
  have hsc := C37_rings_simple em (fun e he => (H.lt e he).ne) r1 r2
  have hcc : ∀ p ∈ c, ∀ ring ∈ ringsOf p, Closed ring := by
    intro p hp ring hring
    obtain ⟨g, hg, rfl⟩ := List.mem_map.1 (hc.mem_iff.1 (List.mem_flatMap.2 ⟨p, hp, hring⟩))
    exact (hsc g hg).1
  have hO : (outline c).Perm (em.map (·.1)) :=
    (outline_of_rings hc hsc).trans (edgesOf_perm (C35_edges_conserved em (fun e he => (H.lt e he).ne) r1 r2) H.lines)
  have hpw : (outline c).Pairwise EndsOnly := hO.symm.pairwise hm EndsOnly.symm
  obtain ⟨ca, cb⟩ := hk.closed hcc
  obtain ⟨N', em', rg', rings', h1', H', hm', r1', r2', h2', h3'⟩ := sweep_edges ty' ca cb na' ch' hst'
  have hg : ∀ g, g ∈ em'.map (·.1) ↔ g ∈ em.map (·.1) := by
    intro g
    rw [← hO.mem_iff]
    constructor
    · intro k
      obtain ⟨e, he, rfl⟩ := List.mem_map.1 k
      obtain ⟨p, q, e1, e2⟩ := (h2' e).1 he
      rw [e1]
      exact (normal_bounds hpw p q).1 ⟨_, (hk.bounds p q _).1 e2⟩
    · intro k
      obtain ⟨p, q, rfl, -⟩ := outline_lt g k
      obtain ⟨w, hw⟩ := (normal_bounds hpw p q).2 k
      exact List.mem_map.2 ⟨(.line p q, w), (h2' _).2 ⟨p, q, rfl, (hk.bounds p q w).2 hw⟩, rfl⟩
  have nd : ∀ {l : List (LineOrPoint K × Winding)}, l.Pairwise (fun x y => EdgeBefore x.1 y.1) → (l.map (·.1)).Nodup := by
    intro l hl
    refine List.pairwise_map.2 (hl.imp ?_)
    intro x y hxy e
    rw [e] at hxy
    exact hxy.asymm hxy
  have hperm : (em'.map (·.1)).Perm (em.map (·.1)) := (List.perm_ext_iff_of_nodup (nd h3') (nd h3)).2 hg
  have heq : em' = em := edges_unique h3' h3 fun e => ⟨windings_unique H' H hperm e, windings_unique H H' hperm.symm e⟩
  subst heq
  rw [r1, Option.some.injEq] at r1'
  subst r1'
  rw [r2, Option.some.injEq] at r2'
  subst r2'
  exact ⟨N', fun fuel' hf => (h1' fuel' hf).1⟩

/-- **C81 (`boolean_op`).** If `boolean_op` returned `polys` in a build with debug assertions, then the union of `polys` with the empty
multipolygon, the intersection of `polys` with itself, and the other operations that keep its region, return the very polygons `polys`. -/
theorem C81_boolean_op {ty : OpType} {a b : List (Polygon K)} (ha : ∀ p ∈ a, ∀ ring ∈ ringsOf p, Closed ring) (hb : ∀ p ∈ b, ∀ ring ∈ ringsOf p, Closed ring)
    {na : K → K} {ch : Nat → Nat} {srt srt2 : List (Crossing K Nat) → List (Crossing K Nat)}
    (hst : Stable compareCrossings srt ∨ NoOverlap ((a ++ b).flatMap Spec.ringsOf)) {fuel : Nat} {polys : List (Polygon K)}
    (h : booleanOpDebug a b ty na ch srt srt2 fuel = some polys) {ty' : OpType} {a' b' : List (Polygon K)} (hk : Keeps polys ty' a' b')
    (na' : K → K) (ch' : Nat → Nat) {srt' : List (Crossing K Nat) → List (Crossing K Nat)} (srt2' : List (Crossing K Nat) → List (Crossing K Nat))
    (hst' : Stable compareCrossings srt' ∨ NoOverlap ((a' ++ b').flatMap Spec.ringsOf)) :
    ∃ N, ∀ fuel', N ≤ fuel' → booleanOp a' b' ty' na' ch' srt' srt2' fuel' = some polys := by
  have e1 : (addMultiPolygon [] a true).bind (fun es => addMultiPolygon es b false) = some (opEdges a b) := opEdges_eq ha hb
  obtain ⟨es1, q1, q2⟩ := Option.bind_eq_some_iff.1 e1
  unfold booleanOpDebug at h
  rw [q1, Option.bind_some, q2, Option.bind_some] at h
  obtain ⟨rings, d1, d2⟩ := Option.bind_eq_some_iff.1 h
  obtain ⟨par, d3, d4⟩ := Option.bind_eq_some_iff.1 d2
  obtain ⟨N, em, rg, k, H, hm, r1, r2, hpa, -⟩ := sweepDebug_run ty ha hb hst d1
  obtain ⟨N1, parents, k1, k2⟩ := findParents_of H hm r1 r2 hpa srt2 na ch
  obtain ⟨N2, parents', k3⟩ := findParents_same H hm r1 r2 srt2 srt2' na na' ch ch'
  have d5 := Laminar.findParents_mono (Laminar.findParents_le d3) N1
  rw [k1 _ (Nat.le_add_left _ _), Option.some.injEq] at d5
  subst d5
  have d6 := (k3 (max N1 N2) (by omega)).1
  rw [k1 _ (by omega), Option.some.injEq] at d6
  subst d6
  rw [Laminar.C39_each_ring_once rings parents k2, Option.some.injEq] at d4
  subst d4
  have hp := Laminar.C39_conserved rings parents k2
  obtain ⟨N3, j⟩ := C81_normal ha hb hst (k N le_rfl).1 hp hk na' ch' hst'
  have hsc := C37_rings_simple em (fun e he => (H.lt e he).ne) r1 r2
  obtain ⟨ca, cb⟩ := hk.closed fun p hp' ring hring => by
    obtain ⟨g, hg, rfl⟩ := List.mem_map.1 (hp.mem_iff.1 (List.mem_flatMap.2 ⟨p, hp', hring⟩))
    exact (hsc g hg).1
  have e2 : (addMultiPolygon [] a' true).bind (fun es => addMultiPolygon es b' false) = some (opEdges a' b') := opEdges_eq ca cb
  obtain ⟨es2, q3, q4⟩ := Option.bind_eq_some_iff.1 e2
  refine ⟨max N2 N3, fun fuel' hf => ?_⟩
  unfold booleanOp Laminar.assemble
  rw [q3, Option.bind_some, q4, Option.bind_some, j fuel' (by omega), Option.bind_some, (k3 fuel' (by omega)).2, Option.bind_some]
  exact Laminar.C39_each_ring_once rings parents k2

/-! ## Examples -/

/-- The difference of the triangles `triA` and `triB`. -/
def triDiff : List (Polygon ℚ) := [⟨[⟨0, 0⟩, ⟨0, 4⟩, ⟨1, 3⟩, ⟨1, 1⟩, ⟨3, 1⟩, ⟨4, 0⟩, ⟨0, 0⟩], []⟩]

set_option synthInstance.maxSize 1024 in
/-- The difference of two triangles that cross is one polygon of six corners; its union with the empty multipolygon and its intersection
with itself are the same polygon, with the same first corner. -/
example : booleanOpDebug triA triB .difference id (fun _ => 0) id id 60 =
      some triDiff ∧
    booleanOp triDiff [] .union id (fun n => n + 1) id id 60 =
      some triDiff := by
  decide +kernel

/-- A triangle that is not in normal form, as its ring starts at another corner. -/
def bentTri : List (Polygon ℚ) := [⟨[⟨4, 0⟩, ⟨0, 0⟩, ⟨0, 4⟩, ⟨4, 0⟩], []⟩]

set_option synthInstance.maxSize 1024 in
example : booleanOp bentTri [] .union id (fun _ => 0) id id 40 ≠ some bentTri ∧
    ((booleanOp bentTri [] .union id (fun _ => 0) id id 40).bind fun c => booleanOp c c .intersection id (fun _ => 0) id id 60) =
      booleanOp bentTri [] .union id (fun _ => 0) id id 40 := by
  decide +kernel

end GeoCrossings
