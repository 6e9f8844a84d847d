import Verif.Props.BopBoundary
import Verif.Props.Deterministic
import Verif.Lemmas.OffSides

/-! # C90: rotating, reflecting, scaling, shearing or moving the operands does the same to the result -/
set_option linter.unusedSectionVars false
namespace GeoCrossings
open Spec BoolOp Rings

variable {K : Type} [Field K] [LinearOrder K] [IsStrictOrderedRing K]

/-! ## Images -/

theorem polys_rings (T : Affine K) (a : List (Polygon K)) : (T.polys a).flatMap ringsOf = T.rings (a.flatMap ringsOf) := by
  unfold Affine.polys Affine.rings
  induction a with
  | nil => rfl
  | cons p a ih => rw [List.map_cons, List.flatMap_cons, List.flatMap_cons, List.map_append, ih]; rfl

theorem rings_mem {T : Affine K} {R : List (List (Pt K))} {l : List (Pt K)} : l ∈ T.rings R ↔ ∃ l' ∈ R, l'.map T.app = l := List.mem_map

theorem rings_edges (T : Affine K) (R : List (List (Pt K))) : (T.rings R).flatMap ringEdges = (R.flatMap ringEdges).map fun e => (T.app e.1, T.app e.2) := by
  unfold Affine.rings ringEdges
  induction R with
  | nil => rfl
  | cons l R ih => rw [List.map_cons, List.flatMap_cons, List.flatMap_cons, List.map_append, ih, zip_map_tail]

theorem polys_closed {T : Affine K} {a : List (Polygon K)} (h : ∀ p ∈ a, ∀ ring ∈ ringsOf p, Closed ring) : ∀ p ∈ T.polys a, ∀ ring ∈ ringsOf p, Closed ring := by
  intro p hp ring hr
  have : ring ∈ (T.polys a).flatMap ringsOf := List.mem_flatMap.2 ⟨p, hp, hr⟩
  rw [polys_rings, rings_mem] at this
  obtain ⟨l, hl, rfl⟩ := this
  obtain ⟨p', h1, h2⟩ := List.mem_flatMap.1 hl
  unfold Closed
  rw [List.head?_map, List.getLast?_map, h p' h1 l h2]

theorem onRings_edges {R : List (List (Pt K))} {z : Pt K} : OnRings R z ↔ ∃ e ∈ R.flatMap ringEdges, OnSeg e.1 e.2 z := by
  constructor
  · rintro ⟨l, hl, e, he, h⟩
    exact ⟨e, List.mem_flatMap.2 ⟨l, hl, he⟩, h⟩
  · rintro ⟨e, he, h⟩
    obtain ⟨l, hl, he⟩ := List.mem_flatMap.1 he
    exact ⟨l, hl, e, he, h⟩

theorem onRings_map (T : Affine K) {R : List (List (Pt K))} {z : Pt K} : OnRings (T.rings R) (T.app z) ↔ OnRings R z := by
  rw [onRings_edges, onRings_edges, rings_edges]
  constructor
  · rintro ⟨e, he, h⟩
    obtain ⟨e', h1, rfl⟩ := List.mem_map.1 he
    exact ⟨e', h1, (T.onSeg _ _ _).1 h⟩
  · rintro ⟨e, he, h⟩
    exact ⟨_, List.mem_map_of_mem he, (T.onSeg _ _ _).2 h⟩

theorem noOverlap_map (T : Affine K) {R : List (List (Pt K))} (h : NoOverlap R) : NoOverlap (T.rings R) := by
  unfold NoOverlap at h ⊢
  rw [rings_edges, List.pairwise_map]
  refine h.imp fun {e e'} k x y h1 h2 h3 h4 => ?_
  rw [← T.app_inv x, T.onSeg] at h1 h3
  rw [← T.app_inv y, T.onSeg] at h2 h4
  have := k _ _ h1 h2 h3 h4
  rw [← T.app_inv x, this, T.app_inv]

/-! ## The points inside -/

/-- **C90 (inside).** Whether a point is inside closed rings, by the rule of the specification that counts sides straight below the point, does
not change under an affine map. So the rule would be the same with any other direction. -/
theorem C90_inside (T : Affine K) {R : List (List (Pt K))} (hc : ∀ l ∈ R, Closed l) {r : Pt K} (hr : ¬ OnRings R r) :
    EvenOdd (T.rings R) (T.app r) ↔ EvenOdd R r := T.keeps.evenOdd R hc r hr

/-- Rings that are simple, and whose sides meet in ends only. -/
structure CleanRings (R : List (List (Pt K))) : Prop where
  simple : ∀ l ∈ R, SimpleClosed l
  ne : ∀ e ∈ R.flatMap ringEdges, e.1 ≠ e.2
  meet : (R.flatMap ringEdges).Pairwise fun e e' => ∀ x, OnSeg e.1 e.2 x → OnSeg e'.1 e'.2 x → (x = e.1 ∨ x = e.2) ∧ (x = e'.1 ∨ x = e'.2)

theorem CleanRings.map (T : Affine K) {R : List (List (Pt K))} (h : CleanRings R) : CleanRings (T.rings R) := by
  refine ⟨fun l hl => ?_, fun e he => ?_, ?_⟩
  · obtain ⟨l', h1, rfl⟩ := rings_mem.1 hl
    obtain ⟨h2, h3, h4⟩ := h.simple l' h1
    refine ⟨by rw [List.head?_map, List.getLast?_map, h2], ?_, by rwa [List.length_map]⟩
    rw [← List.map_dropLast]
    exact h3.map fun _ _ => T.app_inj.1
  · rw [rings_edges] at he
    obtain ⟨e', h1, rfl⟩ := List.mem_map.1 he
    exact fun k => h.ne e' h1 (T.app_inj.1 k)
  · rw [rings_edges, List.pairwise_map]
    refine h.meet.imp fun {e e'} k x h1 h2 => ?_
    rw [← T.app_inv x, T.onSeg] at h1 h2
    obtain ⟨k1, k2⟩ := k _ h1 h2
    rw [← T.app_inv x]
    simp only [T.app_inj]
    exact ⟨k1, k2⟩

/-- The rings, as those of a result. -/
def asRings (R : List (List (Pt K))) : List (Ring K) := R.map fun l => ⟨l, false⟩

theorem asRings_coords (R : List (List (Pt K))) : (asRings R).map (·.coords) = R := by
  unfold asRings
  rw [List.map_map]
  exact List.map_id _

theorem segBetween_mem {e : Pt K × Pt K} {g : LineOrPoint K} (h : segBetween e.1 e.2 = some g) : g.first < g.second ∧
    ((g.first = e.1 ∧ g.second = e.2) ∨ (g.first = e.2 ∧ g.second = e.1)) := by
  unfold segBetween at h
  split at h
  · rw [Option.some.injEq] at h; subst h; rename_i k; exact ⟨k, .inl ⟨rfl, rfl⟩⟩
  · split at h
    · rw [Option.some.injEq] at h; subst h; rename_i k; exact ⟨k, .inr ⟨rfl, rfl⟩⟩
    · cases h

theorem segBetween_on {e : Pt K × Pt K} {g : LineOrPoint K} (h : segBetween e.1 e.2 = some g) (x : Pt K) : OnSeg g.first g.second x ↔ OnSeg e.1 e.2 x := by
  obtain ⟨-, ⟨h1, h2⟩ | ⟨h1, h2⟩⟩ := segBetween_mem h
  · rw [h1, h2]
  · rw [h1, h2, onSeg_comm]

theorem edgesOf_flat (rings : List (Ring K)) : edgesOf rings = ((rings.map (·.coords)).flatMap ringEdges).filterMap fun e => segBetween e.1 e.2 := by
  unfold edgesOf properEdges ringEdges
  rw [List.flatMap_map]
  induction rings with
  | nil => rfl
  | cons g l ih => rw [List.flatMap_cons, List.flatMap_cons, List.filterMap_append, ih]

/-- The sides meet in ends only, in either way to say it. -/
theorem endsOnly_iff {e e' : Pt K × Pt K} {g g' : LineOrPoint K} (h : segBetween e.1 e.2 = some g) (h' : segBetween e'.1 e'.2 = some g') :
    EndsOnly g g' ↔ ∀ x, OnSeg e.1 e.2 x → OnSeg e'.1 e'.2 x → (x = e.1 ∨ x = e.2) ∧ (x = e'.1 ∨ x = e'.2) := by
  have key : ∀ {e : Pt K × Pt K} {g : LineOrPoint K}, segBetween e.1 e.2 = some g → ∀ {x}, OnSeg e.1 e.2 x → (¬ Inside g.first g.second x ↔ x = e.1 ∨ x = e.2) := by
    intro e g h x hx
    obtain ⟨k1, k2⟩ := segBetween_mem h
    rw [← between_inside k1]
    unfold Between
    rw [segBetween_on h]
    rcases k2 with ⟨k2, k3⟩ | ⟨k2, k3⟩ <;> rw [k2, k3] <;> tauto
  unfold EndsOnly
  refine forall_congr' fun x => ?_
  rw [segBetween_on h, segBetween_on h']
  refine forall_congr' fun h1 => forall_congr' fun h2 => ?_
  rw [key h h1, key h' h2]

/-- What `rings_same` needs. -/
theorem CleanRings.facts {rings : List (Ring K)} (h : CleanRings (rings.map (·.coords))) :
    (∀ g ∈ rings, SimpleClosed g.coords) ∧ (edgesOf rings).Pairwise EndsOnly ∧ (∀ g ∈ edgesOf rings, g.first < g.second) ∧
      (∀ p ∈ asPolys rings, ∀ ring ∈ ringsOf p, Closed ring) ∧
      ∀ z, OnRings (rings.map (·.coords)) z ↔ ∃ g ∈ edgesOf rings, OnSeg g.first g.second z := by
  have s1 : ∀ g ∈ rings, SimpleClosed g.coords := fun g hg => h.simple _ (List.mem_map_of_mem hg)
  refine ⟨s1, ?_, ?_, ?_, fun z => ?_⟩
  · rw [edgesOf_flat, List.pairwise_filterMap]
    exact h.meet.imp fun {e e'} k g hg g' hg' => (endsOnly_iff hg hg').2 k
  · intro g hg
    rw [edgesOf_flat] at hg
    obtain ⟨e, -, he⟩ := List.mem_filterMap.1 hg
    exact (segBetween_mem he).1
  · intro p hp ring hr
    obtain ⟨g, hg, rfl⟩ := List.mem_map.1 hp
    have : ring = g.coords := by simpa [ringsOf] using hr
    rw [this]
    exact (s1 g hg).1
  · rw [onRings_edges, edgesOf_flat]
    constructor
    · rintro ⟨e, he, hz⟩
      have hs : ∃ g, segBetween e.1 e.2 = some g := by
        unfold segBetween
        rcases lt_or_gt_of_ne (h.ne e he) with k | k
        · exact ⟨_, if_pos k⟩
        · rw [if_neg (_root_.lt_asymm k), if_pos k]; exact ⟨_, rfl⟩
      obtain ⟨g, hg⟩ := hs
      exact ⟨g, List.mem_filterMap.2 ⟨e, he, hg⟩, (segBetween_on hg z).2 hz⟩
    · rintro ⟨g, hg, hz⟩
      obtain ⟨e, he, hs⟩ := List.mem_filterMap.1 hg
      exact ⟨e, he, (segBetween_on hs z).1 hz⟩

theorem CleanRings.same {R R' : List (List (Pt K))} (h : CleanRings R) (h' : CleanRings R') (hr : ∀ r, EvenOdd R r ↔ EvenOdd R' r) (z : Pt K) :
    OnRings R z ↔ OnRings R' z := by
  have k := h; have k' := h'
  rw [← asRings_coords R] at k
  rw [← asRings_coords R'] at k'
  obtain ⟨s1, s2, s3, s4, s6⟩ := k.facts
  obtain ⟨t1, t2, t3, t4, t6⟩ := k'.facts
  have := (rings_same s1 s2 s3 s4 s6 t1 t2 t3 t4 t6).1 (by rw [asRings_coords, asRings_coords]; exact hr) z
  rwa [asRings_coords, asRings_coords] at this

section
variable {ty : OpType} {a b : List (Polygon K)} {na na' : K → K} {ch ch' : Nat → Nat} {srt srt' : List (Crossing K Nat) → List (Crossing K Nat)}
  {fuel fuel' : Nat} {rings rings' : List (Ring K)}

/-- The rings of a result are clean. -/
theorem result_clean (ha : ∀ p ∈ a, ∀ ring ∈ ringsOf p, Closed ring) (hb : ∀ p ∈ b, ∀ ring ∈ ringsOf p, Closed ring)
    (hst : Stable compareCrossings srt ∨ NoOverlap ((a ++ b).flatMap Spec.ringsOf)) (h : BoolOp.sweep ty (opEdges a b) na ch srt fuel = some rings) :
    CleanRings (rings.map (·.coords)) := by
  obtain ⟨N, em, rg, rings1, h1, H, hm, r1, r2, -, -⟩ := sweep_edges ty ha hb na ch hst
  obtain ⟨s1, s2, s3, s4, s5, s6⟩ := result_edges ha hb hst h
  have e := sweep_mono h N
  rw [(h1 _ (by omega)).1, Option.some.injEq] at e
  subst e
  have hcon := C35_edges_conserved em (fun e he => (H.lt e he).ne) r1 r2
  have hne : ∀ e ∈ (rings1.map (·.coords)).flatMap ringEdges, e.1 ≠ e.2 := by
    intro e he
    rw [List.flatMap_map] at he
    obtain ⟨g, hg, hx⟩ := List.mem_flatMap.1 he
    exact consec_ne hcon H.lt g hg e hx
  refine ⟨fun l hl => ?_, hne, ?_⟩
  · obtain ⟨g, hg, rfl⟩ := List.mem_map.1 hl
    exact s1 g hg
  · rw [edgesOf_flat, List.pairwise_filterMap] at s2
    refine s2.imp_of_mem fun {e e'} he he' k => ?_
    have hs : ∀ e : Pt K × Pt K, e.1 ≠ e.2 → ∃ g, segBetween e.1 e.2 = some g := by
      intro e hne
      unfold segBetween
      rcases lt_or_gt_of_ne hne with k | k
      · exact ⟨_, if_pos k⟩
      · rw [if_neg (_root_.lt_asymm k), if_pos k]; exact ⟨_, rfl⟩
    obtain ⟨g, hg⟩ := hs e (hne e he)
    obtain ⟨g', hg'⟩ := hs e' (hne e' he')
    exact (endsOnly_iff hg hg').1 (k g hg g' hg')

theorem stable_map (T : Affine K) (hst : Stable compareCrossings srt ∨ NoOverlap ((a ++ b).flatMap Spec.ringsOf)) :
    Stable compareCrossings srt ∨ NoOverlap ((T.polys a ++ T.polys b).flatMap Spec.ringsOf) := by
  refine hst.imp_right fun h => ?_
  have := noOverlap_map T h
  rwa [← polys_rings, show T.polys (a ++ b) = T.polys a ++ T.polys b from List.map_append] at this

theorem closed_flat {a : List (Polygon K)} (ha : ∀ p ∈ a, ∀ ring ∈ ringsOf p, Closed ring) : ∀ l ∈ a.flatMap ringsOf, Closed l := by
  intro l hl
  obtain ⟨p, hp, hr⟩ := List.mem_flatMap.1 hl
  exact ha p hp l hr

/-- If rings have the points inside that the operation asks for, so have their images for the images of the operands. -/
theorem region_map (T : Affine K) (ha : ∀ p ∈ a, ∀ ring ∈ ringsOf p, Closed ring) (hb : ∀ p ∈ b, ∀ ring ∈ ringsOf p, Closed ring)
    {R : List (List (Pt K))} (hR : ∀ l ∈ R, Closed l)
    (h : ∀ r, EvenOdd R r ↔ inResult ty (decide (EvenOdd (a.flatMap ringsOf) r)) (decide (EvenOdd (b.flatMap ringsOf) r)) = true) (r : Pt K) :
    EvenOdd (T.rings R) r ↔
      inResult ty (decide (EvenOdd ((T.polys a).flatMap ringsOf) r)) (decide (EvenOdd ((T.polys b).flatMap ringsOf) r)) = true := by
  rw [polys_rings, polys_rings]
  obtain ⟨z, hz, he⟩ := off_sides (T.rings R ++ (T.rings (a.flatMap ringsOf) ++ T.rings (b.flatMap ringsOf))) r
  have sub : ∀ {S : List (List (Pt K))}, T.rings S ⊆ T.rings R ++ (T.rings (a.flatMap ringsOf) ++ T.rings (b.flatMap ringsOf)) → (∀ l ∈ S, Closed l) →
      (EvenOdd (T.rings S) r ↔ EvenOdd S (T.inv.app z)) := by
    intro S hS hc
    rw [← he _ hS, ← C90_inside T hc, T.app_inv]
    intro ho
    have := (onRings_map T).2 ho
    rw [T.app_inv] at this
    obtain ⟨l, hl, k⟩ := this
    exact hz ⟨l, hS hl, k⟩
  have e1 := sub (List.subset_append_left _ _) hR
  have e2 := sub (fun _ hx => List.mem_append_right _ (List.mem_append_left _ hx)) (closed_flat ha)
  have e3 := sub (fun _ hx => List.mem_append_right _ (List.mem_append_right _ hx)) (closed_flat hb)
  rw [e1, h]
  simp only [e2, e3]

/-- **C90.** An affine map applied to both operands applies to the boundary of the result: a point is on a side of the result if and only if its
image is on a side of the result for the images. So nothing depends on the direction in which the sweep goes. -/
theorem C90_boundary (T : Affine K) (ha : ∀ p ∈ a, ∀ ring ∈ ringsOf p, Closed ring) (hb : ∀ p ∈ b, ∀ ring ∈ ringsOf p, Closed ring)
    (hst : Stable compareCrossings srt ∨ NoOverlap ((a ++ b).flatMap Spec.ringsOf))
    (hst' : Stable compareCrossings srt' ∨ NoOverlap ((a ++ b).flatMap Spec.ringsOf))
    (h : BoolOp.sweep ty (opEdges a b) na ch srt fuel = some rings)
    (h' : BoolOp.sweep ty (opEdges (T.polys a) (T.polys b)) na' ch' srt' fuel' = some rings') (z : Pt K) :
    OnRings (rings'.map (·.coords)) (T.app z) ↔ OnRings (rings.map (·.coords)) z := by
  have c1 := result_clean ha hb hst h
  have c2 := result_clean (polys_closed ha) (polys_closed hb) (stable_map T hst') h'
  rw [← onRings_map T (R := rings.map (·.coords))]
  refine c2.same (c1.map T) (fun r => ?_) _
  obtain ⟨-, -, -, -, s5, -⟩ := result_edges ha hb hst h
  obtain ⟨-, -, -, -, t5, -⟩ := result_edges (polys_closed ha) (polys_closed hb) (stable_map T hst') h'
  rw [t5 r, region_map T ha hb (fun l hl => (c1.simple l hl).1) s5]

/-- **C90.** The same for the points inside: a point on no side of the operands is inside the result if and only if its image is inside the
result for the images. -/
theorem C90_region (T : Affine K) (ha : ∀ p ∈ a, ∀ ring ∈ ringsOf p, Closed ring) (hb : ∀ p ∈ b, ∀ ring ∈ ringsOf p, Closed ring)
    (hst : Stable compareCrossings srt ∨ NoOverlap ((a ++ b).flatMap Spec.ringsOf))
    (hst' : Stable compareCrossings srt' ∨ NoOverlap ((a ++ b).flatMap Spec.ringsOf))
    (h : BoolOp.sweep ty (opEdges a b) na ch srt fuel = some rings)
    (h' : BoolOp.sweep ty (opEdges (T.polys a) (T.polys b)) na' ch' srt' fuel' = some rings') {r : Pt K}
    (hr : ¬ OnRings (rings.map (·.coords)) r) :
    EvenOdd (rings'.map (·.coords)) (T.app r) ↔ EvenOdd (rings.map (·.coords)) r := by
  have c1 := result_clean ha hb hst h
  obtain ⟨-, -, -, -, s5, -⟩ := result_edges ha hb hst h
  obtain ⟨-, -, -, -, t5, -⟩ := result_edges (polys_closed ha) (polys_closed hb) (stable_map T hst') h'
  rw [← C90_inside T (fun l hl => (c1.simple l hl).1) hr, t5, region_map T ha hb (fun l hl => (c1.simple l hl).1) s5]

/-- **C90.** If at no point three edges of the operands meet, `boolean_op` returns multipolygons for the operands and for their images, and a point
on no side of the operands is inside the one if and only if its image is inside the other. -/
theorem C90_boolean_op (T : Affine K) (ty : OpType) (ha : ∀ p ∈ a, ∀ ring ∈ ringsOf p, Closed ring) (hb : ∀ p ∈ b, ∀ ring ∈ ringsOf p, Closed ring)
    (hgen : ∀ e₁ ∈ edgePairs (a ++ b), ∀ e₂ ∈ edgePairs (a ++ b), ∀ e₃ ∈ edgePairs (a ++ b), e₁ ≠ e₂ → e₁ ≠ e₃ → e₂ ≠ e₃ →
      ∀ v, ¬ (OnSeg e₁.1 e₁.2 v ∧ OnSeg e₂.1 e₂.2 v ∧ OnSeg e₃.1 e₃.2 v))
    (hst : Stable compareCrossings srt ∨ NoOverlap ((a ++ b).flatMap Spec.ringsOf))
    (hst' : Stable compareCrossings srt' ∨ NoOverlap ((a ++ b).flatMap Spec.ringsOf))
    (na na' : K → K) (ch ch' : Nat → Nat) (srt2 srt2' : List (Crossing K Nat) → List (Crossing K Nat)) :
    ∃ N polys polys', (∀ fuel, N ≤ fuel → booleanOp a b ty na ch srt srt2 fuel = some polys) ∧
      (∀ fuel, N ≤ fuel → booleanOp (T.polys a) (T.polys b) ty na' ch' srt' srt2' fuel = some polys') ∧
      ∀ r, ¬ OnRings ((a ++ b).flatMap ringsOf) r → (InMulti (polys'.map Polygon.rings) (T.app r) ↔ InMulti (polys.map Polygon.rings) r) := by
  have hmap : ∀ e ∈ edgePairs (T.polys a ++ T.polys b), ∃ e' ∈ edgePairs (a ++ b), e = (T.app e'.1, T.app e'.2) := by
    intro e he
    rw [show T.polys a ++ T.polys b = T.polys (a ++ b) from List.map_append.symm] at he
    unfold edgePairs at he
    rw [polys_rings] at he
    have := rings_edges T ((a ++ b).flatMap ringsOf)
    unfold ringEdges at this
    rw [this] at he
    obtain ⟨e', h1, rfl⟩ := List.mem_map.1 he
    exact ⟨e', h1, rfl⟩
  obtain ⟨N, polys, h1, h2, -⟩ := C59_boolean_op_two ty ha hb hgen na ch (srt' := srt2) hst
  obtain ⟨N', polys', h3, h4, -⟩ := C59_boolean_op_two ty (polys_closed (T := T) ha) (polys_closed (T := T) hb) (by
    intro e₁ m1 e₂ m2 e₃ m3 n1 n2 n3 v
    obtain ⟨d₁, k1, rfl⟩ := hmap e₁ m1
    obtain ⟨d₂, k2, rfl⟩ := hmap e₂ m2
    obtain ⟨d₃, k3, rfl⟩ := hmap e₃ m3
    have := hgen d₁ k1 d₂ k2 d₃ k3 (fun k => n1 (by rw [k])) (fun k => n2 (by rw [k])) (fun k => n3 (by rw [k])) (T.inv.app v)
    rw [← T.app_inv v]
    simpa only [T.onSeg] using this) na' ch' (srt' := srt2') (stable_map T hst')
  refine ⟨max N N', polys, polys', fun fuel hf => h1 fuel (le_trans (le_max_left _ _) hf), fun fuel hf => h3 fuel (le_trans (le_max_right _ _) hf), fun r hr => ?_⟩
  have hoff : ∀ R : List (List (Pt K)), R ⊆ (a ++ b).flatMap ringsOf → ¬ OnRings R r := fun R hR ⟨l, hl, k⟩ => hr ⟨l, hR hl, k⟩
  have e1 := C90_inside T (closed_flat ha) (hoff (a.flatMap ringsOf) (by rw [List.flatMap_append]; exact List.subset_append_left _ _))
  have e2 := C90_inside T (closed_flat hb) (hoff (b.flatMap ringsOf) (by rw [List.flatMap_append]; exact List.subset_append_right _ _))
  rw [h2, h4, polys_rings, polys_rings]
  simp only [e1, e2]

end

/-! ## Crossings -/

section
variable {C : Type} {lineOf : C → Line K} {na na' : K → K} {ch ch' : Nat → Nat} {f f' : Nat} {input : List C}
  {res res' : List (Pt K × List (Crossing K C))}

theorem critical_map (T : Affine K) {ls : List (Line K)} {z : Pt K} : Critical (ls.map T.line) (T.app z) ↔ Critical ls z := by
  have hon : ∀ l x, OnLine (T.line l) (T.app x) ↔ OnLine l x := fun l x => T.onSeg _ _ _
  have hm : ∀ l1 l2, MeetAt (T.line l1) (T.line l2) (T.app z) ↔ MeetAt l1 l2 z := by
    intro l1 l2
    unfold MeetAt
    constructor
    · intro h x
      have := h (T.app x)
      rwa [hon, hon, T.app_inj] at this
    · intro h x
      rw [← T.app_inv x, hon, hon, h, T.app_inj]
  unfold Critical
  constructor
  · rintro (⟨l, hl, k⟩ | ⟨l1, h1, l2, h2, k⟩)
    · obtain ⟨l', h3, rfl⟩ := List.mem_map.1 hl
      exact .inl ⟨l', h3, by simpa only [Affine.line, T.app_inj] using k⟩
    · obtain ⟨l1', h3, rfl⟩ := List.mem_map.1 h1
      obtain ⟨l2', h4, rfl⟩ := List.mem_map.1 h2
      exact .inr ⟨l1', h3, l2', h4, (hm _ _).1 k⟩
  · rintro (⟨l, hl, k⟩ | ⟨l1, h1, l2, h2, k⟩)
    · exact .inl ⟨_, List.mem_map_of_mem hl, by simpa only [Affine.line, T.app_inj] using k⟩
    · exact .inr ⟨_, List.mem_map_of_mem h1, _, List.mem_map_of_mem h2, (hm _ _).2 k⟩

/-- The inputs reported at a yielded point are those that pass through it. -/
theorem batch_iff (h : crossingsOf lineOf na ch f input = some res) {z : Pt K} {b : List (Crossing K C)} (hb : (z, b) ∈ res) (c : C) :
    (∃ x ∈ b, x.crossable = c) ↔ c ∈ input ∧ OnLine (lineOf c) z := by
  constructor
  · rintro ⟨x, hx, rfl⟩
    obtain ⟨h1, h2⟩ := C20_touches h hb hx
    refine ⟨h1, ?_⟩
    rcases h2 with ⟨-, -, h3, -⟩ | ⟨s, t, -, -, h3, h4, h5⟩
    · rw [← h3]; exact onSeg_left _ _
    · split at h5
      · rw [← h5]; exact h3
      · rw [← h5]; exact h4
  · rintro ⟨hc, hz⟩
    obtain ⟨X, hX⟩ := final_of_run h
    obtain ⟨s, ty, hs⟩ := hX.yield hb
    obtain ⟨s', ty', h1, rfl⟩ := hX.report hc hz fun g hg _ => hX.free _ hs g hg
    have : (z, Crossing.ofSeg s' ty') ∈ flat res := by
      rw [hX.flat]
      exact List.mem_map.2 ⟨_, h1, rfl⟩
    obtain ⟨b', hb', hx⟩ := mem_flat.1 this
    have : b' = b := by
      have hn : (res.map (·.1)).Nodup := hX.sorted.imp fun k => k.ne
      exact congrArg Prod.snd (List.inj_on_of_nodup_map hn hb' hb rfl)
    exact ⟨_, this ▸ hx, rfl⟩

/-- **C90 (crossings).** The points yielded for the images of the inputs are the images of the points yielded for the inputs, and at each the same
inputs are reported. -/
theorem C90_crossings (T : Affine K) (h : crossingsOf lineOf na ch f input = some res)
    (h' : crossingsOf (fun c => T.line (lineOf c)) na' ch' f' input = some res') :
    (∀ z, T.app z ∈ res'.map (·.1) ↔ z ∈ res.map (·.1)) ∧
    ∀ z b b', (z, b) ∈ res → (T.app z, b') ∈ res' → ∀ c, (∃ x ∈ b', x.crossable = c) ↔ ∃ x ∈ b, x.crossable = c := by
  constructor
  · intro z
    rw [yield_iff h, yield_iff h', ← critical_map T (ls := input.map lineOf), List.map_map]
    rfl
  · intro z b b' hb hb' c
    rw [batch_iff h hb, batch_iff h' hb']
    exact and_congr_right fun _ => T.onSeg _ _ _

end

/-! ## Examples -/

/-- The rotation by a right angle. -/
def turn : Affine ℚ := ⟨0, -1, 1, 0, 0, 0, by decide +kernel⟩

/-- Two triangles that overlap, and their rotated images: the assumptions of C90 hold, and the results. -/
example : (∀ p ∈ triA, ∀ ring ∈ ringsOf p, Closed ring) ∧ (∀ p ∈ triB, ∀ ring ∈ ringsOf p, Closed ring) ∧
    (BoolOp.sweep .intersection (opEdges triA triB) id (fun _ => 0) id 60).map (·.map (·.coords)) = some [[⟨1, 1⟩, ⟨1, 3⟩, ⟨3, 1⟩, ⟨1, 1⟩]] ∧
    (BoolOp.sweep .intersection (opEdges (turn.polys triA) (turn.polys triB)) id (fun _ => 0) id 60).map (·.map (·.coords)) =
      some [[⟨-1, 3⟩, ⟨-3, 1⟩, ⟨-1, 1⟩, ⟨-1, 3⟩]] :=
  ⟨by decide +kernel, by decide +kernel, by decide +kernel, by decide +kernel⟩

/-- The theorem at work, for two squares: the assumption of `C90_boolean_op` on the edges holds. -/
example (T : Affine ℚ) (ty : OpType) : ∃ N polys polys', (∀ fuel, N ≤ fuel → booleanOp bigS overS ty id (fun _ => 0) id id fuel = some polys) ∧
    (∀ fuel, N ≤ fuel → booleanOp (T.polys bigS) (T.polys overS) ty id (fun _ => 0) id id fuel = some polys') ∧
    ∀ r, ¬ OnRings ((bigS ++ overS).flatMap ringsOf) r → (InMulti (polys'.map Polygon.rings) (T.app r) ↔ InMulti (polys.map Polygon.rings) r) :=
  C90_boolean_op T ty (by decide +kernel) (by decide +kernel) (boxes_of (by decide +kernel)) (.inl (id_stable _)) (.inl (id_stable _)) _ _ _ _ _ _

/-- **C90 fails for `boolean_op` in general.** For two triangles that touch in a corner, the point is inside the union that `boolean_op` returns
if they are turned by a right angle, and not if they are not. So the result depends on the direction of the sweep. -/
theorem C90_fails_for_boolean_op : (∀ p ∈ touchA, ∀ ring ∈ ringsOf p, Closed ring) ∧ (∀ p ∈ touchB, ∀ ring ∈ ringsOf p, Closed ring) ∧
    ∃ r polys polys', booleanOp touchA touchB .union id (fun _ => 0) id id 60 = some polys ∧
      booleanOp (turn.polys touchA) (turn.polys touchB) .union id (fun _ => 0) id id 60 = some polys' ∧
      ¬ InMulti (polys.map Polygon.rings) r ∧ InMulti (polys'.map Polygon.rings) (turn.app r) :=
  ⟨by decide +kernel, by decide +kernel, ⟨2, 3 / 2⟩, [⟨[⟨0, 0⟩, ⟨4, -1⟩, ⟨1, -3⟩, ⟨0, 0⟩], [[⟨5, 5⟩, ⟨0, 0⟩, ⟨2, 1⟩, ⟨5, 5⟩]]⟩],
    [⟨[⟨0, 0⟩, ⟨1, 4⟩, ⟨3, 1⟩, ⟨0, 0⟩], []⟩, ⟨[⟨-5, 5⟩, ⟨-1, 2⟩, ⟨0, 0⟩, ⟨-5, 5⟩], []⟩], by decide +kernel, by decide +kernel, by decide +kernel,
    by decide +kernel⟩

end GeoCrossings
