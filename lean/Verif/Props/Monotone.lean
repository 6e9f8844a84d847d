import Verif.Lemmas.MonoInside
import Verif.Lemmas.ValidCheck
import Mathlib.Algebra.Order.Ring.Rat
import Mathlib.Algebra.Field.Rat

/-!
# Properties of `monotone_chains` (C50–C53, C56)
-/
set_option linter.unusedSectionVars false
namespace GeoCrossings.Monotone
open Spec

variable {K : Type} [Field K] [LinearOrder K] [IsStrictOrderedRing K] {n : Nat} {ed : Nat → Sg K} {top : Nat → Bool}
  {R : List (List (Pt K) × Winding)} {ext : List (Pt K)} {holes : List (List (Pt K))}

/-! ## C50: the types of vertices -/

/-- The states of the sweep in the course of `monotone_chains`. -/
inductive Reached (srt : List (Event K) → List (Event K)) (p : Polygon K) : Sweep K → Prop
  | init {sw : Sweep K} : Sweep.fromPolygon srt p = some sw → Reached srt p sw
  | step {sw sw' : Sweep K} {o : Option (SweepEvent K)} : Reached srt p sw → processEvent sw = some (sw', o) → Reached srt p sw'

/-- `r` is an inner point of the segment between `a` and `b`. -/
def Within (a b r : Pt K) : Prop := OnSeg a b r ∧ r ≠ a ∧ r ≠ b

/-- The edges from `v` to `lo` and to `hi` lie to the right of `v`, that to `hi` above that to `lo`. -/
def RightWedge (v lo hi : Pt K) : Prop := v < lo ∧ v < hi ∧ 0 < det v lo hi

/-- The edges from `v` to `lo` and to `hi` lie to the left of `v`, that to `hi` above that to `lo`. -/
def LeftWedge (v lo hi : Pt K) : Prop := lo < v ∧ hi < v ∧ 0 < det v hi lo

/-- The interior of the polygon is in the wedge, and not outside it: just below the upper edge there is interior, just below the lower
one there is none. -/
def InteriorInWedge (rings : List (List (Pt K))) (v lo hi : Pt K) : Prop :=
  (∀ r, Within v hi r → EvenOdd rings r) ∧ ∀ r, Within v lo r → ¬ EvenOdd rings r

/-- The interior of the polygon is outside the wedge, and not in it. -/
def InteriorOutsideWedge (rings : List (List (Pt K))) (v lo hi : Pt K) : Prop :=
  (∀ r, Within v hi r → ¬ EvenOdd rings r) ∧ ∀ r, Within v lo r → EvenOdd rings r

/-- The type that a vertex `v` of a polygon should get, if its neighbours are `a` and `b`. -/
def HasType (rings : List (List (Pt K))) (v a b : Pt K) : VertexType → Prop
  | .start => ∃ lo hi, ((lo = a ∧ hi = b) ∨ (lo = b ∧ hi = a)) ∧ RightWedge v lo hi ∧ InteriorInWedge rings v lo hi
  | .split => ∃ lo hi, ((lo = a ∧ hi = b) ∨ (lo = b ∧ hi = a)) ∧ RightWedge v lo hi ∧ InteriorOutsideWedge rings v lo hi
  | .finish => ∃ lo hi, ((lo = a ∧ hi = b) ∨ (lo = b ∧ hi = a)) ∧ LeftWedge v lo hi ∧ InteriorInWedge rings v lo hi
  | .merge => ∃ lo hi, ((lo = a ∧ hi = b) ∨ (lo = b ∧ hi = a)) ∧ LeftWedge v lo hi ∧ InteriorOutsideWedge rings v lo hi
  | .cont => (a < v ∧ v < b) ∨ (b < v ∧ v < a)

theorem reached_inv (srt : List (Event K) → List (Event K)) {p : Polygon K} (h : ValidPolygon p.ext p.ints) {sw : Sweep K}
    (hr : Reached srt p sw) : ∃ u gs, GInv (dir (ringsOf p.ext p.ints)).length (numEd (ringsOf p.ext p.ints)) (numTop (ringsOf p.ext p.ints)) u gs ∧
      SInv (dir (ringsOf p.ext p.ints)).length (numEd (ringsOf p.ext p.ints)) (numTop (ringsOf p.ext p.ints)) u gs sw := by
  induction hr with
  | init e =>
    obtain ⟨sw', u, hf, -, hu, hS⟩ := fromPolygon_ok srt h
    rw [hf, Option.some.injEq] at e
    exact ⟨u, [], GInv.init hu, e ▸ hS⟩
  | @step sw sw' o _ e ih =>
    obtain ⟨u, gs, hI, hS⟩ := ih
    by_cases hne : sw.events = []
    · rw [(hS.last (edges_valid h) hI hne).1, Option.some.injEq, Prod.mk.injEq] at e
      exact ⟨u, gs, hI, e.1 ▸ hS⟩
    · obtain ⟨v, gs', sw'', ev, -, hI', hS', hp, -⟩ := hS.step (edges_valid h) hI hne
      rw [hp, Option.some.injEq, Prod.mk.injEq] at e
      exact ⟨v, gs', hI', e.1 ▸ hS'⟩

/-- The two edges at a vertex. -/
theorem around (h : ValidPolygon ext holes) {i j : Nat} (i1 : 1 ≤ i) (i2 : i ≤ (dir (ringsOf ext holes)).length) (j1 : 1 ≤ j)
    (j2 : j ≤ (dir (ringsOf ext holes)).length) (hij : i ≠ j) {v : Pt K} (hi : EndOf (numEd (ringsOf ext holes) i) v)
    (hj : EndOf (numEd (ringsOf ext holes) j) v) :
    ∃ a b, (a, v) ∈ (ext :: holes).flatMap ringEdges ∧ (v, b) ∈ (ext :: holes).flatMap ringEdges ∧
      ((numEd (ringsOf ext holes) i = norm (a, v) ∧ numEd (ringsOf ext holes) j = norm (v, b)) ∨
        (numEd (ringsOf ext holes) i = norm (v, b) ∧ numEd (ringsOf ext holes) j = norm (a, v))) := by
  have ok := ringsOk_of_valid h
  have hmem : ∀ x ∈ dir (ringsOf ext holes), x.1 ∈ (ext :: holes).flatMap ringEdges := by
    intro x hx
    obtain ⟨r, hr, he, -⟩ := mem_dir.1 hx
    refine List.mem_flatMap.2 ⟨r.1, ?_, he⟩
    rw [← ringsOf_fst ext holes]
    exact List.mem_map_of_mem hr
  obtain ⟨x, hx, gx, ex, -⟩ := num_mem i1 i2
  obtain ⟨y, hy, gy, ey, -⟩ := num_mem j1 j2
  have hxy : x ≠ y := by
    rintro rfl
    have := (List.getElem?_inj (by omega) ok.nodup).1 (gx.trans gy.symm)
    omega
  rw [ex, endOf_norm] at hi
  rw [ey, endOf_norm] at hj
  have mx := hmem x hx
  have my := hmem y hy
  rcases hi with hi | hi <;> rcases hj with hj | hj
  · exact absurd (ok.start hx hy (hi.symm.trans hj)) hxy
  · exact ⟨y.1.1, x.1.2, by rw [hj]; exact my, by rw [hi]; exact mx, .inr ⟨by rw [ex, hi], by rw [ey, hj]⟩⟩
  · exact ⟨x.1.1, y.1.2, by rw [hi]; exact mx, by rw [hj]; exact my, .inl ⟨by rw [ex, hi], by rw [ey, hj]⟩⟩
  · exact absurd (ok.stop hx hy (hi.symm.trans hj)) hxy

theorem norm_at {a v : Pt K} (h : (norm (a, v)).1 = v) : (norm (a, v)).2 = a := by
  unfold norm at *
  split_ifs at * with h'
  · rfl
  · exact h.symm
theorem norm_at' {a v : Pt K} (h : (norm (a, v)).2 = v) : (norm (a, v)).1 = a := by
  unfold norm at *
  split_ifs at * with h'
  · exact h.symm
  · rfl
theorem norm_at2 {a v : Pt K} (h : (norm (v, a)).1 = v) : (norm (v, a)).2 = a := by
  unfold norm at *
  split_ifs at * with h'
  · exact h.symm
  · rfl
theorem norm_at2' {a v : Pt K} (h : (norm (v, a)).2 = v) : (norm (v, a)).1 = a := by
  unfold norm at *
  split_ifs at * with h'
  · rfl
  · exact h.symm

theorem within_lt {a b r : Pt K} (h : a < b) (hw : Within a b r) : a < r ∧ r < b ∧ det a b r = 0 := by
  obtain ⟨h1, h2, h3⟩ := hw
  obtain ⟨h4, h5, h6⟩ := (onSeg_iff h).1 h1
  exact ⟨h5.lt_of_ne (Ne.symm h2), h6.lt_of_ne h3, h4⟩

/-- **C50.** In every state of the sweep of a valid polygon, `process_event` returns, and the vertex that it reports has the type that
the geometry asks for: `start`/`split` if both edges are to the right, `finish`/`merge` if both are to the left, otherwise `cont`;
`start` and `finish` if the interior is in the wedge between the edges, `split` and `merge` if it is outside. (`a` and `b` are unique,
as no vertex is visited twice.) -/
theorem C50_vertex_types (srt : List (Event K) → List (Event K)) {p : Polygon K} (h : ValidPolygon p.ext p.ints) {sw : Sweep K}
    (hr : Reached srt p sw) : ∃ sw' o, processEvent sw = some (sw', o) ∧ (o = none ↔ sw.events = []) ∧
      ∀ ev, o = some ev → ∃ a b, (a, ev.pt) ∈ (p.ext :: p.ints).flatMap ringEdges ∧ (ev.pt, b) ∈ (p.ext :: p.ints).flatMap ringEdges ∧
        HasType (p.ext :: p.ints) ev.pt a b ev.ty := by
  have E := edges_valid h
  obtain ⟨out, -, D⟩ := monotoneChains_ok false id h
  obtain ⟨u, gs, hI, hS⟩ := reached_inv srt h hr
  by_cases hne : sw.events = []
  · exact ⟨sw, none, (hS.last E hI hne).1, by simp [hne], by simp⟩
  obtain ⟨v, gs', sw', ev, -, hI', -, hp, hpt, hL, -⟩ := hS.step E hI hne
  refine ⟨sw', some ev, hp, by simp [hne], ?_⟩
  intro ev' he
  rw [Option.some.injEq] at he
  subst he
  rw [hpt]
  have side : ∀ k, 1 ≤ k → k ≤ (dir (ringsOf p.ext p.ints)).length → ∀ r, Within (numEd (ringsOf p.ext p.ints) k).1 (numEd (ringsOf p.ext p.ints) k).2 r →
      (EvenOdd (p.ext :: p.ints) r ↔ numTop (ringsOf p.ext p.ints) k = true) := by
    intro k k1 k2 r hw
    obtain ⟨r1, r2, r3⟩ := within_lt (E.lt k k1 k2) hw
    rw [evenOdd_count]
    exact D.side E k1 k2 r1 r2 r3
  have sideL : ∀ k, 1 ≤ k → k ≤ (dir (ringsOf p.ext p.ints)).length → (numEd (ringsOf p.ext p.ints) k).1 = v → ∀ r,
      Within v (numEd (ringsOf p.ext p.ints) k).2 r → (EvenOdd (p.ext :: p.ints) r ↔ numTop (ringsOf p.ext p.ints) k = true) :=
    fun k k1 k2 e r hw => side k k1 k2 r (e ▸ hw)
  have sideR : ∀ k, 1 ≤ k → k ≤ (dir (ringsOf p.ext p.ints)).length → (numEd (ringsOf p.ext p.ints) k).2 = v → ∀ r,
      Within v (numEd (ringsOf p.ext p.ints) k).1 r → (EvenOdd (p.ext :: p.ints) r ↔ numTop (ringsOf p.ext p.ints) k = true) :=
    fun k k1 k2 e r hw => side k k1 k2 r (e ▸ ⟨onSeg_swap hw.1, hw.2.2, hw.2.1⟩)
  generalize hed : numEd (ringsOf p.ext p.ints) = ed at *
  generalize htop : numTop (ringsOf p.ext p.ints) = top at *
  have mem : ∀ g ∈ gs, (1 ≤ g.b ∧ g.b ≤ (dir (ringsOf p.ext p.ints)).length) ∧ (1 ≤ g.t ∧ g.t ≤ (dir (ringsOf p.ext p.ints)).length) := by
    intro g hg
    obtain ⟨a, b, -⟩ := (hI.act.mem _).1 (mem_flat_of hg).1
    obtain ⟨c, d, -⟩ := (hI.act.mem _).1 (mem_flat_of hg).2
    exact ⟨⟨a, b⟩, c, d⟩
  have ar := fun {i j : Nat} (ri : 1 ≤ i ∧ i ≤ _) (rj : 1 ≤ j ∧ j ≤ _) (hij : i ≠ j) (hi : EndOf (ed i) v) (hj : EndOf (ed j) v) =>
    around h ri.1 ri.2 rj.1 rj.2 hij (v := v) (by rw [hed]; exact hi) (by rw [hed]; exact hj)
  simp only [hed] at ar
  have hsrt := hI.act.sorted
  have right : ∀ {i j : Nat}, 1 ≤ i ∧ i ≤ (dir (ringsOf p.ext p.ints)).length → 1 ≤ j ∧ j ≤ (dir (ringsOf p.ext p.ints)).length → i ≠ j →
      (ed i).1 = v → (ed j).1 = v → ∃ a b, (a, v) ∈ (p.ext :: p.ints).flatMap ringEdges ∧ (v, b) ∈ (p.ext :: p.ints).flatMap ringEdges ∧
        (((ed i).2 = a ∧ (ed j).2 = b) ∨ ((ed i).2 = b ∧ (ed j).2 = a)) := by
    intro i j ri rj hij ei ej
    obtain ⟨a, b, ha, hb, ⟨h1, h2⟩ | ⟨h1, h2⟩⟩ := ar ri rj hij (.inl ei.symm) (.inl ej.symm)
    · rw [h1] at ei ⊢; rw [h2] at ej ⊢
      exact ⟨a, b, ha, hb, .inl ⟨norm_at ei, norm_at2 ej⟩⟩
    · rw [h1] at ei ⊢; rw [h2] at ej ⊢
      exact ⟨a, b, ha, hb, .inr ⟨norm_at2 ei, norm_at ej⟩⟩
  have left : ∀ {i j : Nat}, 1 ≤ i ∧ i ≤ (dir (ringsOf p.ext p.ints)).length → 1 ≤ j ∧ j ≤ (dir (ringsOf p.ext p.ints)).length → i ≠ j →
      (ed i).2 = v → (ed j).2 = v → ∃ a b, (a, v) ∈ (p.ext :: p.ints).flatMap ringEdges ∧ (v, b) ∈ (p.ext :: p.ints).flatMap ringEdges ∧
        (((ed i).1 = a ∧ (ed j).1 = b) ∨ ((ed i).1 = b ∧ (ed j).1 = a)) := by
    intro i j ri rj hij ei ej
    obtain ⟨a, b, ha, hb, ⟨h1, h2⟩ | ⟨h1, h2⟩⟩ := ar ri rj hij (.inr ei.symm) (.inr ej.symm)
    · rw [h1] at ei ⊢; rw [h2] at ej ⊢
      exact ⟨a, b, ha, hb, .inl ⟨norm_at' ei, norm_at2' ej⟩⟩
    · rw [h1] at ei ⊢; rw [h2] at ej ⊢
      exact ⟨a, b, ha, hb, .inr ⟨norm_at2' ei, norm_at' ej⟩⟩
  have through : ∀ {i j : Nat}, 1 ≤ i ∧ i ≤ (dir (ringsOf p.ext p.ints)).length → 1 ≤ j ∧ j ≤ (dir (ringsOf p.ext p.ints)).length →
      (ed i).2 = v → (ed j).1 = v → ∃ a b, (a, v) ∈ (p.ext :: p.ints).flatMap ringEdges ∧ (v, b) ∈ (p.ext :: p.ints).flatMap ringEdges ∧
        HasType (p.ext :: p.ints) v a b .cont := by
    intro i j ri rj ei ej
    have l1 := E.lt i ri.1 ri.2
    have l2 := E.lt j rj.1 rj.2
    have hij : i ≠ j := by
      rintro rfl
      rw [ei, ej] at l1
      exact lt_irrefl _ l1
    rw [ei] at l1
    rw [ej] at l2
    obtain ⟨a, b, ha, hb, ⟨h1, h2⟩ | ⟨h1, h2⟩⟩ := ar ri rj hij (.inr ei.symm) (.inl ej.symm)
    · rw [h1] at ei l1; rw [h2] at ej l2
      rw [norm_at' ei] at l1; rw [norm_at2 ej] at l2
      exact ⟨a, b, ha, hb, .inl ⟨l1, l2⟩⟩
    · rw [h1] at ei l1; rw [h2] at ej l2
      rw [norm_at2' ei] at l1; rw [norm_at ej] at l2
      exact ⟨a, b, ha, hb, .inr ⟨l1, l2⟩⟩
  generalize ev.ty = ty at hL ⊢
  generalize ev.links = ls at hL
  cases hL with
  | start G1 G2 i j ri rj ei ej hi hj hd =>
    have hij : i ≠ j := by rintro rfl; rw [hi] at hj; cases hj
    obtain ⟨a, b, ha, hb, hab⟩ := right ri rj hij ei ej
    refine ⟨a, b, ha, hb, (ed i).2, (ed j).2, hab, ⟨ei ▸ E.lt i ri.1 ri.2, ej ▸ E.lt j rj.1 rj.2, hd⟩, ?_, ?_⟩
    · intro r hw; exact (sideL j rj.1 rj.2 ej r hw).2 hj
    · intro r hw; rw [sideL i ri.1 ri.2 ei r hw, hi]; simp
  | split G1 g G2 i j ri rj ei ej hi hj hd =>
    have hij : i ≠ j := by rintro rfl; rw [hi] at hj; cases hj
    obtain ⟨a, b, ha, hb, hab⟩ := right ri rj hij ei ej
    refine ⟨a, b, ha, hb, (ed i).2, (ed j).2, hab, ⟨ei ▸ E.lt i ri.1 ri.2, ej ▸ E.lt j rj.1 rj.2, hd⟩, ?_, ?_⟩
    · intro r hw; rw [sideL j rj.1 rj.2 ej r hw, hj]; simp
    · intro r hw; exact (sideL i ri.1 ri.2 ei r hw).2 hi
  | contBot G1 g G2 j rj ej eb hj limbs w => exact through (mem g (by simp)).1 rj eb ej
  | contTop G1 g G2 j rj ej et hj limbs w => exact through (mem g (by simp)).2 rj et ej
  | finish G1 g G2 eb et limbs a b =>
    have ok := hI.ok g (by simp)
    obtain ⟨ri, rj⟩ := mem g (by simp)
    have hij : g.b ≠ g.t := by intro e; have := ok.labB; rw [e, ok.labT] at this; cases this
    obtain ⟨a, b, ha, hb, hab⟩ := left ri rj hij eb et
    have hlt : (ed g.b).Lt (ed g.t) := by
      rw [flat_append, List.pairwise_append, flat_cons, List.pairwise_cons] at hsrt
      exact hsrt.2.1.1 g.t (by simp)
    refine ⟨a, b, ha, hb, (ed g.b).1, (ed g.t).1, hab, ⟨eb ▸ E.lt _ ri.1 ri.2, et ▸ E.lt _ rj.1 rj.2, lt_left_wedge eb et hlt⟩, ?_, ?_⟩
    · intro r hw; exact (sideR g.t rj.1 rj.2 et r hw).2 ok.labT
    · intro r hw; rw [sideR g.b ri.1 ri.2 eb r hw, ok.labB]; simp
  | merge G1 g g' G2 et eb limbs limbs' =>
    have ok := hI.ok g (by simp)
    have ok' := hI.ok g' (by simp)
    have ri := (mem g (by simp)).2
    have rj := (mem g' (by simp)).1
    have hij : g.t ≠ g'.b := by intro e; have := ok'.labB; rw [← e, ok.labT] at this; cases this
    obtain ⟨a, b, ha, hb, hab⟩ := left ri rj hij et eb
    have hlt : (ed g.t).Lt (ed g'.b) := by
      rw [flat_append, List.pairwise_append, flat_cons, flat_cons, List.pairwise_cons, List.pairwise_cons] at hsrt
      exact hsrt.2.1.2.1 g'.b (by simp)
    refine ⟨a, b, ha, hb, (ed g.t).1, (ed g'.b).1, hab, ⟨et ▸ E.lt _ ri.1 ri.2, eb ▸ E.lt _ rj.1 rj.2, lt_left_wedge et eb hlt⟩, ?_, ?_⟩
    · intro r hw; rw [sideR g'.b rj.1 rj.2 eb r hw, ok'.labB]; simp
    · intro r hw; exact (sideR g.t ri.1 ri.2 et r hw).2 ok.labT

/-! ## C51, C56: the pieces -/

theorem decomposed_area {out : List (MonoPoly K)} (D : Decomposed n ed top out) {rings : List (List (Pt K))}
    (h : out.mapM MonoPoly.intoPolygon = some rings) : ∀ ring ∈ rings, ringArea ring < 0 := by
  intro ring hr
  obtain ⟨m, hm, e⟩ := mem_mapM h ring hr
  obtain ⟨ring', e', -, -, -, -, ha, -⟩ := C43_into_polygon m (D.pair m hm)
  rw [e, Option.some.injEq] at e'
  subst e'
  obtain ⟨r, h1, h2⟩ := D.between hm
  have := (area_between (D.pair m hm) (D.nowhere hm)).2 r h1 h2
  rw [ha]; linarith

/-- **C51, C56.** On a valid polygon `monotone_chains` returns: in the debug build and in the release build, whatever the sort does
with equal elements. The upper and the lower chain of every piece are increasing and have common ends, and the upper chain is nowhere
below the lower one. Every piece has a positive area, and the areas add up to the area of the exterior less those of the
holes. Every point inside the polygon
is inside exactly one piece, and a point outside is in none. -/
theorem C51_monotone_chains (dbg : Bool) (srt : List (Event K) → List (Event K)) {p : Polygon K} (h : ValidPolygon p.ext p.ints) :
    ∃ out rings, monotoneChains dbg srt p = some out ∧ out.mapM MonoPoly.intoPolygon = some rings ∧
      (∀ m ∈ out, MonotonePair m.top m.bot ∧ NowhereBelow m.top m.bot) ∧
      (rings.map fun ring => - ringArea ring).sum = |ringArea p.ext| - (p.ints.map fun r => |ringArea r|).sum ∧
      (∀ ring ∈ rings, ringArea ring < 0) ∧
      ∀ r, (rings.countP fun ring => EvenOdd [ring] r) = if EvenOdd (p.ext :: p.ints) r then 1 else 0 := by
  obtain ⟨out, o1, D⟩ := monotoneChains_ok dbg srt h
  obtain ⟨rings, h1, h2, h3⟩ := D.cover (edges_valid h)
  refine ⟨out, rings, o1, h1, fun m hm => ⟨D.pair m hm, D.nowhere hm⟩, ?_, decomposed_area D h1, fun r => ?_⟩
  · rw [← area_valid h, ← h3]
  · rw [h2 r]
    simp only [evenOdd_count]

/-- The hypothesis that the polygon is valid cannot be dropped: on this ring, which crosses itself, the function returns (also with the
debug assertions), but its only piece has the chains swapped along most of its width, and its area, which is the negative of the sum of
`ringArea`, is the negative of that of the ring. -/
example : ∃ (p : Polygon ℚ) (out : List (MonoPoly ℚ)) (rings : List (List (Pt ℚ))), monotoneChains true id p = some out ∧
    out.mapM MonoPoly.intoPolygon = some rings ∧ (rings.map fun ring => - ringArea ring).sum = - (3 / 2) ∧ |ringArea p.ext| = 3 / 2 :=
  ⟨⟨[⟨0, 1⟩, ⟨1, 2⟩, ⟨3, 1⟩, ⟨3, 4⟩, ⟨4, 4⟩, ⟨0, 1⟩], []⟩,
    [⟨[⟨0, 1⟩, ⟨1, 2⟩, ⟨3, 1⟩, ⟨3, 4⟩, ⟨4, 4⟩], [⟨0, 1⟩, ⟨4, 4⟩]⟩],
    [[⟨0, 1⟩, ⟨1, 2⟩, ⟨3, 1⟩, ⟨3, 4⟩, ⟨4, 4⟩, ⟨0, 1⟩]], by decide +kernel⟩

/-- A valid polygon has a positive area, and so `monotone_chains` returns at least one piece. -/
theorem C56_area_pos {p : Polygon K} (h : ValidPolygon p.ext p.ints) : 0 < |ringArea p.ext| - (p.ints.map fun r => |ringArea r|).sum := by
  obtain ⟨out, -, D⟩ := monotoneChains_ok false id h
  rw [← area_valid h]
  exact D.pos (edges_valid h) (dir_length_pos h)

/-- **C56.** `monotone_chains` does not panic on a valid polygon. -/
theorem C56_debug_release (srt srt' : List (Event K) → List (Event K)) {p : Polygon K} (h : ValidPolygon p.ext p.ints) :
    (monotoneChains true srt p).isSome ∧ (monotoneChains false srt' p).isSome := by
  obtain ⟨out, o1, -⟩ := monotoneChains_ok true srt h
  obtain ⟨out', o2, -⟩ := monotoneChains_ok false srt' h
  simp [o1, o2]

/-! ## C53: the interior side of an edge -/

/-- `q` is on the interior side of the edge from `a` to `b` of a ring around the interior with winding `w`. -/
def InteriorSide (a b : Pt K) (w : Winding) (q : Pt K) : Prop :=
  match w with
  | .counterClockwise => 0 < det a b q
  | .clockwise => det a b q < 0

/-- **C53.** The segment of an edge goes from left to right, and records on which side the interior is. -/
theorem C53_interior_side (k : Nat) {a b : Pt K} (hab : a ≠ b) (w : Winding) : ∃ lo hi h, Seg.new k ⟨a, b⟩ w = ⟨k, .line lo hi, h⟩ ∧ lo < hi ∧
    ((lo = a ∧ hi = b) ∨ (lo = b ∧ hi = a)) ∧
    (∀ q, InteriorSide a b w q ↔ InteriorSide lo hi (Seg.new k ⟨a, b⟩ w).interiorWinding q) ∧ ∀ x, h = some x → x = ⟨lo, false⟩ := by
  have e1 : ∀ q, det b a q = - det a b q := fun q => by unfold det; ring
  rcases lt_or_gt_of_ne hab with h | h
  · refine ⟨a, b, _, by simp [Seg.new, h.not_gt]; rfl, h, .inl ⟨rfl, rfl⟩, fun q => ?_, ?_⟩
    · cases w <;> simp [Seg.new, h.not_gt, InteriorSide, Seg.interiorWinding]
    · cases w <;> simp
  · refine ⟨b, a, _, by simp [Seg.new, h]; rfl, h, .inr ⟨rfl, rfl⟩, fun q => ?_, ?_⟩
    · cases w <;> simp [Seg.new, h, InteriorSide, Seg.interiorWinding, Winding.inverse, e1]
    · cases w <;> simp [Winding.inverse]

/-- **C53.** The segment does not depend on the direction in which the edge is traversed. -/
theorem C53_direction (k : Nat) {a b : Pt K} (hab : a ≠ b) (w : Winding) : Seg.new k ⟨a, b⟩ w = Seg.new k ⟨b, a⟩ w.inverse := by
  rcases lt_or_gt_of_ne hab with h | h
  · cases w <;> simp [Seg.new, h.not_gt, h, Winding.inverse]
  · cases w <;> simp [Seg.new, h.not_gt, h, Winding.inverse]

/-- **C53.** In the sweep over a valid polygon, the segments record the interior side correctly: at the inner points of a segment, the
side just below is interior iff the segment says so. -/
theorem C53_segments (srt : List (Event K) → List (Event K)) {p : Polygon K} (h : ValidPolygon p.ext p.ints) :
    ∃ sw, Sweep.fromPolygon srt p = some sw ∧ ∀ s ∈ sw.segments.tail, ∃ lo hi, s.geom = .line lo hi ∧ lo < hi ∧
      ∀ r, Within lo hi r → (EvenOdd (p.ext :: p.ints) r ↔ s.interiorWinding = .clockwise) := by
  obtain ⟨out, -, D⟩ := monotoneChains_ok false id h
  obtain ⟨sw, u, hf, -, -, hS⟩ := fromPolygon_ok srt h
  refine ⟨sw, hf, fun s hs => ?_⟩
  obtain ⟨c, hp, hseg, hH⟩ := hS.segs
  rw [hseg, sl, List.tail_cons] at hs
  obtain ⟨k, hk, rfl⟩ := List.mem_map.1 hs
  have hk1 : 1 ≤ k := by rw [List.mem_range'_1] at hk; omega
  have hk2 : k ≤ (dir (ringsOf p.ext p.ints)).length := by rw [List.mem_range'_1] at hk; omega
  refine ⟨_, _, rfl, (edges_valid h).lt k hk1 hk2, fun r hw => ?_⟩
  obtain ⟨r1, r2, r3⟩ := within_lt ((edges_valid h).lt k hk1 hk2) hw
  rw [evenOdd_count, D.side (edges_valid h) hk1 hk2 r1 r2 r3, ← hH.lab k hk1 hk2]
  simp only [Seg.interiorWinding]
  cases (hp k).isSome <;> simp

/-- **C53.** Reversing any of the rings of a valid polygon gives the same segments, up to their order. -/
theorem C53_reversed (srt : List (Event K) → List (Event K)) {p p' : Polygon K} (h : ValidPolygon p.ext p.ints)
    (hs : List.Forall₂ (fun r r' => r' = r ∨ r' = r.reverse) (p.ext :: p.ints) (p'.ext :: p'.ints)) :
    ∃ sw sw', Sweep.fromPolygon srt p = some sw ∧ Sweep.fromPolygon srt p' = some sw' ∧
      (sw'.segments.tail.map fun s => (s.geom, s.helper)).Perm (sw.segments.tail.map fun s => (s.geom, s.helper)) := by
  obtain ⟨sw, u, h1, h2, -⟩ := fromPolygon_ok srt h
  obtain ⟨sw', u', h1', h2', -⟩ := fromPolygon_ok srt (valid_same h hs)
  refine ⟨sw, sw', h1, h1', ?_⟩
  have key : ∀ L : List (Sg K × Winding), ((build L).segments.tail.map fun s => (s.geom, s.helper)) =
      (L.map kept).map fun y => (LineOrPoint.line y.1.1 y.1.2, if y.2 then some (⟨y.1.1, false⟩ : Helper K) else none) := by
    intro L
    have e : L.map kept = (L.zipIdx 1).map fun x => kept x.1 := by
      rw [show (fun x : (Sg K × Winding) × Nat => kept x.1) = kept ∘ Prod.fst from rfl, ← List.map_map]
      simp
    rw [e]
    simp only [build, List.tail_cons, List.map_map]
    rfl
  rw [h2, h2', key, key]
  exact (kept_same h hs).map _

/-! ## C38: the winding of a ring is the sign of its area -/

/-- **C38.** For a simple ring, `from_coords` succeeds, and the ring is a hole iff the sign of its area differs from the region's winding. -/
theorem C38_is_hole {l : List (Pt K)} (h : ValidPolygon (closeRing l) []) (w : Winding) : ∃ g, Ring.fromCoords l w = some g ∧ g.coords = closeRing l ∧
    ringArea (closeRing l) ≠ 0 ∧ (g.isHole = true ↔ match w with | .clockwise => 0 < ringArea (closeRing l) | .counterClockwise => ringArea (closeRing l) < 0) := by
  unfold Ring.fromCoords
  simp only [windingOrder_valid h (r := closeRing l) (by simp), Option.map_some]
  refine ⟨_, rfl, rfl, ?_⟩
  rcases winding_area h with ⟨e1, e2⟩ | ⟨e1, e2⟩ <;> rw [e1] <;> cases w <;> simp [e2, e2.ne, e2.ne', e2.le]

/-- Without the hypothesis that the ring is simple the winding need not be the sign of the area: here the ring turns counter-clockwise
around a small triangle at its least vertex, crosses itself, and turns clockwise around a larger one. -/
example : ∃ l : List (Pt ℚ), l.Nodup ∧ 0 > ringArea (closeRing l) ∧
    (Ring.fromCoords l .counterClockwise).map Ring.isHole = some false :=
  ⟨[⟨0, 0⟩, ⟨2, -1⟩, ⟨10, 9⟩, ⟨10, -9⟩, ⟨2, 1⟩], by decide +kernel⟩

/-! ## An example

A polygon with a hole, on which all types of vertices occur. -/

namespace Demo

def outer : List (Pt ℚ) := [⟨0, 0⟩, ⟨10, -1⟩, ⟨6, 2⟩, ⟨11, 8⟩, ⟨1, 9⟩, ⟨4, 3⟩, ⟨0, 0⟩]
def hole : List (Pt ℚ) := [⟨5, 4⟩, ⟨7, 5⟩, ⟨5, 6⟩, ⟨5, 4⟩]

theorem valid : ValidPolygon outer [hole] := validPolygon_of_check (by decide +kernel)

example : (monotoneChains true id ⟨outer, [hole]⟩) = some
    [⟨[⟨0, 0⟩, ⟨4, 3⟩, ⟨5, 4⟩, ⟨6, 2⟩, ⟨10, -1⟩], [⟨0, 0⟩, ⟨10, -1⟩]⟩,
     ⟨[⟨1, 9⟩, ⟨11, 8⟩], [⟨1, 9⟩, ⟨4, 3⟩, ⟨5, 4⟩, ⟨5, 6⟩, ⟨7, 5⟩, ⟨11, 8⟩]⟩,
     ⟨[⟨5, 4⟩, ⟨7, 5⟩, ⟨11, 8⟩], [⟨5, 4⟩, ⟨6, 2⟩, ⟨11, 8⟩]⟩] := by decide +kernel

example : |ringArea outer| - ([hole].map fun r => |ringArea r|).sum = 53 := by decide +kernel

/-- The types of the vertices in the order of the sweep. -/
def types (p : Polygon ℚ) : Option (List VertexType) :=
  let rec go : Nat → Sweep ℚ → Option (List VertexType)
    | 0, _ => some []
    | n + 1, sw => match processEvent sw with
      | none => none
      | some (_, none) => some []
      | some (sw, some ev) => (go n sw).map (ev.ty :: ·)
  (Sweep.fromPolygon id p).bind (go 20)

example : types ⟨outer, [hole]⟩ = some [.start, .start, .merge, .split, .cont, .split, .merge, .finish, .finish] := by decide +kernel

/-- A simple ring for `C38_is_hole`. -/
example : ValidPolygon (closeRing [(⟨0, 0⟩ : Pt ℚ), ⟨10, -1⟩, ⟨6, 2⟩, ⟨11, 8⟩, ⟨1, 9⟩, ⟨4, 3⟩]) [] ∧
    0 < ringArea (closeRing [(⟨0, 0⟩ : Pt ℚ), ⟨10, -1⟩, ⟨6, 2⟩, ⟨11, 8⟩, ⟨1, 9⟩, ⟨4, 3⟩]) :=
  ⟨validPolygon_of_check (K := ℚ) (by decide +kernel), by decide +kernel⟩

end Demo

end GeoCrossings.Monotone
