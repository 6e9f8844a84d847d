import Verif.Lemmas.MonoTile
import Verif.Lemmas.Above

/-!
# Areas of the pieces, and the sign of the area of a simple ring
-/
set_option linter.unusedSectionVars false
namespace GeoCrossings.Monotone
open Spec

variable {K : Type} [Field K] [LinearOrder K] [IsStrictOrderedRing K] {n : Nat} {ed : Nat → Sg K} {top : Nat → Bool}
  {R : List (List (Pt K) × Winding)} {ext : List (Pt K)} {holes : List (List (Pt K))}

theorem edgeOf_es {a b : Pt K} : ∀ {l : List (Pt K)}, EdgeOf l a b ↔ (a, b) ∈ es l
  | [] => by
    constructor
    · rintro ⟨pre, post, h⟩; simp at h
    · intro h; simp [es] at h
  | [c] => by
    constructor
    · intro h; exact absurd h edgeOf_singleton
    · intro h; simp [es] at h
  | c :: d :: l => by
    rw [edgeOf_cons_iff, edgeOf_es, es_cons, List.mem_cons, Prod.mk.injEq]

theorem chainBelow_iff {l : List (Pt K)} (h : Incr l) {r : Pt K} : ChainBelow l r ↔ Pass r l := by
  unfold ChainBelow Pass
  constructor
  · rintro ⟨a, b, h1, h2⟩
    rw [edgeOf_es] at h1
    exact ⟨(a, b), h1, (passes_fwd (h.edge_lt h1).le).2 h2⟩
  · rintro ⟨e, h1, h2⟩
    exact ⟨e.1, e.2, edgeOf_es.2 h1, (passes_fwd (h.edge_lt h1).le).1 h2⟩

theorem Decomposed.nowhere {out : List (MonoPoly K)} (D : Decomposed n ed top out) {m : MonoPoly K} (hm : m ∈ out) : NowhereBelow m.top m.bot := by
  obtain ⟨-, -, -, -, -, h1, h2⟩ := D.pair m hm
  intro r hr
  rw [chainBelow_iff h1] at hr
  exact (chainBelow_iff h2).2 (D.above m hm r hr)

/-- There is a point inside every piece. -/
theorem Decomposed.between {out : List (MonoPoly K)} (D : Decomposed n ed top out) {m : MonoPoly K} (hm : m ∈ out) :
    ∃ r, ChainBelow m.bot r ∧ ¬ ChainBelow m.top r := by
  obtain ⟨-, -, -, -, -, h1, h2⟩ := D.pair m hm
  obtain ⟨r, k1, k2⟩ := D.full m hm
  exact ⟨r, (chainBelow_iff h2).2 k1, fun k => k2 ((chainBelow_iff h1).1 k)⟩

/-- The total area of the pieces is positive if there is a point inside. -/
theorem Decomposed.pos (E : Edges n ed top) {out : List (MonoPoly K)} (D : Decomposed n ed top out) (h0 : 1 ≤ n) :
    0 < edgeSum ed top trap (List.range' 1 n) := by
  obtain ⟨r, hr⟩ := D.inside E h0
  obtain ⟨rings, h1, h2, h3⟩ := D.cover E
  have h := h2 r
  rw [if_pos hr] at h
  have hpos : 0 < rings.countP fun ring => EvenOdd [ring] r := by omega
  obtain ⟨ring, hring, hin⟩ := List.countP_pos_iff.1 hpos
  obtain ⟨m, hm, hmr⟩ := mem_mapM h1 ring hring
  have hin := ((evenOdd_ring (D.pair m hm) (D.above m hm) hmr r).1).1 (of_decide_eq_true hin)
  rw [← D.bal]
  simp only [wt_trap]
  refine sum_pos' ?_ (List.mem_map_of_mem hm) ?_
  · intro x hx
    obtain ⟨m, hm, rfl⟩ := List.mem_map.1 hx
    exact (area_between (D.pair m hm) (D.nowhere hm)).1
  · obtain ⟨-, -, -, -, -, i1, i2⟩ := D.pair m hm
    refine (area_between (D.pair m hm) (D.nowhere hm)).2 r ((chainBelow_iff i2).2 hin.1) fun h => hin.2 ((chainBelow_iff i1).1 h)

theorem trap_swap (e : Sg K) : trap (e.2, e.1) = - trap e := by unfold trap; ring

theorem trap_lab (x : Sg K × Winding) : (if lab x then trap (norm x.1) else - trap (norm x.1)) = if x.2 = .clockwise then trap x.1 else - trap x.1 := by
  unfold lab norm
  obtain ⟨e, w⟩ := x
  by_cases h : e.2 < e.1
  · simp only [h, if_true]
    rw [trap_swap]
    cases w <;> simp [Winding.inverse]
  · simp only [h, if_false]
    cases w <;> simp

theorem edgeSum_rings (R : List (List (Pt K) × Winding)) : edgeSum (numEd R) (numTop R) trap (List.range' 1 (dir R).length) =
    (R.map fun r => if r.2 = .clockwise then areaUnder r.1 else - areaUnder r.1).sum := by
  have h1 : edgeSum (numEd R) (numTop R) trap (List.range' 1 (dir R).length) =
      ((dir R).map fun x => if lab x then trap (norm x.1) else - trap (norm x.1)).sum := by
    unfold edgeSum numEd numTop
    congr 1
    refine List.ext_getElem (by simp) fun i h1 h2 => ?_
    simp only [List.length_map] at h2
    simp [List.getElem?_eq_getElem h2]
  rw [h1]
  simp only [trap_lab]
  clear h1
  induction R with
  | nil => rfl
  | cons r R ih =>
    have e : dir (r :: R) = ((es r.1).map fun e => (e, r.2)) ++ dir R := rfl
    rw [e, List.map_append, List.sum_append, ih, List.map_cons, List.sum_cons]
    congr 1
    rw [List.map_map, ← wt_trap]
    unfold wt
    cases r.2
    · simp [Function.comp_def]
    · simp only [Function.comp_def, reduceCtorEq, if_false]
      induction es r.1 with
      | nil => simp
      | cons a l ih => rw [List.map_cons, List.sum_cons, ih, List.map_cons, List.sum_cons]; ring

theorem areaUnder_ring {r : List (Pt K)} (h : r.head? = r.getLast?) : areaUnder r = - ringArea r := by
  cases r with
  | nil => simp [areaUnder, ringArea, crossSum]
  | cons a l =>
    have := crossSum_eq a l a (by simpa using h.symm)
    unfold ringArea
    rw [this]; ring

theorem valid_single (h : ValidPolygon ext holes) {r : List (Pt K)} (hr : r ∈ ext :: holes) : ValidPolygon r [] where
  closed := fun q hq => by
    rw [List.mem_singleton] at hq
    exact hq ▸ h.closed r hr
  distinct := by
    have := h.distinct
    rw [List.nodup_flatMap] at this
    simpa using this.1 r hr
  meet := fun e he e' he' hne => h.meet e (by
    simp only [List.flatMap_cons, List.flatMap_nil, List.append_nil] at he
    exact List.mem_flatMap.2 ⟨r, hr, he⟩) e' (by
    simp only [List.flatMap_cons, List.flatMap_nil, List.append_nil] at he'
    exact List.mem_flatMap.2 ⟨r, hr, he'⟩) hne
  inside := by simp
  apart := List.Pairwise.nil

theorem dir_length_pos (h : ValidPolygon ext holes) : 1 ≤ (dir (ringsOf ext holes)).length := by
  have h4 := (h.closed ext (by simp)).2
  simp [dir, ringsOf, es]
  omega

/-- The winding of a simple ring is the sign of its area. -/
theorem winding_area (h : ValidPolygon ext []) : (wOf ext = .clockwise ∧ ringArea ext < 0) ∨ (wOf ext = .counterClockwise ∧ 0 < ringArea ext) := by
  obtain ⟨out, -, D⟩ := monotoneChains_ok false id (p := ⟨ext, []⟩) h
  have hp := D.pos (edges_valid h) (dir_length_pos h)
  rw [edgeSum_rings] at hp
  have := areaUnder_ring (h.closed ext (by simp)).1
  simp only [ringsOf, List.map_nil, List.map_cons, List.sum_cons, List.sum_nil, add_zero, this] at hp
  cases hw : wOf ext
  · rw [hw] at hp; simp at hp; exact .inl ⟨rfl, hp⟩
  · rw [hw] at hp; simp at hp; exact .inr ⟨rfl, hp⟩

theorem area_valid (h : ValidPolygon ext holes) : edgeSum (numEd (ringsOf ext holes)) (numTop (ringsOf ext holes)) trap
      (List.range' 1 (dir (ringsOf ext holes)).length) = |ringArea ext| - (holes.map fun r => |ringArea r|).sum := by
  rw [edgeSum_rings]
  have key : ∀ r ∈ ext :: holes, (if wOf r = .clockwise then areaUnder r else - areaUnder r) = |ringArea r| := by
    intro r hr
    rw [areaUnder_ring (h.closed r hr).1]
    rcases winding_area (valid_single h hr) with ⟨e1, e2⟩ | ⟨e1, e2⟩
    · rw [if_pos e1, abs_of_neg e2]
    · rw [e1, abs_of_pos e2]; simp
  simp only [ringsOf, List.map_cons, List.sum_cons, List.map_map, Function.comp_def]
  rw [key ext (by simp), sub_eq_add_neg]
  congr 1
  have : ∀ hs : List (List (Pt K)), (∀ r ∈ hs, r ∈ ext :: holes) →
      (hs.map fun r => if (wOf r).inverse = .clockwise then areaUnder r else - areaUnder r).sum = - (hs.map fun r => |ringArea r|).sum := by
    intro hs
    induction hs with
    | nil => intro _; simp
    | cons r hs ih =>
      intro hm
      rw [List.map_cons, List.map_cons, List.sum_cons, List.sum_cons, ih fun x hx => hm x (by simp [hx]), ← key r (hm r (by simp))]
      cases wOf r <;> simp [Winding.inverse] <;> ring
  exact this holes fun r hr => by simp [hr]

end GeoCrossings.Monotone
