import Verif.Props.Affine
import Verif.Lemmas.MonoArea
import Verif.Lemmas.LamInput
import Verif.Model.Bench

/-! # Validity under affine maps, and bounding rectangles -/
set_option linter.unusedSectionVars false
namespace GeoCrossings
open Spec

variable {K : Type} [Field K] [LinearOrder K] [IsStrictOrderedRing K]

theorem mem_dropLast_closed {r : List (Pt K)} (h : Closed r) {v : Pt K} (hv : v ∈ r) (hl : 4 ≤ r.length) : v ∈ r.dropLast := by
  cases r with
  | nil => cases hv
  | cons a l =>
    rcases List.mem_cons.1 hv with rfl | hv
    · cases l with
      | nil => simp at hl
      | cons b l => simp
    · exact (closed_tail_perm h).subset hv

/-- A vertex of a ring is not on another ring. -/
theorem off_ring {rings : List (List (Pt K))} (hcl : ∀ r ∈ rings, r.head? = r.getLast? ∧ 4 ≤ r.length)
    (hm : ∀ e ∈ rings.flatMap ringEdges, ∀ e' ∈ rings.flatMap ringEdges, e ≠ e' →
      ∀ x, OnSeg e.1 e.2 x → OnSeg e'.1 e'.2 x → (x = e.1 ∨ x = e.2) ∧ (x = e'.1 ∨ x = e'.2))
    {r r' : List (Pt K)} (hr : r ∈ rings) (hr' : r' ∈ rings) (hd : List.Disjoint r.dropLast r'.dropLast) {v : Pt K} (hv : v ∈ r') :
    ¬ OnRings [r] v := by
  rintro ⟨l, hl, e, he, ho⟩
  obtain rfl := List.mem_singleton.1 hl
  have hv' := mem_dropLast_closed (hcl r' hr').1 hv (hcl r' hr').2
  have hv'' := hv'
  rw [← zip_tail_fst] at hv''
  obtain ⟨e', he', rfl⟩ := List.mem_map.1 hv''
  have m1 : e.1 ∈ l.dropLast := by rw [← zip_tail_fst]; exact List.mem_map_of_mem he
  have m2 : e.2 ∈ l.dropLast := (closed_tail_perm (hcl l hr).1).subset (List.of_mem_zip (a := e.1) (b := e.2) he).2
  have hne : e ≠ e' := by
    rintro rfl
    exact hd m1 hv'
  rcases (hm e (List.mem_flatMap.2 ⟨l, hr, he⟩) e' (List.mem_flatMap.2 ⟨r', hr', he'⟩) hne _ ho (onSeg_left _ _)).1 with k | k
  · rw [k] at hv'; exact hd m1 hv'
  · rw [k] at hv'; exact hd m2 hv'

/-- The image of a valid polygon is valid. -/
theorem Spec.ValidPolygon.image (T : Affine K) {ext : List (Pt K)} {holes : List (List (Pt K))} (h : ValidPolygon ext holes) :
    ValidPolygon (ext.map T.app) (holes.map (List.map T.app)) := by
  have hR : ext.map T.app :: holes.map (List.map T.app) = T.rings (ext :: holes) := rfl
  have hdis := (List.nodup_flatMap.1 h.distinct).2
  refine ⟨?_, ?_, ?_, ?_, ?_⟩
  · rw [hR]
    intro l hl
    obtain ⟨l', h1, rfl⟩ := rings_mem.1 hl
    rw [List.head?_map, List.getLast?_map, List.length_map, (h.closed l' h1).1]
    exact ⟨rfl, (h.closed l' h1).2⟩
  · rw [hR]
    have e : (T.rings (ext :: holes)).flatMap List.dropLast = ((ext :: holes).flatMap List.dropLast).map T.app := by
      unfold Affine.rings
      rw [List.flatMap_map, List.map_flatMap]
      congr 1
      funext l
      rw [List.map_dropLast]
    rw [e]
    exact h.distinct.map fun _ _ => T.app_inj.1
  · rw [hR, rings_edges]
    intro e me e' me' hne x h1 h2
    obtain ⟨e, he, rfl⟩ := List.mem_map.1 me
    obtain ⟨e', he', rfl⟩ := List.mem_map.1 me'
    rw [← T.app_inv x, T.onSeg] at h1 h2
    have := h.meet e he e' he' (fun k => hne (by rw [k])) _ h1 h2
    rw [← T.app_inv x]
    simp only [T.app_inj]
    exact this
  · intro l hl v hv
    obtain ⟨l, h1, rfl⟩ := List.mem_map.1 hl
    obtain ⟨v, h2, rfl⟩ := List.mem_map.1 hv
    refine (C90_inside T (R := [ext]) (fun r hr => ?_) ?_).2 (h.inside l h1 v h2)
    · rw [List.mem_singleton.1 hr]; exact (h.closed ext (by simp)).1
    · exact off_ring h.closed h.meet (by simp) (List.mem_cons_of_mem _ h1) ((List.pairwise_cons.1 hdis).1 l h1) h2
  · rw [List.pairwise_map]
    have h1 := (List.pairwise_cons.1 hdis).2
    have h2 := List.Pairwise.and_mem.1 (h.apart.and h1)
    refine h2.imp ?_
    rintro a b ⟨ma, mb, ⟨k1, k2⟩, kd⟩
    have kd' : List.Disjoint a.dropLast b.dropLast := kd
    have side : ∀ {a b : List (Pt K)}, a ∈ holes → b ∈ holes → List.Disjoint b.dropLast a.dropLast → (∀ v ∈ a, ¬ EvenOdd [b] v) →
        ∀ v ∈ a.map T.app, ¬ EvenOdd [b.map T.app] v := by
      intro a b ma mb kd k v hv
      obtain ⟨v, h2, rfl⟩ := List.mem_map.1 hv
      rw [show [b.map T.app] = T.rings [b] from rfl, C90_inside T (R := [b])
        (fun r hr => by rw [List.mem_singleton.1 hr]; exact (h.closed b (by simp [mb])).1)
        (off_ring h.closed h.meet (List.mem_cons_of_mem _ mb) (List.mem_cons_of_mem _ ma) kd h2)]
      exact k v h2
    exact ⟨side ma mb kd'.symm k1, side mb ma kd' k2⟩

/-- The reflection that swaps the coordinates. -/
def swapMap : Affine K := ⟨0, 1, 1, 0, 0, 0, by simp⟩

theorem swapMap_app (p : Pt K) : (swapMap : Affine K).app p = ⟨p.y, p.x⟩ := by simp [swapMap, Affine.app]

theorem swapXY_eq (p : Polygon K) : p.swapXY = ⟨p.ext.map (swapMap : Affine K).app, p.ints.map (List.map (swapMap : Affine K).app)⟩ := by
  unfold Polygon.swapXY
  congr 2 <;> funext c
  · exact (swapMap_app c).symm
  · congr 1; funext c; exact (swapMap_app c).symm

/-! ## Bounding rectangles -/

theorem boundingRect_fold : ∀ (cs : List (Pt K)) (r : Rect K), let s := cs.foldl (fun r q => (⟨min r.minX q.x, max r.maxX q.x, min r.minY q.y, max r.maxY q.y⟩ : Rect K)) r
    (s.minX ≤ r.minX ∧ r.maxX ≤ s.maxX ∧ s.minY ≤ r.minY ∧ r.maxY ≤ s.maxY) ∧
    ∀ q ∈ cs, s.minX ≤ q.x ∧ q.x ≤ s.maxX ∧ s.minY ≤ q.y ∧ q.y ≤ s.maxY
  | [], r => by simp
  | c :: cs, r => by
    obtain ⟨⟨h1, h2, h3, h4⟩, h5⟩ := boundingRect_fold cs ⟨min r.minX c.x, max r.maxX c.x, min r.minY c.y, max r.maxY c.y⟩
    simp only [List.foldl_cons]
    refine ⟨⟨h1.trans (min_le_left _ _), (le_max_left _ _).trans h2, h3.trans (min_le_left _ _), (le_max_left _ _).trans h4⟩, fun q hq => ?_⟩
    rcases List.mem_cons.1 hq with rfl | hq
    · exact ⟨h1.trans (min_le_right _ _), (le_max_right _ _).trans h2, h3.trans (min_le_right _ _), (le_max_right _ _).trans h4⟩
    · exact h5 q hq

theorem crossSum_vertical {x : K} : ∀ (l : List (Pt K)), (∀ p ∈ l, p.x = x) → ∀ {a b}, l.head? = some a → l.getLast? = some b → crossSum l = x * (b.y - a.y)
  | [], _ => by simp
  | [c], h => by
    intro h1 h2
    simp at h1 h2
    subst h1 h2
    simp [crossSum]
  | c :: d :: l, h => by
    intro h1 h2
    simp only [List.head?_cons, Option.some.injEq] at h1
    subst h1
    rw [crossSum, crossSum_vertical (d :: l) (fun p hp => h p (by simp [hp])) rfl (by simpa using h2), h c (by simp), h d (by simp)]
    ring

theorem crossSum_horizontal {y : K} : ∀ (l : List (Pt K)), (∀ p ∈ l, p.y = y) → ∀ {a b}, l.head? = some a → l.getLast? = some b → crossSum l = y * (a.x - b.x)
  | [], _ => by simp
  | [c], h => by
    intro h1 h2
    simp at h1 h2
    subst h1 h2
    simp [crossSum]
  | c :: d :: l, h => by
    intro h1 h2
    simp only [List.head?_cons, Option.some.injEq] at h1
    subst h1
    rw [crossSum, crossSum_horizontal (d :: l) (fun p hp => h p (by simp [hp])) rfl (by simpa using h2), h c (by simp), h d (by simp)]
    ring

/-- The bounding rectangle of a valid polygon is not degenerate. -/
theorem boundingRect_valid {p : Polygon K} (h : ValidPolygon p.ext p.ints) : ∃ r, p.boundingRect = some r ∧ r.minX < r.maxX ∧ r.minY < r.maxY ∧
    ∀ q ∈ p.ext, r.minX ≤ q.x ∧ q.x ≤ r.maxX ∧ r.minY ≤ q.y ∧ q.y ≤ r.maxY := by
  have hn : ringArea p.ext ≠ 0 := by
    rcases Monotone.winding_area (Monotone.valid_single h (r := p.ext) (by simp)) with ⟨-, k⟩ | ⟨-, k⟩
    · exact k.ne
    · exact k.ne'
  obtain ⟨hc, hl⟩ := h.closed p.ext (by simp)
  unfold Polygon.boundingRect
  generalize p.ext = l at *
  cases l with
  | nil => simp at hl
  | cons c cs =>
    refine ⟨_, rfl, ?_⟩
    obtain ⟨⟨h1, h2, h3, h4⟩, h5⟩ := boundingRect_fold cs ⟨c.x, c.x, c.y, c.y⟩
    generalize cs.foldl (fun r q => (⟨min r.minX q.x, max r.maxX q.x, min r.minY q.y, max r.maxY q.y⟩ : Rect K)) ⟨c.x, c.x, c.y, c.y⟩ = s at *
    simp only at h1 h2 h3 h4
    have hq : ∀ q ∈ c :: cs, s.minX ≤ q.x ∧ q.x ≤ s.maxX ∧ s.minY ≤ q.y ∧ q.y ≤ s.maxY := by
      intro q hq
      rcases List.mem_cons.1 hq with rfl | hq
      · exact ⟨h1, h2, h3, h4⟩
      · exact h5 q hq
    refine ⟨lt_of_le_of_ne (h1.trans h2) fun k => hn ?_, lt_of_le_of_ne (h3.trans h4) fun k => hn ?_, hq⟩
    · unfold ringArea
      rw [crossSum_vertical (x := s.minX) _ (fun q m => le_antisymm (k ▸ (hq q m).2.1) (hq q m).1) rfl (hc.symm.trans rfl)]
      simp
    · unfold ringArea
      rw [crossSum_horizontal (y := s.minY) _ (fun q m => le_antisymm (k ▸ (hq q m).2.2.2) (hq q m).2.2.1) rfl (hc.symm.trans rfl)]
      simp

end GeoCrossings
