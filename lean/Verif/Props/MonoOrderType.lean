import Verif.Lemmas.OrderType
import Verif.Lemmas.ValidMap
import Verif.Props.MonoExact

/-!
# Whether a polygon is valid depends only on the order of its vertices and on their turns (C101)
-/
set_option linter.unusedSectionVars false
namespace GeoCrossings.Monotone
open Spec OrderType

variable {K L : Type} [Field K] [LinearOrder K] [IsStrictOrderedRing K] [Field L] [LinearOrder L] [IsStrictOrderedRing L]

theorem orient2d_pos {a b c : Pt K} : orient2d a b c = .counterClockwise ↔ 0 < det a b c := by
  unfold orient2d
  split_ifs with h1 h2 <;> simp [h1]

theorem orient2d_neg {a b c : Pt K} : orient2d a b c = .clockwise ↔ det a b c < 0 := by
  unfold orient2d
  split_ifs with h1 h2
  · simp [_root_.lt_asymm h1]
  · simp [h2]
  · simp [h2]

section
variable {p : Polygon K} {φ : Pt K → Pt L} (H : KeepsTests p φ)
include H

theorem KeepsTests.eq {a b : Pt K} (ha : Vert p a) (hb : Vert p b) : φ a = φ b ↔ a = b := by
  refine ⟨fun h => ?_, fun h => by rw [h]⟩
  have h1 := H.lt a b ha hb
  have h2 := H.lt b a hb ha
  rw [h] at h1 h2
  rcases lt_trichotomy a b with k | k | k
  · exact absurd (h1.2 k) (lt_irrefl _)
  · exact k
  · exact absurd (h2.2 k) (lt_irrefl _)

theorem KeepsTests.le {a b : Pt K} (ha : Vert p a) (hb : Vert p b) : φ a ≤ φ b ↔ a ≤ b := by
  rw [← not_lt, ← not_lt, H.lt b a hb ha]

theorem KeepsTests.pos {a b c : Pt K} (ha : Vert p a) (hb : Vert p b) (hc : Vert p c) : 0 < det (φ a) (φ b) (φ c) ↔ 0 < det a b c := by
  rw [← orient2d_pos, ← orient2d_pos, H.ori a b c ha hb hc]

theorem KeepsTests.neg {a b c : Pt K} (ha : Vert p a) (hb : Vert p b) (hc : Vert p c) : det (φ a) (φ b) (φ c) < 0 ↔ det a b c < 0 := by
  rw [← orient2d_neg, ← orient2d_neg, H.ori a b c ha hb hc]

theorem KeepsTests.zero {a b c : Pt K} (ha : Vert p a) (hb : Vert p b) (hc : Vert p c) : det (φ a) (φ b) (φ c) = 0 ↔ det a b c = 0 := by
  have h1 := H.pos ha hb hc
  have h2 := H.neg ha hb hc
  constructor
  · intro h
    rw [h] at h1 h2
    exact le_antisymm (not_lt.1 fun k => lt_irrefl _ (h1.2 k)) (not_lt.1 fun k => lt_irrefl _ (h2.2 k))
  · intro h
    rw [h] at h1 h2
    exact le_antisymm (not_lt.1 fun k => lt_irrefl _ (h1.1 k)) (not_lt.1 fun k => lt_irrefl _ (h2.1 k))

/-- **C101 (on a side).** Whether a vertex is on the segment between two others is determined by the tests. -/
theorem KeepsTests.onSeg {a b c : Pt K} (ha : Vert p a) (hb : Vert p b) (hc : Vert p c) : OnSeg (φ a) (φ b) (φ c) ↔ OnSeg a b c := by
  rcases lt_trichotomy a b with h | h | h
  · rw [onSeg_iff h, onSeg_iff ((H.lt a b ha hb).2 h), H.zero ha hb hc, H.le ha hc, H.le hc hb]
  · rw [h, onSeg_refl_iff, onSeg_refl_iff, H.eq hc hb]
  · rw [show OnSeg (φ a) (φ b) (φ c) ↔ OnSeg (φ b) (φ a) (φ c) from ⟨onSeg_swap, onSeg_swap⟩,
      show OnSeg a b c ↔ OnSeg b a c from ⟨onSeg_swap, onSeg_swap⟩, onSeg_iff h, onSeg_iff ((H.lt b a hb ha).2 h), H.zero hb ha hc, H.le hb hc, H.le hc ha]

theorem KeepsTests.within {a b c : Pt K} (ha : Vert p a) (hb : Vert p b) (hc : Vert p c) (h : Within (φ a) (φ b) (φ c)) : Within a b c :=
  ⟨(H.onSeg ha hb hc).1 h.1, fun e => h.2.1 (by rw [e]), fun e => h.2.2 (by rw [e])⟩

theorem KeepsTests.opp {a b c d : Pt K} (ha : Vert p a) (hb : Vert p b) (hc : Vert p c) (hd : Vert p d)
    (h : OrderType.Opp (φ a) (φ b) (φ c) (φ d)) : OrderType.Opp a b c d := by
  unfold OrderType.Opp at h ⊢
  rwa [H.pos ha hb hc, H.pos ha hb hd, H.neg ha hb hc, H.neg ha hb hd] at h

/-- Two sides, not the same, meet in ends only; then so do their images. -/
theorem KeepsTests.meet {a b c d : Pt K} (ha : Vert p a) (hb : Vert p b) (hc : Vert p c) (hd : Vert p d) (hab : a ≠ b) (hcd : c ≠ d)
    (hne : ¬ (c = a ∧ d = b)) (h : ∀ x, OnSeg a b x → OnSeg c d x → (x = a ∨ x = b) ∧ (x = c ∨ x = d)) (x : Pt L)
    (h1 : OnSeg (φ a) (φ b) x) (h2 : OnSeg (φ c) (φ d) x) : (x = φ a ∨ x = φ b) ∧ (x = φ c ∨ x = φ d) := by
  by_contra hn
  rcases meet_cases (mt (H.eq ha hb).1 hab) (mt (H.eq hc hd).1 hcd) h1 h2 hn with (k | k) | (k | k) | (k | k) | ⟨k, k'⟩
  · have w := H.within ha hb hc k
    exact (h c w.1 (onSeg_left c d)).1.elim w.2.1 w.2.2
  · have w := H.within ha hb hd k
    exact (h d w.1 (onSeg_right c d)).1.elim w.2.1 w.2.2
  · have w := H.within hc hd ha k
    exact (h a (onSeg_left a b) w.1).2.elim w.2.1 w.2.2
  · have w := H.within hc hd hb k
    exact (h b (onSeg_right a b) w.1).2.elim w.2.1 w.2.2
  · exact hne ⟨(H.eq hc ha).1 k.1, (H.eq hd hb).1 k.2⟩
  · have e1 := (H.eq hc hb).1 k.1
    have e2 := (H.eq hd ha).1 k.2
    have w := within_of_param (x := ⟨a.x + 1 / 2 * (b.x - a.x), a.y + 1 / 2 * (b.y - a.y)⟩) hab (t := 1 / 2) (by norm_num) (by norm_num) rfl rfl
    exact (h _ w.1 (by rw [e1, e2]; exact onSeg_swap w.1)).1.elim w.2.1 w.2.2
  · obtain ⟨x, w, hx⟩ := cross_of_opp (H.opp ha hb hc hd k) (H.opp hc hd ha hb k')
    exact (h x w.1 hx).1.elim w.2.1 w.2.2

/-- **C101 (inside).** Whether a vertex is inside some of the rings is determined by the tests. -/
theorem KeepsTests.evenOdd {R : List (List (Pt K))} (hR : ∀ r ∈ R, r ∈ p.ext :: p.ints) (hc : ∀ r ∈ R, Spec.Closed r) {v : Pt K} (hv : Vert p v)
    (ho : ¬ OnRings R v) : EvenOdd (R.map (List.map φ)) (φ v) ↔ EvenOdd R v := by
  have hmem : ∀ r ∈ R, ∀ e ∈ ringEdges r, Vert p e.1 ∧ Vert p e.2 := fun r hr e he =>
    ⟨⟨r, hR r hr, (List.of_mem_zip he).1⟩, ⟨r, hR r hr, List.mem_of_mem_tail (List.of_mem_zip he).2⟩⟩
  have hed : ∀ r : List (Pt K), ringEdges (r.map φ) = (ringEdges r).map fun e => (φ e.1, φ e.2) := by
    intro r
    unfold ringEdges
    rw [← List.map_tail, List.zip_map]
    rfl
  rw [evenOdd_lex hc ho, evenOdd_lex]
  · rw [List.map_map]
    have : (R.map ((fun ring => (ringEdges ring).countP fun e => decide (LexBelow (φ v) e.1 e.2)) ∘ List.map φ)) =
        R.map fun ring => (ringEdges ring).countP fun e => decide (LexBelow v e.1 e.2) := by
      refine List.map_congr_left fun r hr => ?_
      simp only [Function.comp]
      rw [hed, List.countP_map]
      refine List.countP_congr fun e he => ?_
      obtain ⟨h1, h2⟩ := hmem r hr e he
      simp only [Function.comp, decide_eq_true_eq]
      unfold LexBelow
      rw [H.le h1 hv, H.le h2 hv, H.lt _ _ hv h1, H.lt _ _ hv h2, H.pos h1 h2 hv, H.pos h2 h1 hv]
    rw [this]
  · intro r hr
    obtain ⟨r', h1, rfl⟩ := List.mem_map.1 hr
    unfold Spec.Closed
    rw [List.head?_map, List.getLast?_map, hc r' h1]
  · rintro ⟨r, hr, e, he, h⟩
    obtain ⟨r', h1, rfl⟩ := List.mem_map.1 hr
    rw [hed] at he
    obtain ⟨e', h2, rfl⟩ := List.mem_map.1 he
    obtain ⟨k1, k2⟩ := hmem r' h1 e' h2
    exact ho ⟨r', h1, e', h2, (H.onSeg k1 k2 hv).1 h⟩

end

theorem moved_rings (φ : Pt K → Pt L) (p : Polygon K) :
    (movedPolygon φ p).ext :: (movedPolygon φ p).ints = (p.ext :: p.ints).map (List.map φ) := rfl

theorem ringEdges_map (φ : Pt K → Pt L) (R : List (List (Pt K))) :
    (R.map (List.map φ)).flatMap ringEdges = (R.flatMap ringEdges).map fun e => (φ e.1, φ e.2) := by
  induction R with
  | nil => rfl
  | cons r R ih =>
    rw [List.map_cons, List.flatMap_cons, List.flatMap_cons, List.map_append, ih]
    congr 1
    unfold ringEdges
    rw [← List.map_tail, List.zip_map]
    rfl

/-- A vertex of one ring of a valid polygon is not on another ring. -/
theorem off_other {ext : List (Pt K)} {holes : List (List (Pt K))} (h : ValidPolygon ext holes) {r r' : List (Pt K)} (hr : r ∈ ext :: holes)
    (hr' : r' ∈ ext :: holes) (hd : r.dropLast.Disjoint r'.dropLast) {v : Pt K} (hv : v ∈ r) : ¬ OnRings [r'] v := by
  rintro ⟨q, hq, e, he, ho⟩
  rw [List.mem_singleton] at hq
  subst hq
  have hv' : v ∈ r.dropLast := mem_dropLast_closed (h.closed r hr).1 hv (h.closed r hr).2
  rw [← es_fst] at hv'
  obtain ⟨f, hf, hfv⟩ := List.mem_map.1 hv'
  have h1 : e.1 ∈ q.dropLast := es_fst q ▸ List.mem_map_of_mem he
  have h2 : e.2 ∈ q.dropLast := es_fst q ▸ (es_perm (h.closed q hr').1 (h.closed q hr').2).mem_iff.1 (List.mem_map_of_mem (f := Prod.snd) he)
  have h3 : f.1 ∈ r.dropLast := es_fst r ▸ List.mem_map_of_mem hf
  have := (h.meet f (List.mem_flatMap.2 ⟨r, hr, hf⟩) e (List.mem_flatMap.2 ⟨q, hr', he⟩)
    (fun k => hd h3 (k ▸ h1)) v (hfv ▸ onSeg_left _ _) ho).2
  rw [← hfv] at this
  rcases this with k | k
  · exact hd h3 (k ▸ h1)
  · exact hd h3 (k ▸ h2)

/-- **C101 (one way).** -/
theorem valid_moved {p : Polygon K} {φ : Pt K → Pt L} (H : KeepsTests p φ) (h : ValidPolygon p.ext p.ints) :
    ValidPolygon (movedPolygon φ p).ext (movedPolygon φ p).ints := by
  have hd := h.distinct
  rw [List.nodup_flatMap] at hd
  obtain ⟨hd1, hd2⟩ := hd
  have hvt : ∀ e ∈ (p.ext :: p.ints).flatMap ringEdges, Vert p e.1 ∧ Vert p e.2 ∧ e.1 ≠ e.2 := by
    intro e he
    obtain ⟨r, hr, he⟩ := List.mem_flatMap.1 he
    exact ⟨⟨r, hr, (List.of_mem_zip he).1⟩, ⟨r, hr, List.mem_of_mem_tail (List.of_mem_zip he).2⟩,
      es_ne (h.closed r hr).1 (h.closed r hr).2 (hd1 r hr) he⟩
  have ev : ∀ r ∈ p.ext :: p.ints, ∀ r' ∈ p.ext :: p.ints, r.dropLast.Disjoint r'.dropLast → ∀ v ∈ r,
      (EvenOdd [r'.map φ] (φ v) ↔ EvenOdd [r'] v) := by
    intro r hr r' hr' hd v hv
    exact H.evenOdd (R := [r']) (by simpa using hr') (by intro l hl; rw [List.mem_singleton] at hl; subst hl; exact (h.closed _ hr').1) ⟨r, hr, hv⟩ (off_other h hr hr' hd hv)
  rw [List.pairwise_cons] at hd2
  refine ⟨?_, ?_, ?_, ?_, ?_⟩
  · intro r hr
    rw [moved_rings] at hr
    obtain ⟨r', h1, rfl⟩ := List.mem_map.1 hr
    rw [List.head?_map, List.getLast?_map, List.length_map, (h.closed r' h1).1]
    exact ⟨rfl, (h.closed r' h1).2⟩
  · rw [moved_rings]
    have : ((p.ext :: p.ints).map (List.map φ)).flatMap List.dropLast = ((p.ext :: p.ints).flatMap List.dropLast).map φ := by
      rw [List.flatMap_map, List.map_flatMap]
      exact List.flatMap_congr fun r _ => (List.map_dropLast).symm
    rw [this]
    refine List.Nodup.map_on (fun a ha b hb k => ?_) h.distinct
    obtain ⟨r, hr, ha⟩ := List.mem_flatMap.1 ha
    obtain ⟨r', hr', hb⟩ := List.mem_flatMap.1 hb
    exact (H.eq ⟨r, hr, List.mem_of_mem_dropLast ha⟩ ⟨r', hr', List.mem_of_mem_dropLast hb⟩).1 k
  · rw [moved_rings, ringEdges_map]
    intro e he f hf hne x hx hx'
    obtain ⟨e, ke, rfl⟩ := List.mem_map.1 he
    obtain ⟨f, kf, rfl⟩ := List.mem_map.1 hf
    obtain ⟨a1, a2, a3⟩ := hvt e ke
    obtain ⟨b1, b2, b3⟩ := hvt f kf
    have hef : e ≠ f := fun k => hne (by rw [k])
    exact H.meet a1 a2 b1 b2 a3 b3 (fun k => hef (Prod.ext k.1.symm k.2.symm)) (h.meet e ke f kf hef) x hx hx'
  · intro r hr v hv
    obtain ⟨r', h1, rfl⟩ := List.mem_map.1 hr
    obtain ⟨v', h2, rfl⟩ := List.mem_map.1 hv
    exact (ev r' (by simp [h1]) p.ext (by simp) (hd2.1 r' h1).symm v' h2).2 (h.inside r' h1 v' h2)
  · show List.Pairwise _ (p.ints.map (List.map φ))
    rw [List.pairwise_map]
    have := (h.apart.and hd2.2)
    refine List.Pairwise.imp_of_mem (fun {a b} ha hb k => ⟨fun v hv => ?_, fun v hv => ?_⟩) this
    · obtain ⟨v', h2, rfl⟩ := List.mem_map.1 hv
      rw [ev a (by simp [ha]) b (by simp [hb]) k.2 v' h2]
      exact k.1.1 v' h2
    · obtain ⟨v', h2, rfl⟩ := List.mem_map.1 hv
      rw [ev b (by simp [hb]) a (by simp [ha]) k.2.symm v' h2]
      exact k.1.2 v' h2

/-- The way back: a map that takes the moved vertices to where they were. -/
theorem moved_back {p : Polygon K} {φ : Pt K → Pt L} (H : KeepsTests p φ) :
    ∃ ψ : Pt L → Pt K, KeepsTests (movedPolygon φ p) ψ ∧ movedPolygon ψ (movedPolygon φ p) = p := by
  classical
  have : Nonempty (Pt K) := ⟨⟨0, 0⟩⟩
  have hb : ∀ a, Vert p a → Function.invFunOn φ {q | Vert p q} (φ a) = a := fun a ha =>
    Set.InjOn.leftInvOn_invFunOn (s := {q | Vert p q}) (fun x hx y hy k => (H.eq hx hy).1 k) ha
  have hv : ∀ q, Vert (movedPolygon φ p) q → ∃ a, Vert p a ∧ φ a = q := by
    rintro q ⟨r, hr, hq⟩
    rw [moved_rings] at hr
    obtain ⟨r', h1, rfl⟩ := List.mem_map.1 hr
    obtain ⟨a, h2, rfl⟩ := List.mem_map.1 hq
    exact ⟨a, ⟨r', h1, h2⟩, rfl⟩
  refine ⟨Function.invFunOn φ {q | Vert p q}, ⟨?_, ?_⟩, ?_⟩
  · intro a b ha hb'
    obtain ⟨a, ka, rfl⟩ := hv a ha
    obtain ⟨b, kb, rfl⟩ := hv b hb'
    rw [hb a ka, hb b kb, H.lt a b ka kb]
  · intro a b c ha hb' hc
    obtain ⟨a, ka, rfl⟩ := hv a ha
    obtain ⟨b, kb, rfl⟩ := hv b hb'
    obtain ⟨c, kc, rfl⟩ := hv c hc
    rw [hb a ka, hb b kb, hb c kc, H.ori a b c ka kb kc]
  · have hr : ∀ r ∈ p.ext :: p.ints, (r.map φ).map (Function.invFunOn φ {q | Vert p q}) = r := by
      intro r hr
      rw [List.map_map]
      exact (List.map_congr_left fun a ha => hb a ⟨r, hr, ha⟩).trans (List.map_id r)
    cases p with
    | mk ext ints =>
      unfold movedPolygon
      rw [Polygon.mk.injEq]
      refine ⟨hr ext (by simp), ?_⟩
      rw [List.map_map]
      exact (List.map_congr_left fun r h => hr r (by simp [h])).trans (List.map_id ints)

/-- **C101.** If moving the vertices of a polygon, perhaps into another number system, changes neither how two of them compare nor how three
of them turn, then the moved polygon is valid if and only if the polygon was: rings that do not touch or cross themselves or each other, holes
inside the exterior, holes outside each other. So everything proved of the pieces of a valid polygon holds of the moved polygon too. -/
theorem C101_valid_iff {p : Polygon K} {φ : Pt K → Pt L} (H : KeepsTests p φ) :
    ValidPolygon (movedPolygon φ p).ext (movedPolygon φ p).ints ↔ ValidPolygon p.ext p.ints := by
  refine ⟨fun h => ?_, valid_moved H⟩
  obtain ⟨ψ, H', e⟩ := moved_back H
  have := valid_moved H' h
  rwa [e] at this

namespace Demo

/-- A polygon with a hole. -/
def pierced : Polygon ℚ := ⟨[⟨0, 0⟩, ⟨8, -1⟩, ⟨10, 6⟩, ⟨2, 8⟩, ⟨0, 0⟩], [[⟨4, 2⟩, ⟨6, 4⟩, ⟨3, 4⟩, ⟨4, 2⟩]]⟩

/-- Each point is moved by its own amount. -/
def nudge (q : Pt ℚ) : Pt ℚ := ⟨q.x + q.y / 50 + q.x * q.y / 400, q.y - q.x * q.x / 600 + q.y * q.y / 700⟩

/-- C101 applies: the hole is still a hole after the vertices are moved, each by its own amount. -/
example : ValidPolygon (movedPolygon nudge pierced).ext (movedPolygon nudge pierced).ints :=
  (C101_valid_iff (keepsTests_of (by decide +kernel))).2 (validPolygon_of_check (K := ℚ) (by decide +kernel))

/-- This pulls one corner of the hole down, out of the exterior. -/
def pull (q : Pt ℚ) : Pt ℚ := if q = ⟨4, 2⟩ then ⟨4, -3⟩ else q

/-- The turns are needed: all vertices compare as before, and yet the polygon is no longer valid. -/
theorem C101_needs_turns : (∀ a b, Vert pierced a → Vert pierced b → (pull a < pull b ↔ a < b)) ∧ ValidPolygon pierced.ext pierced.ints ∧
    ¬ ValidPolygon (movedPolygon pull pierced).ext (movedPolygon pull pierced).ints := by
  refine ⟨?_, validPolygon_of_check (K := ℚ) (by decide +kernel), fun h => ?_⟩
  · have hm : ∀ a, Vert pierced a → a ∈ (pierced.ext :: pierced.ints).flatten := fun a ⟨r, hr, ha⟩ => List.mem_flatten.2 ⟨r, hr, ha⟩
    have : ∀ a ∈ (pierced.ext :: pierced.ints).flatten, ∀ b ∈ (pierced.ext :: pierced.ints).flatten, (pull a < pull b ↔ a < b) := by
      decide +kernel
    exact fun a b ha hb => this a (hm a ha) b (hm b hb)
  · exact absurd (h.inside _ (List.mem_singleton.2 rfl) ⟨4, -3⟩ (by decide +kernel)) (by decide +kernel)

end Demo

end GeoCrossings.Monotone
