import Verif.Spec.SweepOrder
import Verif.Lemmas.Geom
import Mathlib.Algebra.Ring.Parity

/-!
# Specification: inside and outside by the even-odd rule

A ray goes from the point `r` straight down. Edges are counted that it meets at a point strictly below `r`. An edge occupies the
columns from that of its left end, included, to that of its right end, excluded; a vertical edge occupies none. For a point that
is on no edge this is the usual even-odd rule; on an edge it gives the side just below (and right of) the point.
-/
namespace GeoCrossings.Spec

variable {K : Type _} [Field K] [LinearOrder K]

/-- The edge between `a` and `b` passes below `r`. -/
def PassesBelow (r a b : Pt K) : Prop :=
  min a.x b.x ≤ r.x ∧ r.x < max a.x b.x ∧ ∃ h, h < r.y ∧ OnSeg a b ⟨r.x, h⟩

section
variable [IsStrictOrderedRing K]

theorem PassesBelow.symm {r a b : Pt K} (h : PassesBelow r a b) : PassesBelow r b a := by
  obtain ⟨h1, h2, y, h3, t, t0, t1, tx, ty⟩ := h
  refine ⟨by rwa [min_comm], by rwa [max_comm], y, h3, 1 - t, ?_, ?_, ?_, ?_⟩
  · linarith
  · linarith
  · rw [tx]; ring
  · rw [ty]; ring

theorem passesBelow_iff_of_lt {r a b : Pt K} (h : a.x < b.x) : PassesBelow r a b ↔ a.x ≤ r.x ∧ r.x < b.x ∧ 0 < det a b r := by
  unfold PassesBelow
  rw [min_eq_left h.le, max_eq_right h.le]
  refine and_congr_right fun h1 => and_congr_right fun h2 => ?_
  rw [det_hgt h.ne]
  have hd : 0 < b.x - a.x := sub_pos.2 h
  rw [mul_pos_iff_of_pos_left hd, sub_pos]
  constructor
  · rintro ⟨y, h3, h4⟩
    have : y = hgt a b r.x := by
      obtain ⟨t, -, -, tx, ty⟩ := h4
      have e : t = (r.x - a.x) / (b.x - a.x) := by
        simp only at tx
        rw [tx]; field_simp; ring
      simp only at ty
      rw [ty, e]; unfold hgt; field_simp
    rwa [← this]
  · intro h3
    exact ⟨_, h3, onSeg_of_hgt h h1 h2.le⟩

theorem passesBelow_iff {r a b : Pt K} : PassesBelow r a b ↔
    (a.x ≤ r.x ∧ r.x < b.x ∧ 0 < det a b r) ∨ (b.x ≤ r.x ∧ r.x < a.x ∧ 0 < det b a r) := by
  rcases lt_trichotomy a.x b.x with h | h | h
  · rw [passesBelow_iff_of_lt h, or_iff_left]
    rintro ⟨h1, h2, -⟩
    exact absurd (h1.trans_lt h2) (not_lt.2 h.le)
  · refine iff_of_false ?_ ?_
    · rintro ⟨h1, h2, -⟩
      rw [h, min_self] at h1
      rw [h, max_self] at h2
      exact absurd h1 (not_le.2 h2)
    · rintro (⟨h1, h2, -⟩ | ⟨h1, h2, -⟩)
      · rw [h] at h1; exact absurd h1 (not_le.2 h2)
      · rw [← h] at h1; exact absurd h1 (not_le.2 h2)
  · rw [← passesBelow_iff_of_lt h, or_iff_right]
    · exact ⟨PassesBelow.symm, PassesBelow.symm⟩
    · rintro ⟨h1, h2, -⟩
      exact absurd (h1.trans_lt h2) (not_lt.2 h.le)

instance (r a b : Pt K) : Decidable (PassesBelow r a b) := decidable_of_iff _ passesBelow_iff.symm

/-- The number of edges of closed rings, given by their coordinates, that pass below `r`. -/
def edgesBelow (rings : List (List (Pt K))) (r : Pt K) : Nat :=
  (rings.map fun ring => (ring.zip ring.tail).countP fun e => PassesBelow r e.1 e.2).sum

/-- `r` is inside, by the even-odd rule. -/
def EvenOdd (rings : List (List (Pt K))) (r : Pt K) : Prop := Odd (edgesBelow rings r)

instance (rings : List (List (Pt K))) (r : Pt K) : Decidable (EvenOdd rings r) := by unfold EvenOdd; infer_instance

/-- `r` is inside the multipolygon: inside the exterior of one of the polygons and outside its holes. -/
def InMulti (polys : List (List (Pt K) × List (List (Pt K)))) (r : Pt K) : Prop :=
  ∃ p ∈ polys, EvenOdd [p.1] r ∧ ∀ h ∈ p.2, ¬ EvenOdd [h] r

instance (polys : List (List (Pt K) × List (List (Pt K)))) (r : Pt K) : Decidable (InMulti polys r) := by unfold InMulti; infer_instance

/-- The edges of closed rings, given by their coordinates, leave `v` in few directions: in at most two to the right, and in at most four in
all. (Right means greater in the order of points: first by `x`, then by `y`. An edge that passes through `v` leaves it in two directions,
an edge that ends at `v` in one.) It holds inside an edge, where two edges cross or overlap, and at a vertex that no further edge
touches. -/
def FewRays (rings : List (List (Pt K))) (v : Pt K) : Prop :=
  ∃ right left : List (Pt K), right.length ≤ 2 ∧ right.length + left.length ≤ 4 ∧
    ∀ ring ∈ rings, ∀ e ∈ ring.zip ring.tail, OnSeg e.1 e.2 v → ∀ w, w = e.1 ∨ w = e.2 →
      (v < w → ∃ u ∈ right, v < u ∧ Collinear3 v u w) ∧ (w < v → ∃ u ∈ left, u < v ∧ Collinear3 v u w)

/-- The polygons, given by exterior and holes, do not cover anything twice: holes are inside of their exterior, the holes of one polygon
have no point in common, and no two polygons have a point in common. -/
structure ProperMulti (polys : List (List (Pt K) × List (List (Pt K)))) : Prop where
  holes_in : ∀ p ∈ polys, ∀ h ∈ p.2, ∀ r, EvenOdd [h] r → EvenOdd [p.1] r
  holes_apart : ∀ p ∈ polys, p.2.Pairwise fun h h' => ∀ r, ¬ (EvenOdd [h] r ∧ EvenOdd [h'] r)
  polys_apart : polys.Pairwise fun p p' => ∀ r, ¬ (InMulti [p] r ∧ InMulti [p'] r)

end

end GeoCrossings.Spec
