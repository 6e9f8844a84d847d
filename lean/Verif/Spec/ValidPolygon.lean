import Verif.Spec.EvenOdd

/-!
# Specification: valid polygons

`monotone_chains` documents (chains.rs:25-32): "Only non-self intersecting polygons are accepted. That is, no two edges of any of the
exterior or interior rings may intersect internally. Further, the graph formed by the vertices and the edges must be a 2-degree regular
graph." To this is added what makes the rings those of a polygon: the holes are inside the exterior ring and outside each other.
-/
namespace GeoCrossings.Spec

variable {K : Type _} [Field K] [LinearOrder K]

/-- The directed edges of a ring given by its coordinates. -/
def ringEdges (ring : List (Pt K)) : List (Pt K × Pt K) := ring.zip ring.tail

structure ValidPolygon [IsStrictOrderedRing K] (ext : List (Pt K)) (holes : List (List (Pt K))) : Prop where
  /-- Every ring is closed and has at least three vertices. -/
  closed : ∀ ring ∈ ext :: holes, ring.head? = ring.getLast? ∧ 4 ≤ ring.length
  /-- No vertex is visited twice, by a ring or by two of them. -/
  distinct : ((ext :: holes).flatMap List.dropLast).Nodup
  /-- Two edges have at most ends in common. -/
  meet : ∀ e ∈ (ext :: holes).flatMap ringEdges, ∀ e' ∈ (ext :: holes).flatMap ringEdges, e ≠ e' →
    ∀ x, OnSeg e.1 e.2 x → OnSeg e'.1 e'.2 x → (x = e.1 ∨ x = e.2) ∧ (x = e'.1 ∨ x = e'.2)
  /-- Holes are inside the exterior. -/
  inside : ∀ h ∈ holes, ∀ v ∈ h, EvenOdd [ext] v
  /-- Holes are outside each other. -/
  apart : holes.Pairwise fun h h' => (∀ v ∈ h, ¬ EvenOdd [h'] v) ∧ ∀ v ∈ h', ¬ EvenOdd [h] v

/-- Rings that neither touch nor cross themselves or each other, nested in any way. -/
structure PlainRings [IsStrictOrderedRing K] (rings : List (List (Pt K))) : Prop where
  /-- Every ring is closed and has at least three vertices. -/
  closed : ∀ ring ∈ rings, ring.head? = ring.getLast? ∧ 4 ≤ ring.length
  /-- No vertex is visited twice, by a ring or by two of them. -/
  distinct : (rings.flatMap List.dropLast).Nodup
  /-- Two edges have at most ends in common. -/
  meet : ∀ e ∈ rings.flatMap ringEdges, ∀ e' ∈ rings.flatMap ringEdges, e ≠ e' →
    ∀ x, OnSeg e.1 e.2 x → OnSeg e'.1 e'.2 x → (x = e.1 ∨ x = e.2) ∧ (x = e'.1 ∨ x = e'.2)

/-- No two edges of the rings have more than one point in common. -/
def NoOverlap (rings : List (List (Pt K))) : Prop :=
  (rings.flatMap ringEdges).Pairwise fun e e' =>
    ∀ x y, OnSeg e.1 e.2 x → OnSeg e.1 e.2 y → OnSeg e'.1 e'.2 x → OnSeg e'.1 e'.2 y → x = y

end GeoCrossings.Spec
