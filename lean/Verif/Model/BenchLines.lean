import Verif.Model.Bench
import Mathlib.Analysis.SpecialFunctions.Trigonometric.Basic

/-! # Model of the rest of the helpers of the benchmarks about lines: `count_rtree` of `benches/utils/crossings.rs`, and the generators of
lines and `Samples` of `benches/utils/random.rs`

The tree of `rstar` is modelled by what `intersection_candidates_with_other_tree` returns: the pairs of elements, in any order. The samples of the
random generator are arguments. -/
namespace GeoCrossings

section
variable {K : Type _} [Field K] [LinearOrder K]

/-- `RTreeObject::envelope` of a `Line`: the least box with both ends — `GeomWithData::envelope`, benches/utils/crossings.rs:14-16, is that of the
line. -/
def Line.envelope (l : Line K) : Rect K :=
  ⟨min l.start.x l.stop.x, max l.start.x l.stop.x, min l.start.y l.stop.y, max l.start.y l.stop.y⟩

/-- `AABB::intersects` of `rstar`. -/
def Rect.meets (r s : Rect K) : Bool :=
  decide (r.minX ≤ s.maxX) && decide (s.minX ≤ r.maxX) && decide (r.minY ≤ s.maxY) && decide (s.minY ≤ r.maxY)

/-- The elements of the tree: the lines with their positions — benches/utils/crossings.rs:38-42. -/
def treeElems (lines : List (Line K)) : List (Line K × Nat) := lines.zipIdx

/-- What `intersection_candidates_with_other_tree` returns for a tree and itself, by the documentation of `rstar`: every pair of elements with
intersecting envelopes, once; the order is not fixed. -/
structure Candidates (elems : List (Line K × Nat)) (cs : List ((Line K × Nat) × (Line K × Nat))) : Prop where
  nodup : cs.Nodup
  mem : ∀ a b, (a, b) ∈ cs ↔ a ∈ elems ∧ b ∈ elems ∧ a.1.envelope.meets b.1.envelope = true

/-- `count_rtree` — benches/utils/crossings.rs:37-54, from the candidates on (lines 45-53). -/
def countRtree (cs : List ((Line K × Nat) × (Line K × Nat))) : Nat :=
  (cs.filterMap fun ab => if ab.1.2 ≥ ab.2.2 then none else lineIntersection ab.1.1 ab.2.1).length

/-- `Rect::new` of `geo-types`, which sorts the coordinates. -/
def Rect.new (a b : Pt K) : Rect K := ⟨min a.x b.x, max a.x b.x, min a.y b.y, max a.y b.y⟩

/-- `uniform_point` — benches/utils/random.rs:11-19. -/
def uniformPoint (s : K × K) (b : Rect K) : Pt K :=
  ⟨b.minX + (b.maxX - b.minX) * s.1, b.minY + (b.maxY - b.minY) * s.2⟩

/-- `uniform_line` — benches/utils/random.rs:21-24. -/
def uniformLine (s t : K × K) (b : Rect K) : Line K := ⟨uniformPoint s b, uniformPoint t b⟩

/-- The closure that `scaled_generator` returns — benches/utils/random.rs:34-43. `1 << scale` has the type `i32`, so this is for `scale` up to 30. -/
def scaledLine (dims : Pt K) (scale : Nat) (s t u : K × K) : Line K :=
  let scaling : K := 2 ^ scale
  let bounds := Rect.new ⟨0, 0⟩ ⟨dims.x / scaling, dims.y / scaling⟩
  let shiftBounds := Rect.new ⟨0, 0⟩ ⟨dims.x - dims.x / scaling, dims.y - dims.y / scaling⟩
  let shift := uniformPoint s shiftBounds
  let l := uniformLine t u bounds
  ⟨⟨l.start.x + shift.x, l.start.y + shift.y⟩, ⟨l.stop.x + shift.x, l.stop.y + shift.y⟩⟩

end

/-- `rotate_around_point` of geo for a point: the angle is in degrees. -/
noncomputable def rotateAround (deg : ℝ) (o p : Pt ℝ) : Pt ℝ :=
  let c := Real.cos (deg * (Real.pi / 180))
  let s := Real.sin (deg * (Real.pi / 180))
  ⟨c * (p.x - o.x) - s * (p.y - o.y) + o.x, s * (p.x - o.x) + c * (p.y - o.y) + o.y⟩

/-- `rotate_around_point` of geo for a polygon, as called in benches/mono-raster.rs:35. -/
noncomputable def Polygon.rotateAround (deg : ℝ) (o : Pt ℝ) (p : Polygon ℝ) : Polygon ℝ :=
  ⟨p.ext.map (GeoCrossings.rotateAround deg o), p.ints.map (List.map (GeoCrossings.rotateAround deg o))⟩

/-- `uniform_line_with_length` — benches/utils/random.rs:26-32. -/
noncomputable def uniformLineWithLength (s : ℝ × ℝ) (a : ℝ) (b : Rect ℝ) (length : ℝ) : Line ℝ :=
  let start := uniformPoint s b
  let angle := a * 2 * Real.pi
  ⟨rotateAround angle start start, rotateAround angle start ⟨start.x + length, start.y + 0⟩⟩

/-- One call of the closure of `Samples::sampler` — benches/utils/random.rs:99-107, on `curr`: the element, and the next `curr`. It panics for no
samples, as `curr %= 0` does. -/
def sampler {α : Type _} (v : List α) (curr : Nat) : Option (α × Nat) :=
  if v.length = 0 then none else
    match v[curr]? with
    | none => none
    | some x => some (x, (curr + 1) % v.length)

/-- The results of `n` calls, from `curr` on. -/
def samplerRun {α : Type _} (v : List α) : Nat → Nat → Option (List α)
  | 0, _ => some []
  | n + 1, curr => do
    let (x, c) ← sampler v curr
    let xs ← samplerRun v n c
    pure (x :: xs)

/-- `Samples::from_fn` — benches/utils/random.rs:108-110. The `i`-th call of `proc` returns `proc i`. -/
def samplesFromFn {α : Type _} (size : Nat) (proc : Nat → α) : List α := (List.range size).map proc

end GeoCrossings
