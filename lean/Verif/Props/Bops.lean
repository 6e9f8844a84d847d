import Verif.Spec.Bops
import Mathlib.Algebra.Order.Ring.Rat
import Mathlib.Algebra.Field.Rat
import Mathlib.Data.List.Count

/-! # C32–C34: the bookkeeping of the boolean operations -/
set_option linter.unusedSectionVars false
namespace GeoCrossings
open Spec

/-! ## C32 -/

theorem oddly_cons (f b : Bool) (seq : List Bool) : oddly f (b :: seq) = (oddly f seq ^^ (b == f)) := by
  unfold oddly
  rw [List.count_cons]
  by_cases h : b = f
  · simp only [h, beq_self_eq_true, if_true, Bool.xor_true]
    by_cases h2 : seq.count f % 2 = 1
    · rw [decide_eq_true h2, decide_eq_false (by omega)]; rfl
    · rw [decide_eq_false h2, decide_eq_true (by omega)]; rfl
  · have h2 : (b == f) = false := by simpa using h
    simp [h2]

theorem cross_fold (seq : List Bool) : ∀ r : Region,
    seq.foldl Region.cross r = ⟨r.isFirst ^^ oddly true seq, r.isSecond ^^ oddly false seq⟩ := by
  induction seq with
  | nil => intro r; simp [oddly]
  | cons b seq ih =>
    intro r
    rw [List.foldl_cons, ih, oddly_cons, oddly_cons]
    obtain ⟨x, y⟩ := r
    generalize oddly true seq = u
    generalize oddly false seq = v
    cases b <;> cases x <;> cases y <;> cases u <;> cases v <;> rfl

/-- **C32.** After crossing any sequence of edges from outside, the region is in the result iff the truth table of the operation holds
for the parities of the crossed edges of the two operands. -/
theorem C32_region_parity (ty : OpType) (seq : List Bool) :
    (seq.foldl Region.cross (Region.infinity ty)).isTy ty = inResult ty (oddly true seq) (oddly false seq) := by
  rw [cross_fold]
  cases ty <;> simp [Region.infinity, Region.isTy, inResult]

/-- Outside everything nothing is in the result; crossing an edge changes only the membership in its operand. -/
example : (([true, false, false, true, true].foldl Region.cross (Region.infinity .difference)).isTy .difference) = true := by
  decide

/-! ## C33 -/

def Region.flip (r : Region) : Region := ⟨r.isSecond, r.isFirst⟩

theorem Region.flip_cross (r : Region) (b : Bool) : r.flip.cross (!b) = (r.cross b).flip := by
  cases b <;> rfl

theorem Region.flip_isTy (r : Region) {ty : OpType} (h : ty ≠ .difference) : r.flip.isTy ty = r.isTy ty := by
  obtain ⟨a, b⟩ := r
  cases ty <;> cases a <;> cases b <;> simp_all [Region.flip, Region.isTy]

theorem Region.flip_infinity {ty : OpType} (h : ty ≠ .difference) : (Region.infinity ty).flip = Region.infinity ty := by
  cases ty <;> simp_all [Region.flip, Region.infinity]

namespace BoolOp
variable {K : Type _} [Field K] [LinearOrder K]

def flipCells (c : Cells) : Cells := fun i => ((c i).1.flip, (c i).2.flip)

theorem getRegion_flip (geom : Nat → LineOrPoint K) (c : Cells) (i piece) :
    getRegion geom (flipCells c) i piece = (getRegion geom c i piece).flip := by
  unfold getRegion flipCells; split <;> rfl

theorem setRegion_flip (geom : Nat → LineOrPoint K) (c : Cells) (i piece r) :
    setRegion geom (flipCells c) i piece r.flip = flipCells (setRegion geom c i piece r) := by
  funext j
  unfold setRegion flipCells
  by_cases h : j = i
  · simp only [h, if_true]; split <;> rfl
  · simp only [h, if_false]

theorem endLoop_flip {dbg : Bool} {ty : OpType} (h : ty ≠ .difference) (geom : Nat → LineOrPoint K) (f : Nat → Bool) (c : Cells) :
    ∀ l next rings, endLoop dbg ty geom (fun i => !f i) (flipCells c) l (next.map Region.flip) rings = endLoop dbg ty geom f c l next rings := by
  intro l
  induction l with
  | nil => intros; rfl
  | cons a l ih =>
    intro next rings
    have e : ((next.map Region.flip).getD (getRegion geom c a.crossable a.line).flip).cross (!f a.crossable)
        = ((next.getD (getRegion geom c a.crossable a.line)).cross (f a.crossable)).flip := by
      cases next <;> simp [Region.flip_cross]
    simp only [endLoop, getRegion_flip, e, Region.flip_isTy _ h]
    have ih' := fun r => ih none r
    have ih2 := fun x r => ih (some x) r
    simp only [Option.map_none, Option.map_some] at ih' ih2
    simp only [ih', ih2]

theorem fold_setRegion_flip (geom : Nat → LineOrPoint K) (r : Region) : ∀ (g : List (Crossing K Nat)) (c : Cells),
    g.foldl (fun cells d => setRegion geom cells d.crossable d.line r.flip) (flipCells c) =
      flipCells (g.foldl (fun cells d => setRegion geom cells d.crossable d.line r) c)
  | [], _ => rfl
  | a :: g, c => by rw [List.foldl_cons, List.foldl_cons, setRegion_flip, fold_setRegion_flip]

theorem startLoop_flip (geom : Nat → LineOrPoint K) (f : Nat → Bool) : ∀ l r g c,
    startLoop geom (fun i => !f i) l (Region.flip r) g (flipCells c) = (startLoop geom f l r g c).map flipCells := by
  intro l
  induction l with
  | nil => intros; rfl
  | cons a l ih =>
    intro r g c
    simp only [startLoop, Region.flip_cross, fold_setRegion_flip, ih]
    cases hasOverlap a l with
    | none => rfl
    | some b => cases b <;> rfl

theorem batchStep_flip {dbg : Bool} {ty : OpType} (h : ty ≠ .difference) (geom : Nat → LineOrPoint K) (f : Nat → Bool) (srt it) (c : Cells) (rings) :
    batchStep dbg ty geom (fun i => !f i) srt it (flipCells c) rings =
      (batchStep dbg ty geom f srt it c rings).map fun x => (x.1, flipCells x.2.1, x.2.2) := by
  unfold batchStep
  cases sortBy compareCrossings srt it.segments with
  | none => rfl
  | some batch =>
    simp only
    have := endLoop_flip (dbg := dbg) h geom f c batch none rings
    rw [Option.map_none] at this
    rw [this]
    cases endLoop dbg ty geom f c batch none rings with
    | none => rfl
    | some x =>
      obtain ⟨r, rest⟩ := x
      cases rest with
      | nil => rfl
      | cons a rest =>
        simp only
        cases it.sweep.prevActive a with
        | none => rfl
        | some y =>
          obtain ⟨sw, prev⟩ := y
          cases prev with
          | none =>
            have := startLoop_flip geom f (a :: rest) (Region.infinity ty) [] c
            rw [Region.flip_infinity h] at this
            simp only [this]
            cases startLoop geom f (a :: rest) (Region.infinity ty) [] c <;> rfl
          | some s =>
            simp only [getRegion_flip, startLoop_flip]
            cases startLoop geom f (a :: rest) (getRegion geom c s.crossable s.geom) [] c <;> rfl

theorem sweepLoop_flip {dbg : Bool} {ty : OpType} (h : ty ≠ .difference) (geom : Nat → LineOrPoint K) (f : Nat → Bool) (na ch srt fuel) :
    ∀ n it (c : Cells) rings, sweepLoop dbg ty geom (fun i => !f i) na ch srt fuel n it (flipCells c) rings =
      sweepLoop dbg ty geom f na ch srt fuel n it c rings
  | 0, _, _, _ => rfl
  | n + 1, it, c, rings => by
    unfold sweepLoop
    cases it.next (fun i => (geom i).toLine) na ch fuel with
    | none => rfl
    | some x =>
      obtain ⟨it', o⟩ := x
      cases o with
      | none => rfl
      | some p =>
        simp only [batchStep_flip h]
        cases batchStep dbg ty geom f srt it' c rings with
        | none => rfl
        | some y => simp only [Option.map_some]; exact sweepLoop_flip h geom f na ch srt fuel n _ _ _

/-- **C33 (symmetry).** For intersection, union and xor, swapping the operands (flipping the flag of every edge) leaves the edges added
to the rings unchanged, with their windings and in the same order: the whole sweep ends with the same `Rings`. -/
theorem C33_symmetric {dbg : Bool} {ty : OpType} (h : ty ≠ .difference) (n : Nat) (geom : Nat → LineOrPoint K) (isFirst : Nat → Bool)
    (nextAfter : K → K) (choice : Nat → Nat) (srt : List (Crossing K Nat) → List (Crossing K Nat)) (fuel : Nat) :
    sweepRings dbg ty n geom (fun i => !isFirst i) nextAfter choice srt fuel = sweepRings dbg ty n geom isFirst nextAfter choice srt fuel := by
  unfold sweepRings
  cases CrossingsIter.ofInput (fun i => (geom i).toLine) (List.range n) with
  | none => rfl
  | some it =>
    have := sweepLoop_flip (dbg := dbg) h geom isFirst nextAfter choice srt fuel fuel it (fun _ => (Region.infinity ty, Region.infinity ty)) Rings.default
    rw [show flipCells (fun _ => (Region.infinity ty, Region.infinity ty)) = fun _ => (Region.infinity ty, Region.infinity ty) by
      funext i; simp only [flipCells, Region.flip_infinity h]] at this
    exact this

/-- **C33 (difference).** After any sequence of crossings, the difference holds iff the intersection holds for a region that is
complemented in the second operand. -/
theorem C33_difference (seq : List Bool) :
    (seq.foldl Region.cross (Region.infinity .difference)).isTy .difference =
      (let r := seq.foldl Region.cross (Region.infinity .intersection); (⟨r.isFirst, !r.isSecond⟩ : Region).isTy .intersection) := by
  simp only [cross_fold]
  cases oddly true seq <;> cases oddly false seq <;> rfl

/-- Two overlapping squares, to be subtracted or intersected. -/
def twoSquares : List (Polygon ℚ) × List (Polygon ℚ) :=
  ([⟨[⟨0, 0⟩, ⟨2, 0⟩, ⟨2, 2⟩, ⟨0, 2⟩, ⟨0, 0⟩], []⟩], [⟨[⟨1, 1⟩, ⟨3, 1⟩, ⟨3, 3⟩, ⟨1, 3⟩, ⟨1, 1⟩], []⟩])

/-- The whole of `boolean_op` computes on it: the intersection is a unit square, the difference an L shape. -/
example : booleanOp twoSquares.1 twoSquares.2 .intersection id (fun _ => 0) id id 100 =
    some [⟨[⟨2, 1⟩, ⟨1, 1⟩, ⟨1, 2⟩, ⟨2, 2⟩, ⟨2, 1⟩], []⟩] := by decide +kernel

end BoolOp

/-! ## C34 -/
section input
variable {K : Type _} [LinearOrder K]

theorem ofLine_segBetween (a b : Pt K) :
    (if (LineOrPoint.ofLine ⟨a, b⟩).isLine then some (LineOrPoint.ofLine ⟨a, b⟩) else none) = segBetween a b := by
  unfold LineOrPoint.ofLine segBetween
  rcases lt_trichotomy a b with h | h | h
  · have : compare a b = .lt := compare_lt_iff_lt.2 h
    simp [this, h, LineOrPoint.isLine]
  · have : compare a b = .eq := compare_eq_iff_eq.2 h
    simp [h, LineOrPoint.isLine]
  · have : compare a b = .gt := compare_gt_iff_gt.2 h
    simp [this, h, LineOrPoint.isLine, h.not_gt]

theorem ringLines_fold (f : Bool) : ∀ (ring : List (Pt K)) (edges : List (OpEdge K)),
    (ringLines ring).foldl (fun es l =>
      let lp := LineOrPoint.ofLine l
      if lp.isLine then es ++ [⟨lp, f⟩] else es) edges = edges ++ (properEdges ring).map fun g => ⟨g, f⟩
  | [], edges => by simp [ringLines, properEdges]
  | [a], edges => by simp [ringLines, properEdges]
  | a :: b :: l, edges => by
    have e : properEdges (a :: b :: l) = (segBetween a b).toList ++ properEdges (b :: l) := by
      unfold properEdges
      simp only [List.tail_cons, List.zip_cons_cons, List.filterMap_cons]
      cases segBetween a b <;> simp
    rw [ringLines, List.foldl_cons, ringLines_fold f (b :: l), e, ← ofLine_segBetween]
    by_cases h : (LineOrPoint.ofLine ⟨a, b⟩).isLine = true <;> simp [h]

theorem addClosedRing_eq (edges : List (OpEdge K)) (ring : List (Pt K)) (f : Bool) :
    (Closed ring → addClosedRing edges ring f = some (edges ++ if 3 < ring.length then (properEdges ring).map fun g => ⟨g, f⟩ else [])) ∧
    (¬ Closed ring → addClosedRing edges ring f = none) := by
  unfold addClosedRing Closed
  refine ⟨fun h => ?_, fun h => by rw [if_neg h]⟩
  rw [if_pos h]
  by_cases h3 : ring.length ≤ 3
  · rw [if_pos h3, if_neg (by omega)]; simp
  · rw [if_neg h3, if_pos (by omega), ringLines_fold]

theorem foldlM_rings (f : Bool) : ∀ (rs : List (List (Pt K))) (edges : List (OpEdge K)),
    ((∀ r ∈ rs, Closed r) → rs.foldlM (fun es r => addClosedRing es r f) edges =
      some (edges ++ (rs.filter fun r => 3 < r.length).flatMap fun r => (properEdges r).map fun g => ⟨g, f⟩)) ∧
    ((∃ r ∈ rs, ¬ Closed r) → rs.foldlM (fun es r => addClosedRing es r f) edges = none)
  | [], edges => by simp
  | r :: rs, edges => by
    have h := addClosedRing_eq edges r f
    constructor
    · intro hc
      rw [List.foldlM_cons, h.1 (hc r (by simp))]
      simp only [Option.bind_eq_bind, Option.bind_some]
      rw [(foldlM_rings f rs _).1 fun x hx => hc x (by simp [hx])]
      by_cases h3 : 3 < r.length <;> simp [h3]
    · rintro ⟨x, hx, hxc⟩
      rw [List.foldlM_cons]
      by_cases hr : Closed r
      · rw [h.1 hr]
        rcases List.mem_cons.1 hx with rfl | hx
        · exact absurd hr hxc
        · exact (foldlM_rings f rs _).2 ⟨x, hx, hxc⟩
      · rw [h.2 hr]; rfl

theorem addPolygon_eq (edges : List (OpEdge K)) (p : Polygon K) (f : Bool) :
    ((∀ r ∈ ringsOf p, Closed r) → addPolygon edges p f = some (edges ++ polyEdges p f)) ∧
    ((∃ r ∈ ringsOf p, ¬ Closed r) → addPolygon edges p f = none) := by
  have e : addPolygon edges p f = (ringsOf p).foldlM (fun es r => addClosedRing es r f) edges := by
    unfold addPolygon ringsOf; rw [List.foldlM_cons]
  rw [e]; exact foldlM_rings f _ _

/-- **C34.** Adding a multipolygon records, after what was there, one edge for every pair of consecutive distinct coordinates of every
ring with more than three coordinates, in order, lower end first, tagged with its operand; it panics iff some ring is not closed. -/
theorem C34_edges_taken (edges : List (OpEdge K)) (mp : List (Polygon K)) (f : Bool) :
    ((∀ p ∈ mp, ∀ r ∈ ringsOf p, Closed r) → addMultiPolygon edges mp f = some (edges ++ mp.flatMap fun p => polyEdges p f)) ∧
    ((∃ p ∈ mp, ∃ r ∈ ringsOf p, ¬ Closed r) → addMultiPolygon edges mp f = none) := by
  unfold addMultiPolygon
  induction mp generalizing edges with
  | nil => simp
  | cons p mp ih =>
    have h := addPolygon_eq edges p f
    constructor
    · intro hc
      rw [List.foldlM_cons, h.1 (hc p (by simp))]
      simp only [Option.bind_eq_bind, Option.bind_some]
      rw [(ih _).1 fun x hx => hc x (by simp [hx])]
      simp
    · rintro ⟨x, hx, r, hr, hrc⟩
      rw [List.foldlM_cons]
      by_cases hp : ∀ r ∈ ringsOf p, Closed r
      · rw [h.1 hp]
        rcases List.mem_cons.1 hx with rfl | hx
        · exact absurd (hp r hr) hrc
        · exact (ih _).2 ⟨x, hx, r, hr, hrc⟩
      · push Not at hp
        rw [h.2 hp]; rfl

/-- The edges recorded are proper: lower end strictly first. -/
theorem C34_edges_wf (p : Polygon K) (f : Bool) : ∀ e ∈ polyEdges p f, ∃ a b, e.geom = .line a b ∧ a < b := by
  intro e he
  simp only [polyEdges, List.mem_flatMap, List.mem_map, properEdges, List.mem_filterMap] at he
  obtain ⟨r, -, g, ⟨x, -, hx⟩, rfl⟩ := he
  unfold segBetween at hx
  by_cases h1 : x.1 < x.2
  · rw [if_pos h1] at hx; cases hx; exact ⟨_, _, rfl, h1⟩
  · rw [if_neg h1] at hx
    by_cases h2 : x.2 < x.1
    · rw [if_pos h2] at hx; cases hx; exact ⟨_, _, rfl, h2⟩
    · rw [if_neg h2] at hx; cases hx

/-- A closed ring with a repeated coordinate and a ring that is too short. -/
example : addMultiPolygon [] [⟨[⟨0, 0⟩, ⟨2, 0⟩, ⟨2, 0⟩, ⟨0, 2⟩, ⟨0, 0⟩], [[⟨1, 1⟩, ⟨2, 2⟩, ⟨1, 1⟩]]⟩] true =
    some ([⟨.line ⟨0, 0⟩ ⟨2, 0⟩, true⟩, ⟨.line ⟨0, 2⟩ ⟨2, 0⟩, true⟩, ⟨.line ⟨0, 0⟩ ⟨0, 2⟩, true⟩] : List (OpEdge ℚ)) := by decide +kernel

end input

end GeoCrossings
