import Verif.Lemmas.MonoSame
import Verif.Lemmas.MonoDebug
import Verif.Lemmas.Redrawn
import Verif.Props.Monotone

/-!
# What `monotone_chains` returns is determined by the sides of the polygon (C87)
-/
set_option linter.unusedSectionVars false
namespace GeoCrossings.Monotone
open Spec

variable {K : Type} [Field K] [LinearOrder K] [IsStrictOrderedRing K]

/-- The numbered edges of a valid polygon are its sides, from left to right. -/
theorem numEd_side {p : Polygon K} (h : ValidPolygon p.ext p.ints) (e : Sg K) :
    (∃ k, 1 ≤ k ∧ k ≤ (dir (ringsOf p.ext p.ints)).length ∧ numEd (ringsOf p.ext p.ints) k = e) ↔
      e.1 < e.2 ∧ IsSide (p.ext :: p.ints) e.1 e.2 := by
  have hdir : ∀ x : Sg K, (∃ w, (x, w) ∈ dir (ringsOf p.ext p.ints)) ↔ ∃ r ∈ p.ext :: p.ints, x ∈ ringEdges r := by
    intro x
    rw [← ringsOf_fst p.ext p.ints]
    constructor
    · rintro ⟨w, hw⟩
      obtain ⟨r, hr, hx⟩ := List.mem_flatMap.1 hw
      obtain ⟨y, hy, e⟩ := List.mem_map.1 hx
      rw [Prod.mk.injEq] at e
      exact ⟨r.1, List.mem_map_of_mem hr, by rw [← e.1]; exact hy⟩
    · rintro ⟨r, hr, hx⟩
      obtain ⟨q, hq, rfl⟩ := List.mem_map.1 hr
      exact ⟨q.2, List.mem_flatMap.2 ⟨q, hq, List.mem_map.2 ⟨x, hx, rfl⟩⟩⟩
  constructor
  · rintro ⟨k, k1, k2, rfl⟩
    refine ⟨(edges_valid h).lt k k1 k2, ?_⟩
    obtain ⟨⟨x, w⟩, hx, -, e, -⟩ := num_mem k1 k2
    obtain ⟨r, hr, hxr⟩ := (hdir x).1 ⟨w, hx⟩
    rw [e]
    refine ⟨r, hr, ?_⟩
    unfold norm
    split
    · exact .inr hxr
    · exact .inl hxr
  · rintro ⟨hlt, r, hr, hx⟩
    have : ∃ x w, (x, w) ∈ dir (ringsOf p.ext p.ints) ∧ norm x = e := by
      rcases hx with hx | hx
      · obtain ⟨w, hw⟩ := (hdir (e.1, e.2)).2 ⟨r, hr, hx⟩
        exact ⟨_, w, hw, by simp [norm, not_lt.2 hlt.le]⟩
      · obtain ⟨w, hw⟩ := (hdir (e.2, e.1)).2 ⟨r, hr, hx⟩
        exact ⟨_, w, hw, by simp [norm, hlt]⟩
    obtain ⟨x, w, hw, hx⟩ := this
    obtain ⟨i, hi, e'⟩ := List.mem_iff_getElem.1 hw
    refine ⟨i + 1, by omega, by omega, ?_⟩
    rw [← hx]
    simp [numEd, List.getD, List.getElem?_eq_getElem hi, e']

/-- **C87.** `monotone_chains` returns the same list of monotone polygons for valid polygons with the same sides, in both builds, and
whichever order the sort leaves equal events in. -/
theorem C87_sides (dbg dbg' : Bool) (srt srt' : List (Event K) → List (Event K)) {p q : Polygon K} (hp : ValidPolygon p.ext p.ints)
    (hq : ValidPolygon q.ext q.ints) (hs : SameSides (p.ext :: p.ints) (q.ext :: q.ints)) :
    ∃ out, monotoneChains dbg srt p = some out ∧ monotoneChains dbg' srt' q = some out := by
  have main : monotoneChains true srt p = monotoneChains true srt' q := by
    obtain ⟨σ, hσ⟩ := Ren.exists (ed := numEd (ringsOf p.ext p.ints)) (n := (dir (ringsOf p.ext p.ints)).length) (edges_valid hq) (by
      intro e
      rw [numEd_side hp, numEd_side hq, hs])
    obtain ⟨sw, u, hf, -, hu, hS⟩ := fromPolygon_ok srt hp
    obtain ⟨sw', u', hf', -, hu', hS'⟩ := fromPolygon_ok srt' hq
    have hu2 : ∀ k, 1 ≤ k → k ≤ (dir (ringsOf p.ext p.ints)).length → min u u' < (numEd (ringsOf p.ext p.ints) k).1 :=
      fun k k1 k2 => (min_le_left _ _).trans_lt (hu k k1 k2)
    have hu2' : ∀ k, 1 ≤ k → k ≤ (dir (ringsOf q.ext q.ints)).length → min u u' < (numEd (ringsOf q.ext q.ints) k).1 :=
      fun k k1 k2 => (min_le_right _ _).trans_lt (hu' k k1 k2)
    have := run_same (edges_valid hp) (edges_valid hq) hσ true (sw.events.length + 1) (sw'.events.length + 1) [] (Nat.lt_succ_self _)
      (Nat.lt_succ_self _) (GInv.init hu2) (hS.rebase hu hu2 (edges_valid hp)) (GInv.init hu2') (hS'.rebase hu' hu2' (edges_valid hq))
    simp only [monotoneChains, hf, hf']
    exact congrArg (fun x => x.bind (collect true)) this
  obtain ⟨out, ho, -⟩ := monotoneChains_ok true srt hp
  have ho' := main ▸ ho
  refine ⟨out, ?_, ?_⟩
  · cases dbg
    · exact monotoneChains_release srt p out ho
    · exact ho
  · cases dbg'
    · exact monotoneChains_release srt' q out ho'
    · exact ho'

/-- **C87.** Rings may be drawn from any start and in either direction, and holes listed in any order. -/
theorem C87_redrawn (dbg dbg' : Bool) (srt srt' : List (Event K) → List (Event K)) {p q : Polygon K} (hp : ValidPolygon p.ext p.ints)
    (he : Redrawn p.ext q.ext) {hs : List (List (Pt K))} (h1 : p.ints.Perm hs) (h2 : List.Forall₂ Redrawn hs q.ints) :
    ValidPolygon q.ext q.ints ∧ ∃ out, monotoneChains dbg srt p = some out ∧ monotoneChains dbg' srt' q = some out := by
  have hv := valid_perm hp h1
  have ha : List.Forall₂ Alike (p.ext :: hs) (q.ext :: q.ints) := by
    refine .cons (Redrawn.alike he (hp.closed _ (by simp)).1) ?_
    have hc : ∀ r ∈ hs, r.head? = r.getLast? := fun r hr => (hv.closed r (by simp [hr])).1
    clear hv h1
    generalize q.ints = qs at h2
    induction h2 with
    | nil => exact .nil
    | cons a _ ih => exact .cons (Redrawn.alike a (hc _ (by simp))) (ih fun r hr => hc r (by simp [hr]))
  have hq := valid_alike hv ha
  refine ⟨hq, C87_sides dbg dbg' srt srt' hp hq ?_⟩
  intro a b
  rw [sameSides_perm (h1.cons p.ext) a b, sameSides_alike ha a b]

/-- **C87.** Whatever the polygon: where the debug build returns, the release build returns the same. -/
theorem C87_release (srt : List (Event K) → List (Event K)) (p : Polygon K) {out : List (MonoPoly K)} (h : monotoneChains true srt p = some out) :
    monotoneChains false srt p = some out :=
  monotoneChains_release srt p out h

namespace Demo

/-- `outer`, backwards and from another start. -/
def outer' : List (Pt ℚ) := [⟨6, 2⟩, ⟨10, -1⟩, ⟨0, 0⟩, ⟨4, 3⟩, ⟨1, 9⟩, ⟨11, 8⟩, ⟨6, 2⟩]
/-- `hole`, from another start. -/
def hole' : List (Pt ℚ) := [⟨7, 5⟩, ⟨5, 6⟩, ⟨5, 4⟩, ⟨7, 5⟩]

theorem redrawn : Redrawn outer outer' ∧ List.Forall₂ Redrawn [hole] [hole'] := by
  refine ⟨?_, .cons ?_ .nil⟩
  · have r0 := Redrawn.same outer
    have r1 := Redrawn.rotate (x := ⟨0, 0⟩) (y := ⟨10, -1⟩) (l := [⟨6, 2⟩, ⟨11, 8⟩, ⟨1, 9⟩, ⟨4, 3⟩]) r0
    have r2 := Redrawn.rotate (x := ⟨10, -1⟩) (y := ⟨6, 2⟩) (l := [⟨11, 8⟩, ⟨1, 9⟩, ⟨4, 3⟩, ⟨0, 0⟩]) r1
    exact r2.reverse
  · exact Redrawn.rotate (x := ⟨5, 4⟩) (y := ⟨7, 5⟩) (l := [⟨5, 6⟩]) (.same hole)

/-- The sweep meets the events in another order, and numbers the edges differently; the result is the same. -/
example : ((Sweep.fromPolygon id ⟨outer, [hole]⟩).map fun s => s.events.map (·.segmentKey)) ≠
      ((Sweep.fromPolygon id ⟨outer', [hole']⟩).map fun s => s.events.map (·.segmentKey)) ∧
    (monotoneChains true id ⟨outer, [hole]⟩).isSome ∧
    monotoneChains true id ⟨outer, [hole]⟩ = monotoneChains false id ⟨outer', [hole']⟩ := by decide +kernel

/-- Sides count: the polygon without the hole gives another result. -/
example : monotoneChains true id ⟨outer, []⟩ ≠ monotoneChains true id ⟨outer, [hole]⟩ := by decide +kernel

end Demo

end GeoCrossings.Monotone
