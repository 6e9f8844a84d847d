import Verif.Lemmas.MonoSize
import Verif.Props.MonoSame

/-!
# The size of what `monotone_chains` returns (C88)
-/
set_option linter.unusedSectionVars false
namespace GeoCrossings.Monotone
open Spec

variable {K : Type} [Field K] [LinearOrder K] [IsStrictOrderedRing K]

/-- **C88.** Whatever the polygon and the build: if `monotone_chains` returns, it returns at most half as many monotone polygons as
there are sides that are not points. -/
theorem C88_count (dbg : Bool) (srt : List (Event K) → List (Event K)) (p : Polygon K) {out : List (MonoPoly K)}
    (h : monotoneChains dbg srt p = some out) :
    2 * out.length ≤ ((p.ext :: p.ints).flatMap ringEdges).countP fun e => e.1 ≠ e.2 :=
  monotoneChains_count h

/-- **C88.** On a valid polygon with `N` sides, the chains of the result have at most `4 N - 4` coordinates in all. -/
theorem C88_coords (dbg : Bool) (srt : List (Event K) → List (Event K)) {p : Polygon K} (hp : ValidPolygon p.ext p.ints) :
    ∃ out, monotoneChains dbg srt p = some out ∧
      (out.map fun m => m.top.length + m.bot.length).sum + 4 ≤ 4 * ((p.ext :: p.ints).flatMap ringEdges).length := by
  obtain ⟨out, h1, h2⟩ := C87_sides true dbg srt srt hp hp fun _ _ => Iff.rfl
  refine ⟨out, h2, (monotoneChains_coords hp h1).trans (Nat.mul_le_mul_left 4 List.countP_le_length)⟩

namespace Demo

/-- A chevron: as many monotone polygons as C88 allows. -/
def chevron : List (Pt ℚ) := [⟨0, 0⟩, ⟨4, -2⟩, ⟨1, 0⟩, ⟨4, 2⟩, ⟨0, 0⟩]

example : (monotoneChains true id ⟨chevron, []⟩).map List.length = some 2 ∧
    ((chevron :: ([] : List (List (Pt ℚ)))).flatMap ringEdges).length = 4 ∧
    (monotoneChains true id ⟨chevron, []⟩).map (fun out => (out.map fun m => m.top.length + m.bot.length).sum) = some 10 := by decide +kernel

/-- The polygon with a hole: 9 sides, and 21 coordinates. -/
example : (monotoneChains true id ⟨outer, [hole]⟩).map (fun out => (out.length, (out.map fun m => m.top.length + m.bot.length).sum)) = some (3, 21) ∧
    ((outer :: [hole]).flatMap ringEdges).length = 9 := by decide +kernel

/-- Sides that are points are skipped, and do not count. -/
example : (monotoneChains true id ⟨[⟨0, 0⟩, ⟨4, -2⟩, ⟨4, -2⟩, ⟨4, 2⟩, ⟨0, 0⟩, ⟨0, 0⟩], []⟩ : Option (List (MonoPoly ℚ))).isSome := by decide +kernel

end Demo

end GeoCrossings.Monotone
