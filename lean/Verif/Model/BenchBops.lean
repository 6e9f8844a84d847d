import Verif.Model.Bops

/-!
# Model of the helpers of the tests of `boolean_op`

`benches/utils/bops.rs` converts polygons to the types of an older version of `geo-types` and back; the two versions have the same fields, so one
type stands for both. `try_run_fixture` of `src/bops.rs` compares a result with the expected one. Reading the fixtures, logging and the text of
the report are not modelled; of the relative error only that there is one.
-/
namespace GeoCrossings.Fixture

variable {K : Type _} [Field K] [LinearOrder K]

/-- `convert_poly`, benches/utils/bops.rs:3-11. `Polygon::new` closes the ring. -/
def convertPoly (p : Polygon K) : Polygon K := ⟨closeRing p.ext, []⟩

/-- `convert_mpoly`, benches/utils/bops.rs:13-15. -/
def convertMpoly (ps : List (Polygon K)) : List (Polygon K) := ps.map convertPoly

/-- `convert_back_poly`, benches/utils/bops.rs:17-25. -/
def convertBackPoly (p : Polygon K) : Polygon K := ⟨closeRing p.ext, []⟩

/-- `convert_back_mpoly`, benches/utils/bops.rs:27-29. -/
def convertBackMpoly (ps : List (Polygon K)) : List (Polygon K) := ps.map convertBackPoly

/-- `HasDimensions::is_empty` of `geo` for a `MultiPolygon`: no polygon has a coordinate in its exterior. -/
def multiEmpty (ps : List (Polygon K)) : Bool := ps.all fun p => p.ext.isEmpty

/-- `boolean_op` in the build of the tests, which has debug assertions. -/
abbrev Runner (K : Type _) := List (Polygon K) → List (Polygon K) → OpType → Option (List (Polygon K))

/-- The operation named in a fixture, src/bops.rs:254-267. A name that is not known panics (`unreachable!`). -/
def fixtureOp (run : Runner K) (ty : String) (p1 p2 : List (Polygon K)) : Option (List (Polygon K)) :=
  if ty = "intersection" then run p1 p2 .intersection
  else if ty = "union" then run p1 p2 .union
  else if ty = "xor" then run p1 p2 .xor
  else if ty = "diff" then run p1 p2 .difference
  else if ty = "diff_ba" then run p2 p1 .difference
  else none

/-- What is reported about a fixture, src/bops.rs:297-331. -/
inductive Comment where
  | panic
  | diffPanic
  | identical
  | relerr
deriving DecidableEq, Repr

/-- The comment on a fixture with the expected result `p`, src/bops.rs:253-331. `catch_unwind` turns panics into values. -/
def fixtureComment (run : Runner K) (ty : String) (p1 p2 p : List (Polygon K)) : Comment :=
  match fixtureOp run ty p1 p2 with
  | none => .panic
  | some ours =>
    match run p ours .difference with
    | none => .diffPanic
    | some diff => if !multiEmpty diff then .relerr else .identical

end GeoCrossings.Fixture
