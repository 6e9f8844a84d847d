# Design: a Lean 4 model of geo-crossings and its proofs

## Layout

- `lean/Verif/Model/*`  executable model, function by function; each definition cites the lines of `/repo/src` it models.
- `lean/Verif/Spec/*`   small specifications that do not mention the model's functions.
- `lean/Verif/Lemmas/*` helper lemmas and invariants.
- `lean/Verif/Props/*`  the property theorems (one file per area), next to examples that meet their hypotheses.
- `properties.jsonl` the properties, `MANIFEST.json` which theorems prove them, `seeded/LOG.jsonl` the mutation tests.

## Trusted base

- The kernel of Lean 4, and the reading of the statements in `Spec` and `Props`.
- Axioms: the development adds none. Every theorem named in `MANIFEST.json` depends on no axioms other than the standard `propext`,
  `Classical.choice` and `Quot.sound`. These need fewer: C08_remove_can_lose none; C02_lookups_preserve_entries,
  C08_insert_any_comparator, C08_remove_any_comparator, C09_sweep_point_order only `propext`; C03_splay_brings_nearest, looks_length,
  C33_symmetric, C34_edges_wf, C53_direction only `propext` and `Quot.sound`. There is no `sorry`, `native_decide` or `bv_decide`;
  evaluations on literals use `decide +kernel`. To check: `#print axioms name` behind `import Verif`.
- That the model is what the Rust code does (below). The code has not been compiled or run.

## Modelling decisions

- **Scalars.** Where the code only compares coordinates (splay tree, events) the model is generic over any ordering, including partial
  ones (NaN). Where it does arithmetic (orientation, intersection, scanner, areas) the model is over an arbitrary linearly ordered field
  `K`: exact arithmetic. Concrete evaluations use `ℚ`. Floating-point rounding is not modelled except in C75–C77, so nothing is claimed about `f64`
  inputs whose intersections are not exact. In exact arithmetic `orient2d` is the sign of the determinant, which is also what the robust
  predicate of `geo` returns for floats.
- **Panics** are `none` in an `Option`; so are out-of-bounds accesses (checked and `get_unchecked`), and, for functions that are given a
  bound on the number of steps, exhaustion of the bound. `Model/SweepF.lean` tells these apart (C76, C77). Termination theorems state that a sufficient bound exists.
- **`debug_assert!`** is executed in the model of the crossing sweep and what it uses (`crossings.rs`, `crossings/sweep.rs`, `line_or_point.rs`,
  `active.rs`): a failing one is `none`. A run that returns is then also the run of a release build, so C19-C31 are about both builds,
  and totality (C26, C27, C55) includes that no assertion fails (C61). In `monotone_chains` and `bops` a parameter `dbg` says
  whether they are executed: C56 covers both, the theorems on `boolean_op` are about the release build, and C62, C63 are about the debug
  build (`booleanOpDebug`). In `bops` those of rings.rs:82 and op.rs:128 are executed in both. Those of `mono_poly.rs` and `monotone.rs` are
  executed (a failing one is `none`), so C42-C49, C65, C66 include that they hold; C64 says so for all states of the scanner. Those of
  `monotone/{segment,sweep}.rs` are not executed; C64 proves for all states of that sweep that they hold.
- **Unspecified order.** `BinaryHeap` among equal elements: an oracle `choice` that is asked at every pop. Sorts: an oracle `srt` whose
  answer is used if it is a correct sort of the input. Theorems are for all oracles; those that need a *stable* sort say so (C41, C55);
  it is needed for operands with overlapping edges only (C73).
  `op.rs:77` is `sort_unstable_by`; in the standard library slices of at most 20 elements are sorted by insertion, which is stable.
- **External crates** (not in `/repo`): `geo::line_intersection` (the algorithm of geo 0.20 over exact arithmetic), `orient2d`,
  `winding_order` (turn at the least vertex, as geo does), `LineString::{lines,close,is_closed}`, `Slab` (last vacated key first),
  `BinaryHeap`, `BTreeSet`, `BTreeMap`, `VecDeque`, `SmallVec` are modelled by their documented behaviour.
- **Mutation** through `&mut`, `Cell` and `UnsafeCell` is a new value. The raw pointer of `Active` to the slab is the slab at the time of
  the comparison. Aliasing and memory safety as such are not modelled; that all keys are in the slab when they are dereferenced is
  proved (C26, C31, C56).
- The active set of the line sweep (`Model/Sweep.lean`) is the model of the splay tree itself. That of the monotone sweep, a
  `BTreeSet`, is a sorted list (`Model/Monotone.lean`). A call on an active set panics in the model unless all comparisons of the key
  with the elements are defined; the code makes fewer comparisons. That all are defined, and are a total order, is part of the
  invariants.

## What is modelled

| Code | Model | Remarks |
|---|---|---|
| `splay/{node,tree,set}.rs` | `Model/Splay.lean` | all functions; `Clone`/`Debug` not, `Drop` below |
| `splay/tree.rs` | `Model/SplayM.lean` | the functions used in histories, with a comparator in any monad (C74 counts its calls) |
| `splay/tree.rs`: `clear`, `Drop`, the drop of `Node`; the loops of `IntoIter` with their rounds counted | `Model/SplayDrop.lean` | the drop of a box is what the compiler generates |
| `splay/tree.rs`: `min_node`, `max_node` with their steps counted | `Model/SplayEnds.lean` | |
| `crossings/sweep.rs`, `active.rs` | `Model/SweepCount.lean` | the functions that use the active set, with the number of comparisons of the splay tree (C89) |
| `active.rs` | `Model/Active.lean`, lists in the sweeps | both implementations of `Access` |
| `events.rs`, `utils.rs` | `Model/Events.lean`, `Model/LineOrPoint.lean` | complete |
| `line_or_point.rs` | `Model/LineOrPoint.lean` | complete; `next_after` (nudging of floats) is an argument, and is shown not to be reached |
| `line_or_point.rs` | `Model/Rounded.lean` | `intersect_line`, `intersect_line_ordered` with any function for the crossing points of lines (C75–C77 only) |
| `crossings/sweep.rs` | `Model/Sweep.lean` | complete except logging |
| `crossings/sweep.rs`, `active.rs` | `Model/SweepF.lean` | the sweep in any arithmetic; panics, accesses to vacant slots and endless walks are different results (C76, C77); without `prev_active` |
| `crossings.rs` | `Model/Crossings.lean` | `CrossingsIter`, `Intersections` |
| `bops.rs`, `bops/{op,rings,laminar}.rs` | `Model/Bops.lean`, `Model/Rings.lean` | complete except logging |
| `monotone/{segment,sweep,chains}.rs` | `Model/Monotone.lean` | complete; debug assertions of `chains.rs` included |
| `monotone.rs`, `monotone/mono_poly.rs` | `Model/MonoPoly.lean` | complete |
| `monotone/rasterize.rs` | `Model/Rasterize.lean` | complete |
| `monotone.rs`, tests `verify_scanner_area`, `verify_scanner_bounds` | `Model/RasterDriver.lean` | the only callers of the scanner; the box is a parameter; up to line 147, the last assertion in `Props/RasterTight.lean` |
| `benches/utils/{crossings,rasterize}.rs` | `Model/Bench.lean` | `count_bo`, `count_brute`, `our_area`, `our_rasterize`; `bounding_rect` of geo by its documentation |
| `benches/utils/random.rs` | `Model/BenchRandom.lean` | `steppy_polygon`, `circular_polygon` (over the reals); the samples are an argument |
| `benches/utils/bops.rs`, `bops.rs`: `try_run_fixture` | `Model/BenchBops.lean` | the conversions and the comparison; no reading of fixtures, no logging, no value of the relative error |
| `benches/utils/crossings.rs`: `count_rtree`; `benches/utils/random.rs`: `uniform_point`, `uniform_line`, `uniform_line_with_length`, `scaled_generator`, `Samples` | `Model/BenchLines.lean` | the tree of `rstar` is any list of the candidate pairs; `rotate_around_point` of geo with degrees; `1 << scale` without overflow |

Not modelled: the rest of `benches/`, the rest of the tests, `Debug`/`Display`/`Clone` implementations, logging, time and memory (but the comparisons in C74 and C89, and the events, active and stored segments of the sweep in C82), the `unsafe` transmute of
`advance_to`, allocation (`with_capacity`), overflow of `usize`.

## Proof methods

| Property | Method |
|---|---|
| C01-C08 | refinement of sorted association lists; induction on the operations, on the tree and on the loops of `splay` |
| C09, C10 | order laws; sortedness of the drained heap for every tie policy |
| C11-C17 | algebra of determinants in the lexicographically ordered plane |
| C18-C26, C31 | an invariant of the sweep over all reachable states (`Lemmas/Sweep*.lean`): active list sorted at the sweep point, events complete, neighbours disjoint to the right; a measure for termination |
| C27-C30 | induction over the walk; from C22-C25 for the geometric part; refuting runs evaluated in the kernel |
| C32-C37 | induction over edge lists; an invariant of chains and end points |
| C38 | the winding at the least vertex against the area, through the decomposition of C51 |
| C39, C40 | list induction; an inductive description of nested rings |
| C41, C55 | the regions are the parities of the edges below (`Lemmas/Bop*.lean`), edges of the result are where the parity changes, ring assembly conserves edges |
| C58, C59 | the edges at a vertex alternate in winding, so that with two of them each ring is walked in one direction; in `assemble`'s sweep the rings around an edge are found from the edges below (`Lemmas/Lam*.lean`), are the same along a ring, and the parent of a hole is the innermost of them |
| C60 | with two edges at each vertex the rings of the result do not touch, so C59's nesting gives the precondition of C51; the pieces of all polygons are then counted by C51 and C59 |
| C62 | the assertions on windings hold when the edges at a vertex are added in pairs of one that arrives and one that leaves (as in C58); those of `assemble` by the nesting of C59 |
| C63 | conversely, an assertion on windings that holds pairs the edges at the vertex; the pairing is all that `is_hole` and the parents of holes depend on |
| C42-C49 | loop invariants; areas also as Lebesgue measure |
| C50-C53, C56, C57 | the sweep keeps the gaps between the active edges (`Lemmas/Mono*.lean`), the pairs of chains follow the interior gaps, vertical cells tile the plane |
| C54 | corollary of C01 |
| C64 | invariant of the events over the states of the monotone sweep; the scanner as in C44 |
| C65, C66 | loop invariants over columns and rows; then C51, C52; a refutation of the last assertion of the test by evaluation (RasterTight.lean) |
| C67 | almost every point of a piece is in exactly one swept trapezoid; integration; C49, C51 |
| C68 | at a crossing the groups on the two sides come in opposite order, and the truth table of a union, intersection or difference changes at two of the four rays only; C60 |
| C69 | C68 and the integration of C67 |
| C70 | a vertex of plain rings has two edges, so C68 applies; the validity of the result as in C60 |
| C71 | C51 and C67, with one cell around the polygon |
| C72 | C70, C71 and additivity of the measure |
| C73 | a batch without overlapping edges has no equal crossings, so it can be sorted in one way; induction over the batches |
| C74 | the potential method: twice the sum of the logarithms of the sizes of the subtrees pays for the loop of `splay` |
| C75 | case analysis of `line_intersection`; the crossing point is any function that stays in the bounding boxes |
| C76 | the sweep with faults refines the sweep of `Model/Sweep.lean`, of which C26 shows that it does not fail; evaluation of three inputs; a walk of more steps than slots visits a slot twice |
| C77 | invariant: the slab consists of disjoint chains, and the keys in the active set and in pending left events of heads of chains are heads; no geometry |
| C78 | the yielded points are the critical points of the inputs; the final pieces of an input are its parts between consecutive critical points, of which there is one subdivision |
| C79 | the subdivision of C78 and the counts of edges below give a specification of the emitted edges; they come out in an order that does not allow ties; for `assemble` the steps of the column of active edges are unique |
| C80 | the specification of the emitted edges (C79) is the same for each of the operations, by counting edges below and along a segment twice or not at all |
| C81 | edges that meet in ends only are their own subdivision; windings alternate around a vertex, so the edges determine them, and C79 gives the run |
| C82 | the measure that makes the sweep end, evaluated at the start: the pieces of one line with the points within them weigh no more than the line, by the tiling invariant; no two active pieces come from one line, since ends are handled before starts at one point |
| C83 | an edge that is not vertical exists, by the degrees at the lowest vertex; its middle and a point just above it differ by one in the number of edges below, so one of them is inside; the region is the truth table (C37) |
| C84 | the symmetric difference of the two results, by C83 and C79: along each piece of the common subdivision one side of each result at most, and the symmetric difference is empty exactly if the numbers have the same parity on every piece |
| C85 | induction on the expression: results have closed rings, so each call is one of C37, C83 and C84 |
| C86 | the emitted edges are different pieces of the subdivision (C79), of which there are at most `n + I` by the weights of C82 |
| C87 | the abstract step of the sweep (`LStep`) is determined by the geometry of the edges up to a renumbering; the two runs are paired by induction on the events |
| C88 | every link adds a fixed number of coordinates; two coordinates are put by for every gap left by a merge, and two for every gap, against four for each vertex |
| C89 | the functions of the sweep with a counting comparator, shown to give the same states; a bound for each call of the tree, summed with a budget of one event for each recursive call; a run over nested horizontal segments followed state by state, by induction |
| C90 | parity of the sides met by a ray is the same for rays in all directions: along a side the difference is that of a function of its ends, which cancels around a closed ring; affine maps are composed of those that keep the vertical direction and the exchange of coordinates; near every point there is one on no side with the same sides below; C84 for the image of the result |
| C91 | `count_brute` counts the pairs with an intersection; C27 and C28 give the pairs that the sweep yields, each once |
| C92 | invariant of the loop over the columns: row `i` has gained the trapezoids swept in step `i`, that is from line `i - 1` to line `i`; their measure is that of the cells (C49, C51); measures are kept when coordinates are swapped, almost no point being on a side (C90) |
| C93 | invariant of the loop over the columns: the position in the array is the number of columns so far in which `cross_ubounds` found something (C48); before the first vertex of a piece it finds nothing, and wherever there is a point inside the piece it does |
| C94 | sides are told apart by their heights, or by the directions of their points seen from the origin (argument of a complex number) |
| C95 | a new pair of chains is made only at vertices with both sides to the right; these are visited once, from left to right |
| C96 | the sum over the chains of any function of their segments, upper less lower, is that over the sides (invariant of the sweep); the function that is 1 at one segment and 0 at others |
| C97 | the invariant of the sweep says that the upper chain of an open piece is strictly above its lower chain up to the current vertex; a point of an upper chain is inside its piece, and by C56 in one piece only; with C96 |
| C98 | the ring of such chains is valid and turns around once, so there is one piece (C95); by C97 its upper chain has all segments of the given one, and an increasing chain is determined by its ends and segments |
| C99 | at an event no vertex since the helper lies strictly between the two edges of a gap, and a diagonal from the helper to the event does, so it has no vertex inside; this is kept for all segments of all chains. Two segments that cross inside would both be upper segments of one piece, or an upper segment and a side outside of the interior, or two sides |
| C100 | a relation between the points of two planes that keeps comparisons and turns is carried through every function of `Model/Monotone.lean` (`Lemmas/MonoExact.lean`). The segment of the event point starts as the origin, which need not correspond; it is overwritten before it is read |
| C101 | two segments that meet elsewhere than in ends of both do so in one of four ways told by tests of their ends; being inside is told by counting the sides below in the order of the points, which no shear is needed for (`Lemmas/OrderType.lean`). The converse moves the points back |
| C102 | the determinant changes by at most `8 D ε + 8 ε²`; then C100 and C101. Conversely a small step of one vertex breaks a tie (`Props/MonoStable.lean`) |
| C103 | induction on the tree for the drop; the length of the right (left) spine as a potential for the rounds of `next` (`next_back`); the trees after increasing inserts are paths (`Props/SplayDrop.lean`) |
| C104 | from C63 and C83: the difference is empty exactly if the expected points are among the computed ones (`Props/BenchBops.lean`) |
| C105, C106 | permutation of the pairs counted; bounds by `nlinarith`, sine and cosine by their Taylor bounds (`Props/BenchLines.lean`) |
| C107 | induction on the tree; the tree after increasing inserts from C103 |
| C108 | telescoping sums in the shoelace formula; validity of images from C94; Taylor bounds (`Props/BenchRotate.lean`) |

## Findings

Claims of `properties.jsonl` that turned out to be false of the code. The refutations are theorems, and what does hold is proved beside
them under a name that ends in `_partial`.

- **C15** `line_or_point.rs:236` tests `p2 >= q2` where `p2 >= q1` is meant: two lines without a common abscissa are compared, and
  not refused.
- **C28** `Intersections` yields some pairs twice, and misses some: `first_segment` is cleared also on the left part of a split segment
  (`crossings/sweep.rs:141`), and overlaps are reported in batches.
- **C30** for the same reason the first piece of an input need not have `first_segment` set.
- **C41** `boolean_op` can return a wrong region. `Rings::add_edge` joins the edges at a vertex in the order in which they come, so that
  with more than two edges of the result at a vertex a loop can get the winding of another, its `is_hole` is wrong, and `assemble` attaches
  it to the wrong ring. The rings of `Op::sweep` are right by the even-odd rule (C41_sweep_partial). With an unstable sort also the rings can be wrong
  (C41_needs_stable_sort). Which of them are wrong depends on the direction of the sweep: the same operands turned by a right angle can have a right
  result (C90_fails_for_boolean_op).
- **C51** holds for the polygons that the documentation of `monotone_chains` allows; on a self-crossing ring it can return with a
  negative area (example beside the theorem). **C38** likewise: the winding order of geo is the sign of the area for simple rings only.
- The `next_after` branch of `intersect_line_ordered` is not reached in exact arithmetic (C17); degenerate (point) segments are never
  removed from the slab.
- `next` and `prev` of the splay tree splay the key and then walk down to the neighbour without splaying it, so that a call can cost a
  number of comparisons linear in the size of the tree every time (C74). `handle_event` calls them with the key in the tree, so the sweep as a
  whole is not `O((n + k) log n)` as documented (`crossings.rs:108`, `219`): it can make quadratically many comparisons on segments that do
  not meet at all (C89).
- The comment in `intersect_line_ordered` says that the point is forced to be greater than both left end points. This is done for `self`
  only; at the removal of a segment `other` can start after `self`, and a rounded crossing can be before it (C75_other_before_start).
- With rounded crossing points the sweep can panic, loop for ever, or pass the key of a vacant slot to `get_unchecked` (C76); the safety
  comment of `Active::new` (`active.rs:31-35`) excludes undefined behaviour when the order of segments changes, wrongly. A rounded crossing can make a segment in the active set start after the segment of the current event;
  if the two then overlap, segments get chained that are in the active set on their own. A check of this one condition is enough to exclude all but
  panics (C77).
- `our_area` of the benchmarks sweeps to the *left* line of column `i` and enters the areas under `i`: all areas are one row too far, and the last row is
  lost (C92). `count_bo` and `count_brute` agree if no lines overlap and no line starts on another, and not in general (C91).
- `our_rasterize` of the benchmarks goes on to the next column without moving on in the array if a piece is not met (`continue` in line 34, before line 40), so
  pieces are drawn away from their place (C93).
- The test polygon marked TODO in `monotone.rs` has `cross_area` 149/50 in exact arithmetic.

## Partial results

C15, C28, C30: false claims, as above. C41: proved for `Op::sweep`; false for `boolean_op` (above), where it is proved when at most two
edges of the result start at each point (by the even-odd rule) and at most four meet there (as inside an exterior and outside its
holes). C59 is the same under a condition on the operands.
