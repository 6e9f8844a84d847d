{
 "claims": [
  {
   "property": "C01",
   "status": "proved",
   "theorems": [
    "GeoCrossings.Splay.C01_history_refines_sorted_map"
   ],
   "note": ""
  },
  {
   "property": "C02",
   "status": "proved",
   "theorems": [
    "GeoCrossings.Splay.C02_lookups_preserve_entries"
   ],
   "note": ""
  },
  {
   "property": "C03",
   "status": "proved",
   "theorems": [
    "GeoCrossings.Splay.C03_splay_brings_nearest"
   ],
   "note": ""
  },
  {
   "property": "C04",
   "status": "proved",
   "theorems": [
    "GeoCrossings.Splay.C04_next_prev"
   ],
   "note": ""
  },
  {
   "property": "C05",
   "status": "proved",
   "theorems": [
    "GeoCrossings.Splay.C05_into_iter_is_deque"
   ],
   "note": ""
  },
  {
   "property": "C06",
   "status": "proved",
   "theorems": [
    "GeoCrossings.Splay.C06_set_insert",
    "GeoCrossings.Splay.C06_set_remove"
   ],
   "note": ""
  },
  {
   "property": "C07",
   "status": "proved",
   "theorems": [
    "GeoCrossings.Splay.C07_len_counts"
   ],
   "note": ""
  },
  {
   "property": "C08",
   "status": "proved",
   "theorems": [
    "GeoCrossings.Splay.C08_insert_any_comparator",
    "GeoCrossings.Splay.C08_remove_any_comparator",
    "GeoCrossings.Splay.C08_remove_can_lose",
    "GeoCrossings.Splay.C08_remove_lawful"
   ],
   "note": ""
  },
  {
   "property": "C09",
   "status": "proved",
   "theorems": [
    "GeoCrossings.C09_sweep_point_order",
    "GeoCrossings.C09_cmp_panics_iff"
   ],
   "note": ""
  },
  {
   "property": "C10",
   "status": "proved",
   "theorems": [
    "GeoCrossings.C10_drain_in_sweep_order"
   ],
   "note": ""
  },
  {
   "property": "C11",
   "status": "proved",
   "theorems": [
    "GeoCrossings.C11_normalise"
   ],
   "note": ""
  },
  {
   "property": "C12",
   "status": "proved",
   "theorems": [
    "GeoCrossings.C12_duality"
   ],
   "note": ""
  },
  {
   "property": "C13",
   "status": "proved",
   "theorems": [
    "GeoCrossings.C13_order_is_vertical_order",
    "GeoCrossings.C13_line_point_order"
   ],
   "note": ""
  },
  {
   "property": "C14",
   "status": "proved",
   "theorems": [
    "GeoCrossings.C14_active_set_strict_total_order"
   ],
   "note": ""
  },
  {
   "property": "C15",
   "status": "partial",
   "theorems": [
    "GeoCrossings.C15_refuses_partial",
    "GeoCrossings.C15_not_enforced"
   ],
   "note": "the claim is false of the code for two lines (line 236 tests p2 >= q2 instead of p2 >= q1); the refutation and the true part are proved"
  },
  {
   "property": "C16",
   "status": "proved",
   "theorems": [
    "GeoCrossings.C16_intersect_line_exact"
   ],
   "note": "exact arithmetic"
  },
  {
   "property": "C17",
   "status": "proved",
   "theorems": [
    "GeoCrossings.C17_ordered_eq"
   ],
   "note": "exact arithmetic"
  },
  {
   "property": "C18",
   "status": "proved",
   "theorems": [
    "GeoCrossings.C18_split_tiles"
   ],
   "note": "exact arithmetic"
  },
  {
   "property": "C19",
   "status": "proved",
   "theorems": [
    "GeoCrossings.C19_increasing"
   ],
   "note": "Exact arithmetic, all tie-breaks."
  },
  {
   "property": "C20",
   "status": "proved",
   "theorems": [
    "GeoCrossings.C20_touches"
   ],
   "note": "Exact arithmetic, all tie-breaks."
  },
  {
   "property": "C21",
   "status": "proved",
   "theorems": [
    "GeoCrossings.C21_endpoints"
   ],
   "note": "Exact arithmetic, all tie-breaks."
  },
  {
   "property": "C22",
   "status": "proved",
   "theorems": [
    "GeoCrossings.C22_intersections"
   ],
   "note": "Exact arithmetic, all tie-breaks."
  },
  {
   "property": "C23",
   "status": "proved",
   "theorems": [
    "GeoCrossings.C23_critical"
   ],
   "note": "Exact arithmetic, all tie-breaks."
  },
  {
   "property": "C24",
   "status": "proved",
   "theorems": [
    "GeoCrossings.C24_no_interior"
   ],
   "note": "Exact arithmetic, all tie-breaks."
  },
  {
   "property": "C25",
   "status": "proved",
   "theorems": [
    "GeoCrossings.C25_tiling",
    "GeoCrossings.C25_tiling_all"
   ],
   "note": "The order statement is for pairwise different crossables; with duplicates the pieces are those of one subdivision per occurrence."
  },
  {
   "property": "C26",
   "status": "proved",
   "theorems": [
    "GeoCrossings.C26_terminates"
   ],
   "note": "No panic, out-of-bounds access or endless loop: the model's result is defined for all sufficiently large step bounds."
  },
  {
   "property": "C27",
   "status": "proved",
   "theorems": [
    "GeoCrossings.C27_tuples",
    "GeoCrossings.C27_total"
   ],
   "note": "For all inputs and heap orders; i is also shown to be the exact common point set, also for reversed and degenerate lines. Different positions: stated for pairwise different inputs, and C is arbitrary, so positions can be taken as inputs."
  },
  {
   "property": "C28",
   "status": "partial",
   "theorems": [
    "GeoCrossings.C28_pair_yielded_twice",
    "GeoCrossings.C28_pair_missed",
    "GeoCrossings.C28_inner_crossing_once_partial"
   ],
   "note": "the claim is false of the code: two refuting runs are evaluated in the kernel; proved for all inputs: a pair that meets in one point which is the first end of neither is yielded exactly once"
  },
  {
   "property": "C29",
   "status": "proved",
   "theorems": [
    "GeoCrossings.C29_walk_visits_each_pair_once",
    "GeoCrossings.mem_looks",
    "GeoCrossings.looks_length"
   ],
   "note": ""
  },
  {
   "property": "C30",
   "status": "partial",
   "theorems": [
    "GeoCrossings.C30_first_piece_not_flagged",
    "GeoCrossings.C30_flagged_is_first_partial"
   ],
   "note": "the claim is false of the code: a refuting run is evaluated in the kernel; the direction that holds (flag set implies first piece) is proved for all inputs"
  },
  {
   "property": "C31",
   "status": "proved",
   "theorems": [
    "GeoCrossings.C31_chains"
   ],
   "note": "Reachable states are those between events."
  },
  {
   "property": "C32",
   "status": "proved",
   "theorems": [
    "GeoCrossings.C32_region_parity"
   ],
   "note": "All crossing sequences, all four operations."
  },
  {
   "property": "C33",
   "status": "proved",
   "theorems": [
    "GeoCrossings.BoolOp.C33_symmetric",
    "GeoCrossings.BoolOp.C33_difference"
   ],
   "note": "Symmetry is proved for the whole of Op::sweep (same Rings state), not only for single decisions."
  },
  {
   "property": "C34",
   "status": "proved",
   "theorems": [
    "GeoCrossings.C34_edges_taken",
    "GeoCrossings.C34_edges_wf"
   ],
   "note": ""
  },
  {
   "property": "C35",
   "status": "proved",
   "theorems": [
    "GeoCrossings.C35_edges_conserved"
   ],
   "note": "For all lists of proper edges; undirected edges as a multiset."
  },
  {
   "property": "C36",
   "status": "proved",
   "theorems": [
    "GeoCrossings.C36_add_edge_total",
    "GeoCrossings.C36_finish_iff_even"
   ],
   "note": "add_edge never panics; the traversal of finish completes iff all degrees are even; finish then panics only for a loop without a winding order."
  },
  {
   "property": "C37",
   "status": "proved",
   "theorems": [
    "GeoCrossings.C37_rings_simple"
   ],
   "note": "Closed, at least three different vertices, no vertex visited twice."
  },
  {
   "property": "C38",
   "status": "proved",
   "theorems": [
    "GeoCrossings.Monotone.C38_is_hole",
    "GeoCrossings.windingOrder_closeRing",
    "GeoCrossings.C38_is_hole_partial"
   ],
   "note": "Sign of the area: for simple rings (no repeated vertex, edges meet only at common ends; Rings returns rings without repeated vertices by C37). For rings that cross themselves geo's winding order is the turn at the least vertex (C38_is_hole_partial holds for all rings); an example shows that it then need not be the sign of the area."
  },
  {
   "property": "C39",
   "status": "proved",
   "theorems": [
    "GeoCrossings.Laminar.C39_each_ring_once",
    "GeoCrossings.Laminar.C39_conserved"
   ],
   "note": ""
  },
  {
   "property": "C40",
   "status": "proved",
   "theorems": [
    "GeoCrossings.Laminar.C40_nesting"
   ],
   "note": "The regions along a batch are specified by an inductive description of crossing nested rings upward. That the batches of a sweep over nested rings are such columns is geometry and not part of this claim."
  },
  {
   "property": "C41",
   "status": "partial",
   "theorems": [
    "GeoCrossings.C41_sweep_partial",
    "GeoCrossings.C41_boolean_op_partial",
    "GeoCrossings.C41_boolean_op_two_partial",
    "GeoCrossings.C41_boolean_op_multi_partial",
    "GeoCrossings.C41_fails_for_boolean_op",
    "GeoCrossings.C41_fails_by_even_odd",
    "GeoCrossings.C41_needs_stable_sort"
   ],
   "note": "Proved for the rings returned by Op::sweep, for all closed operands (also self-intersecting) and all points, with a stable sort, or any sort if no two edges overlap. The claim is false for boolean_op as a whole: both refutations are proved. For boolean_op it is proved by the even-odd rule when at most two edges of the result start at each point, and as inside an exterior and outside its holes when also at most four meet there; C59 has the condition on the operands."
  },
  {
   "property": "C42",
   "status": "proved",
   "theorems": [
    "GeoCrossings.C42_new_accepts_iff"
   ],
   "note": ""
  },
  {
   "property": "C43",
   "status": "proved",
   "theorems": [
    "GeoCrossings.C43_into_polygon"
   ],
   "note": "exact arithmetic"
  },
  {
   "property": "C44",
   "status": "proved",
   "theorems": [
    "GeoCrossings.C44_bounding_rect",
    "GeoCrossings.C44_bounding_rect_returns",
    "GeoCrossings.C44_pieces"
   ],
   "note": ""
  },
  {
   "property": "C45",
   "status": "proved",
   "theorems": [
    "GeoCrossings.C45_contiguous"
   ],
   "note": "exact arithmetic"
  },
  {
   "property": "C46",
   "status": "proved",
   "theorems": [
    "GeoCrossings.C46_follows_and_area"
   ],
   "note": "exact arithmetic"
  },
  {
   "property": "C47",
   "status": "proved",
   "theorems": [
    "GeoCrossings.C47_terminates"
   ],
   "note": "exact arithmetic"
  },
  {
   "property": "C48",
   "status": "proved",
   "theorems": [
    "GeoCrossings.C48_cross_bounds"
   ],
   "note": "exact arithmetic"
  },
  {
   "property": "C49",
   "status": "proved",
   "theorems": [
    "GeoCrossings.C49_cross_area",
    "GeoCrossings.C49_lebesgue",
    "GeoCrossings.volume_bandArea"
   ],
   "note": "exact arithmetic"
  },
  {
   "property": "C50",
   "status": "proved",
   "theorems": [
    "GeoCrossings.Monotone.C50_vertex_types"
   ],
   "note": "For every vertex of every valid polygon, in every state that the sweep reaches; exact arithmetic."
  },
  {
   "property": "C51",
   "status": "proved",
   "theorems": [
    "GeoCrossings.Monotone.C51_monotone_chains"
   ],
   "note": "For all valid polygons (closed simple rings that do not meet, holes in the exterior and not in each other), which is what the documentation asks for (chains.rs:25-32). Outside of it the claim is false: an example beside the theorem shows a self-crossing ring on which the function returns with the negative of the area."
  },
  {
   "property": "C52",
   "status": "proved",
   "theorems": [
    "GeoCrossings.Monotone.C52_vertices"
   ],
   "note": "For all polygons on which the function returns, valid or not."
  },
  {
   "property": "C53",
   "status": "proved",
   "theorems": [
    "GeoCrossings.Monotone.C53_interior_side",
    "GeoCrossings.Monotone.C53_direction",
    "GeoCrossings.Monotone.C53_segments",
    "GeoCrossings.Monotone.C53_reversed"
   ],
   "note": ""
  },
  {
   "property": "C54",
   "status": "proved",
   "theorems": [
    "GeoCrossings.Active.C54_backends_agree"
   ],
   "note": ""
  },
  {
   "property": "C55",
   "status": "proved",
   "theorems": [
    "GeoCrossings.C55_sweep_total"
   ],
   "note": "For a stable sort, or any sort if no edges overlap; C41_needs_stable_sort shows a wrong result otherwise."
  },
  {
   "property": "C56",
   "status": "proved",
   "theorems": [
    "GeoCrossings.Monotone.C51_monotone_chains",
    "GeoCrossings.Monotone.C56_debug_release",
    "GeoCrossings.Monotone.C56_area_pos"
   ],
   "note": ""
  },
  {
   "property": "C57",
   "status": "proved",
   "theorems": [
    "GeoCrossings.Monotone.evenOdd_valid"
   ],
   "note": ""
  },
  {
   "property": "C58",
   "status": "proved",
   "theorems": [
    "GeoCrossings.C58_is_hole",
    "GeoCrossings.C58_needs_two"
   ],
   "note": "C58_needs_two shows that the assumption is needed."
  },
  {
   "property": "C59",
   "status": "proved",
   "theorems": [
    "GeoCrossings.C59_boolean_op",
    "GeoCrossings.C59_boolean_op_two"
   ],
   "note": "For a stable sort in Op::sweep (any sort if no two edges overlap); any sort in assemble. Exact arithmetic. C41_fails_for_boolean_op shows that some assumption on the operands is needed."
  },
  {
   "property": "C60",
   "status": "proved",
   "theorems": [
    "GeoCrossings.C60_boolean_op_chains"
   ],
   "note": "For a stable sort in Op::sweep (any sort if no two edges overlap) and any sorts elsewhere; exact arithmetic. The assumption is on the result: at most two of its edges at each point."
  },
  {
   "property": "C61",
   "status": "proved",
   "theorems": [
    "GeoCrossings.C26_terminates",
    "GeoCrossings.C27_total",
    "GeoCrossings.C55_sweep_total"
   ],
   "note": "The model runs the assertions and a failing one gives none, so these totality theorems say that none fails; C55 covers prev_active. Exact arithmetic."
  },
  {
   "property": "C62",
   "status": "proved",
   "theorems": [
    "GeoCrossings.C62_boolean_op_debug",
    "GeoCrossings.C62_general_position",
    "GeoCrossings.C62_sweep_debug",
    "GeoCrossings.C62_needs_two"
   ],
   "note": "For a stable sort in Op::sweep (any sort if no two edges overlap); any sort in assemble. Exact arithmetic."
  },
  {
   "property": "C63",
   "status": "proved",
   "theorems": [
    "GeoCrossings.C63_debug_sound",
    "GeoCrossings.C63_debug_multi"
   ],
   "note": "For a stable sort in Op::sweep (any sort if no two edges overlap); any sort in assemble. Exact arithmetic."
  },
  {
   "property": "C64",
   "status": "proved",
   "theorems": [
    "GeoCrossings.Monotone.C64_sweep_asserts",
    "GeoCrossings.Monotone.C64_scanner_asserts"
   ],
   "note": "Exact arithmetic."
  },
  {
   "property": "C65",
   "status": "proved",
   "theorems": [
    "GeoCrossings.C65_raster_area"
   ],
   "note": "Exact arithmetic."
  },
  {
   "property": "C66",
   "status": "proved",
   "theorems": [
    "GeoCrossings.C66_raster_bounds",
    "GeoCrossings.C66_last_assertion"
   ],
   "note": "Exact arithmetic. The last check of the test, that the bounds differ by at most a multiple of the cell size, is false in general: C66_last_assertion is a convex quadrilateral on which it fails with the 1024 columns and a margin of the test."
  },
  {
   "property": "C67",
   "status": "proved",
   "theorems": [
    "GeoCrossings.C67_cells"
   ],
   "note": "Exact real arithmetic."
  },
  {
   "property": "C68",
   "status": "proved",
   "theorems": [
    "GeoCrossings.C68_general_position"
   ],
   "note": "Exact arithmetic; stable sort of the crossings, or any sort if no two edges overlap. For xor four edges of the result meet at every crossing, see the example."
  },
  {
   "property": "C69",
   "status": "proved",
   "theorems": [
    "GeoCrossings.C69_boolean_raster"
   ],
   "note": "Exact real arithmetic; stable sort of the crossings, or any sort if no two edges overlap."
  },
  {
   "property": "C70",
   "status": "proved",
   "theorems": [
    "GeoCrossings.C70_plain"
   ],
   "note": "Exact arithmetic; any sort of the crossings."
  },
  {
   "property": "C71",
   "status": "proved",
   "theorems": [
    "GeoCrossings.C71_measure"
   ],
   "note": "Over the reals; geo's unsigned_area is represented by its formula."
  },
  {
   "property": "C72",
   "status": "proved",
   "theorems": [
    "GeoCrossings.C72_areas"
   ],
   "note": "Exact real arithmetic; any sort of the crossings."
  },
  {
   "property": "C73",
   "status": "proved",
   "theorems": [
    "GeoCrossings.C73_any_sort"
   ],
   "note": "Exact arithmetic. The order of equal events is fixed; the sorts vary."
  },
  {
   "property": "C74",
   "status": "proved",
   "theorems": [
    "GeoCrossings.Splay.C74_amortised",
    "GeoCrossings.Splay.C74_same_results",
    "GeoCrossings.Splay.C74_prev_linear",
    "GeoCrossings.Splay.C74_no_log_bound"
   ],
   "note": "Cost is the number of calls of the comparator; time and memory are not modelled."
  },
  {
   "property": "C75",
   "status": "proved",
   "theorems": [
    "GeoCrossings.C75_kind",
    "GeoCrossings.C75_ordered",
    "GeoCrossings.C75_split",
    "GeoCrossings.boxed_of_rounding",
    "GeoCrossings.C75_other_before_start"
   ],
   "note": "orient2d of the robust kernel is taken to be exact; that geo keeps computed crossings in both bounding boxes is a hypothesis, met by correct rounding (boxed_of_rounding). Overflow is not modelled."
  },
  {
   "property": "C76",
   "status": "proved",
   "theorems": [
    "GeoCrossings.C76_exact",
    "GeoCrossings.C76_panics",
    "GeoCrossings.C76_endless",
    "GeoCrossings.C76_out_of_bounds",
    "GeoCrossings.boxed_even",
    "GeoCrossings.intLines",
    "GeoCrossings.Sweep.emitLeftF_forever",
    "GeoCrossings.Sweep.chainEndF_forever",
    "GeoCrossings.Sweep.setChainF_forever"
   ],
   "note": "The rounded arithmetic of the counterexamples is that of the integers, round to nearest, ties to even; the orientation predicate is exact. The inputs have not been run on f64."
  },
  {
   "property": "C77",
   "status": "proved",
   "theorems": [
    "GeoCrossings.C77_safe",
    "GeoCrossings.C77_no_overlaps",
    "GeoCrossings.C77_rounded"
   ],
   "note": "With overlaps the recursion of handle_event is bounded by one call, as it is in exact arithmetic (C76_exact); what happens after a second nested call is not claimed. prev_active of the iterator is not included."
  },
  {
   "property": "C78",
   "status": "proved",
   "theorems": [
    "GeoCrossings.C78_deterministic"
   ],
   "note": "Exact arithmetic. For crossings at left ends the line is left out, and an example shows that it does depend on the order."
  },
  {
   "property": "C79",
   "status": "proved",
   "theorems": [
    "GeoCrossings.C79_edges",
    "GeoCrossings.C79_determined",
    "GeoCrossings.C79_commutative",
    "GeoCrossings.C79_boolean_op",
    "GeoCrossings.C79_boolean_op_commutative",
    "GeoCrossings.outline_perm",
    "GeoCrossings.outline_reverse",
    "GeoCrossings.outline_reverse_hole",
    "GeoCrossings.outline_rotate"
   ],
   "note": "Exact arithmetic. C79_boolean_op is about the build without debug assertions; for Op::sweep both builds are covered."
  },
  {
   "property": "C80",
   "status": "proved",
   "theorems": [
    "GeoCrossings.C80_keeps",
    "GeoCrossings.C80_kills"
   ],
   "note": "Exact arithmetic; closed rings."
  },
  {
   "property": "C81",
   "status": "proved",
   "theorems": [
    "GeoCrossings.C81_no_overlap",
    "GeoCrossings.C81_normal",
    "GeoCrossings.C81_boolean_op"
   ],
   "note": "Exact arithmetic. C81_boolean_op takes the polygons from a debug build, since a release build may return rings in the wrong place where more than four edges meet (C41); the second operation is the release build."
  },
  {
   "property": "C82",
   "status": "proved",
   "theorems": [
    "GeoCrossings.C82_events",
    "GeoCrossings.C82_ends",
    "GeoCrossings.C82_active",
    "GeoCrossings.C82_slab",
    "GeoCrossings.C82_incidences",
    "GeoCrossings.C82_worst"
   ],
   "note": "Exact arithmetic. Counts events, active segments and stored segments; comparisons within the active set are counted in C74, where the prev/next searches have no logarithmic bound."
  },
  {
   "property": "C83",
   "status": "proved",
   "theorems": [
    "GeoCrossings.C83_empty",
    "GeoCrossings.C83_within",
    "GeoCrossings.C83_equal",
    "GeoCrossings.C83_disjoint",
    "GeoCrossings.C83_boolean_op",
    "GeoCrossings.C83_debug"
   ],
   "note": "Exact arithmetic; closed rings. The converse for boolean_op is for a build with debug assertions; a release build may put rings in the wrong place (C41)."
  },
  {
   "property": "C84",
   "status": "proved",
   "theorems": [
    "GeoCrossings.C84_boundary"
   ],
   "note": "Exact arithmetic; closed rings. Both directions."
  },
  {
   "property": "C85",
   "status": "proved",
   "theorems": [
    "GeoCrossings.C85_region",
    "GeoCrossings.C85_returns",
    "GeoCrossings.C85_total",
    "GeoCrossings.C85_boolean_op",
    "GeoCrossings.C85_empty",
    "GeoCrossings.C85_boundary",
    "GeoCrossings.C85_laws"
   ],
   "note": "Exact arithmetic; closed rings. The calls are those of Op::sweep with the rings taken as polygons in any way; C85_boolean_op shows that boolean_op in a debug build is such a call."
  },
  {
   "property": "C86",
   "status": "proved",
   "theorems": [
    "GeoCrossings.C86_vertices",
    "GeoCrossings.C86_sides",
    "GeoCrossings.C86_rings",
    "GeoCrossings.C86_worst"
   ],
   "note": "Exact arithmetic; closed rings."
  },
  {
   "property": "C87",
   "status": "proved",
   "theorems": [
    "GeoCrossings.Monotone.C87_sides",
    "GeoCrossings.Monotone.C87_redrawn",
    "GeoCrossings.Monotone.C87_release"
   ],
   "note": "Exact arithmetic; valid polygons (Spec/ValidPolygon) for C87_sides and C87_redrawn, any polygon for C87_release."
  },
  {
   "property": "C88",
   "status": "proved",
   "theorems": [
    "GeoCrossings.Monotone.C88_count",
    "GeoCrossings.Monotone.C88_coords"
   ],
   "note": "Exact arithmetic."
  },
  {
   "property": "C89",
   "status": "proved",
   "theorems": [
    "GeoCrossings.C89_erase",
    "GeoCrossings.C89_upper",
    "GeoCrossings.C89_total",
    "GeoCrossings.C89_quadratic",
    "GeoCrossings.C89_refutation"
   ],
   "note": "Exact arithmetic; comparisons of active segments made by the splay tree, the default backend."
  },
  {
   "property": "C90",
   "status": "proved",
   "theorems": [
    "GeoCrossings.C90_inside",
    "GeoCrossings.C90_boundary",
    "GeoCrossings.C90_region",
    "GeoCrossings.C90_boolean_op",
    "GeoCrossings.C90_crossings",
    "GeoCrossings.C90_fails_for_boolean_op"
   ],
   "note": "Exact arithmetic. For boolean_op the claim is proved if no three edges meet in a point, and refuted in general (C90_fails_for_boolean_op)."
  },
  {
   "property": "C91",
   "status": "proved",
   "theorems": [
    "GeoCrossings.countBrute_eq",
    "GeoCrossings.C91_counts",
    "GeoCrossings.C91_fails"
   ],
   "note": "Exact arithmetic."
  },
  {
   "property": "C92",
   "status": "proved",
   "theorems": [
    "GeoCrossings.C92_area",
    "GeoCrossings.C92_total"
   ],
   "note": "Real coordinates, exact arithmetic. The entries are proved to be those of the neighbouring row of cells, and the sum to lack the last row."
  },
  {
   "property": "C93",
   "status": "proved",
   "theorems": [
    "GeoCrossings.C93_raster",
    "GeoCrossings.C93_wrong_raster"
   ],
   "note": "Exact arithmetic."
  },
  {
   "property": "C94",
   "status": "proved",
   "theorems": [
    "GeoCrossings.C94_steppy",
    "GeoCrossings.C94_circular",
    "GeoCrossings.C94_rotated"
   ],
   "note": "Exact arithmetic; circular_polygon with real sine and cosine."
  },
  {
   "property": "C95",
   "status": "proved",
   "theorems": [
    "GeoCrossings.Monotone.C95_count",
    "GeoCrossings.Monotone.C95_starts",
    "GeoCrossings.Monotone.C95_monotone",
    "GeoCrossings.Monotone.C95_convex"
   ],
   "note": "Exact arithmetic."
  },
  {
   "property": "C96",
   "status": "proved",
   "theorems": [
    "GeoCrossings.Monotone.C96_sides",
    "GeoCrossings.Monotone.C96_diagonals"
   ],
   "note": "Exact arithmetic."
  },
  {
   "property": "C97",
   "status": "proved",
   "theorems": [
    "GeoCrossings.Monotone.C97_simple",
    "GeoCrossings.Monotone.C97_sides",
    "GeoCrossings.Monotone.C97_diagonals"
   ],
   "note": "Exact arithmetic."
  },
  {
   "property": "C98",
   "status": "proved",
   "theorems": [
    "GeoCrossings.Monotone.C98_fixed",
    "GeoCrossings.Monotone.C98_idempotent"
   ],
   "note": "Exact arithmetic."
  },
  {
   "property": "C99",
   "status": "proved",
   "theorems": [
    "GeoCrossings.Monotone.C99_vertices",
    "GeoCrossings.Monotone.C99_conforming",
    "GeoCrossings.Monotone.C99_plane"
   ],
   "note": "Exact arithmetic."
  },
  {
   "property": "C100",
   "status": "proved",
   "theorems": [
    "GeoCrossings.Monotone.C100_moved",
    "GeoCrossings.Monotone.C100_valid",
    "GeoCrossings.Monotone.C100_affine",
    "GeoCrossings.Monotone.C100_embed",
    "GeoCrossings.Monotone.Demo.C100_needs_tests"
   ],
   "note": "orient2d is assumed to return the sign of the exact determinant, as the robust predicates of geo do."
  },
  {
   "property": "C101",
   "status": "proved",
   "theorems": [
    "GeoCrossings.Monotone.C101_valid_iff",
    "GeoCrossings.Monotone.Demo.C101_needs_turns"
   ],
   "note": "Exact arithmetic; orient2d returns the sign of the exact determinant."
  },
  {
   "property": "C102",
   "status": "proved",
   "theorems": [
    "GeoCrossings.Monotone.C102_quantified",
    "GeoCrossings.Monotone.C102_general_iff",
    "GeoCrossings.Monotone.C102_stable"
   ],
   "note": "Exact arithmetic on the given and on the changed coordinates; equal vertices (the ends of a ring) are changed alike."
  },
  {
   "property": "C103",
   "status": "proved",
   "theorems": [
    "GeoCrossings.Splay.C103_drop_once",
    "GeoCrossings.Splay.C103_drop_depth_le",
    "GeoCrossings.Splay.C103_drop_deep",
    "GeoCrossings.Splay.C103_drop_unbounded",
    "GeoCrossings.Splay.C103_nextC_run",
    "GeoCrossings.Splay.C103_iter_linear",
    "GeoCrossings.Splay.C103_iter_turns"
   ],
   "note": "The drop of a Box<Node> is what the compiler generates: fields in order of declaration, one nested call for each box."
  },
  {
   "property": "C104",
   "status": "proved",
   "theorems": [
    "GeoCrossings.Fixture.C104_round_trip",
    "GeoCrossings.Fixture.C104_area",
    "GeoCrossings.Fixture.C104_operation",
    "GeoCrossings.Fixture.C104_identical",
    "GeoCrossings.Fixture.C104_xor",
    "GeoCrossings.Fixture.C104_one_sided"
   ],
   "note": "Exact arithmetic. The other library itself is not modelled."
  },
  {
   "property": "C105",
   "status": "proved",
   "theorems": [
    "GeoCrossings.C105_rtree",
    "GeoCrossings.C105_all_counts",
    "GeoCrossings.exists_candidates"
   ],
   "note": "Exact arithmetic. The tree is modelled by its documented result."
  },
  {
   "property": "C106",
   "status": "proved",
   "theorems": [
    "GeoCrossings.C106_uniform_line",
    "GeoCrossings.C106_scaled",
    "GeoCrossings.C106_with_length",
    "GeoCrossings.C106_sampler"
   ],
   "note": "Exact arithmetic. That rotate_around_point of geo takes degrees is by its documentation."
  },
  {
   "property": "C107",
   "status": "proved",
   "theorems": [
    "GeoCrossings.Splay.C107_bound",
    "GeoCrossings.Splay.C107_min_linear",
    "GeoCrossings.Splay.C107_max_constant",
    "GeoCrossings.Splay.C107_no_constant"
   ],
   "note": ""
  },
  {
   "property": "C108",
   "status": "proved",
   "theorems": [
    "GeoCrossings.C108_area",
    "GeoCrossings.C108_rotated",
    "GeoCrossings.C108_turn",
    "GeoCrossings.C108_inputs",
    "GeoCrossings.C108_runs"
   ],
   "note": "Exact arithmetic with real sine and cosine. That rotate_around_point of geo takes degrees is by its documentation."
  }
 ]
}