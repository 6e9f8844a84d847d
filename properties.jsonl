{"id": "C01", "title": "SplayTree behaves as a sorted map over any history", "statement": "Starting from an empty SplayTree with a comparator that is a total preorder, any sequence of insert, remove, get, get_mut-writes, contains, find_key, next, prev, min, max, len, is_empty, clear and extend returns exactly what a sorted association list keyed by comparator classes returns.", "quantifier": "all key/value types, all lawful comparators, all finite operation histories, all keys and values", "why_tests_cant": "The tree restructures itself on every lookup; the number of shapes reachable by histories is unbounded.", "anchors": ["src/splay/tree.rs: SplayTree::{new,len,is_empty,clear,contains,get,get_mut,find_key,next,prev,insert,remove,min,max}, splay"]}
{"id": "C02", "title": "Lookups never change the stored entries", "statement": "get, contains, find_key, next and prev leave the in-order sequence of (key, value) entries and len unchanged, for any comparator at all, even one that is not an ordering.", "quantifier": "all trees, all keys, all comparators (lawful or not)", "why_tests_cant": "Lookups mutate through UnsafeCell; a lost subtree appears only for particular shapes and comparator answers.", "anchors": ["src/splay/tree.rs: splay, SplayTree::{get,contains,find_key,next,prev}"]}
{"id": "C03", "title": "Splaying brings the key, or a nearest key, to the root", "statement": "After a splay for key k with a lawful comparator on a search-ordered tree, the root compares Equal to k if any entry does; otherwise the root is the in-order predecessor or successor of k.", "quantifier": "all search-ordered trees, all keys, all lawful comparators", "why_tests_cant": "Depends on tree depth and rotation path; unbounded.", "anchors": ["src/splay/tree.rs: splay"]}
{"id": "C04", "title": "next and prev are strict successor and predecessor", "statement": "next(k) returns the least entry strictly greater than k, prev(k) the greatest entry strictly less than k, and None exactly if there is none, whether or not k itself is stored.", "quantifier": "all search-ordered trees and all query keys", "why_tests_cant": "Needs every shape and every absent/present key.", "anchors": ["src/splay/tree.rs: SplayTree::{next,prev}", "src/splay/set.rs: SplaySet::{next,prev}"]}
{"id": "C05", "title": "Owned iteration yields every entry once, in order, from both ends", "statement": "For any interleaving of next and next_back on into_iter, the front calls yield the ascending sequence and the back calls the descending one, they meet without overlap or gap, None is returned exactly when all entries were yielded, and size_hint is exact throughout.", "quantifier": "all trees and all interleavings of next/next_back", "why_tests_cant": "Exponentially many interleavings; iteration rotates the remaining tree.", "anchors": ["src/splay/tree.rs: IntoIter::{next,next_back,size_hint}", "src/splay/set.rs: IntoIter"]}
{"id": "C06", "title": "SplaySet insert and remove report membership; duplicates keep the first key", "statement": "SplaySet::insert returns true iff no stored element compared Equal, and otherwise leaves the stored element (not the new one) in place; remove returns true iff an Equal element was stored and then removes exactly that one.", "quantifier": "all histories, all lawful comparators including ones that equate distinct elements", "why_tests_cant": "Needs every history and every comparator equivalence.", "anchors": ["src/splay/set.rs: SplaySet::{insert,remove,contains,find,len,is_empty,min,max}", "src/splay/tree.rs: insert, remove"]}
{"id": "C07", "title": "len counts the stored entries in every reachable state", "statement": "In every reachable state of a SplayTree with a lawful comparator len() equals the number of entries iteration would yield, so size never underflows on removal.", "quantifier": "all operation histories with a lawful comparator", "why_tests_cant": "An unbounded number of histories; the counter is kept separately from the nodes.", "anchors": ["src/splay/tree.rs: SplayTree.size, insert, remove, clear, into_iter"]}
{"id": "C08", "title": "Unlawful comparators: what remove can and cannot do", "statement": "With an arbitrary comparator, insert adds exactly the new entry or replaces exactly one value and loses nothing; remove with a lawful comparator loses nothing but the matched entry, but with an unlawful comparator it can drop other entries (so the sweep's active set is only as good as its ordering).", "quantifier": "all trees, all comparators", "why_tests_cant": "The loss needs a comparator answering inconsistently along one particular path.", "anchors": ["src/splay/tree.rs: insert, remove"]}
{"id": "C09", "title": "Sweep points are totally ordered lexicographically, and comparing panics only on NaN", "statement": "SweepPoint ordering is the lexicographic order on (x, y): a strict total order on points without NaN, consistent with ==; Ord::cmp panics exactly when a coordinate comparison that is reached is undefined.", "quantifier": "all pairs and triples of points over any scalar with a partial comparison", "why_tests_cant": "Order laws quantify over all triples.", "anchors": ["src/events.rs: SweepPoint, PartialOrd, Ord, Eq"]}
{"id": "C10", "title": "Events leave the queue in sweep order", "statement": "Popping all events of any collection from a max-heap ordered by Event::cmp yields them with non-decreasing point, and at equal points in the order PointLeft, LineRight, LineLeft, PointRight, whatever the heap does with ties.", "quantifier": "all event multisets, all heap tie-breaking policies", "why_tests_cant": "Ties and permutations are unbounded.", "anchors": ["src/events.rs: Event, EventType, Ord"]}
{"id": "C11", "title": "Line normalisation is direction-independent", "statement": "LineOrPoint::from(line) gives a Point iff start equals end, otherwise a Line whose first point is strictly smaller; reversing the input line gives the same result, line() returns the same pair of endpoints, and conversion is idempotent.", "quantifier": "all lines over any totally ordered scalar", "why_tests_cant": "All coordinate pairs.", "anchors": ["src/line_or_point.rs: From<Line>, line, first, second, is_line"]}
{"id": "C12", "title": "Segment comparison is dual", "statement": "For any two geometries, a.partial_cmp(b) is the reverse of b.partial_cmp(a), including the None results, and a line compared with itself is Equal.", "quantifier": "all pairs of well-formed LineOrPoint values over an exact ordered field", "why_tests_cant": "All coordinates and the recursion through swapped arguments.", "anchors": ["src/line_or_point.rs: PartialOrd for LineOrPoint, orientation_as_ordering"]}
{"id": "C13", "title": "Segment comparison agrees with the vertical order at the sweep line", "statement": "For two non-crossing segments that both span a sweep position, partial_cmp is Less exactly when the first lies below the second at that position (with vertical segments handled by the lexicographic sweep).", "quantifier": "all pairs of lines over an exact ordered field, all common sweep positions", "why_tests_cant": "Requires all real configurations.", "anchors": ["src/line_or_point.rs: PartialOrd for LineOrPoint", "docs/src/line-crossings/simple.md: Ordering the Segments"]}
{"id": "C14", "title": "Segment comparison is transitive on an active set", "statement": "On any set of segments that share a sweep position and do not cross before it, partial_cmp (with the key tie-break used by the sweeps) is a strict total order, which is what the ordered set requires.", "quantifier": "all triples of lines sharing a sweep position in an exact ordered field", "why_tests_cant": "All triples of real segments.", "anchors": ["src/line_or_point.rs: PartialOrd", "src/crossings/sweep.rs: PartialOrd for Segment", "src/monotone/segment.rs: PartialOrd for Segment"]}
{"id": "C15", "title": "Comparison refuses pairs that violate its documented precondition", "statement": "partial_cmp returns None for two lines unless both left ends are strictly smaller than both right ends (the documented condition 1), and for a point and a line unless the point lies within the line's lexicographic extent.", "quantifier": "all pairs of LineOrPoint values", "why_tests_cant": "The missing check shows only on particular endpoint orders.", "anchors": ["src/line_or_point.rs: lines 199-238"]}
{"id": "C16", "title": "intersect_line is the exact set intersection", "statement": "With exact arithmetic, a.intersect_line(b) is None iff the closed geometries are disjoint, Point(p) iff they meet in exactly {p}, and Line(p,q) iff they meet in exactly the non-degenerate segment pq; it panics iff b is a point.", "quantifier": "all pairs of geometries over an exact ordered field", "why_tests_cant": "All degenerate and touching configurations.", "anchors": ["src/line_or_point.rs: intersect_line"]}
{"id": "C17", "title": "intersect_line_ordered never returns a point before either segment starts", "statement": "With exact arithmetic the returned intersection is at or after the first endpoint of both inputs and at or before both second endpoints, and the next_after nudge is never taken; the result equals intersect_line.", "quantifier": "all pairs of geometries over an exact ordered field", "why_tests_cant": "All coordinates.", "anchors": ["src/line_or_point.rs: intersect_line_ordered"]}
{"id": "C18", "title": "Splitting a segment tiles it", "statement": "adjust_for_intersection keeps the part starting at the segment's left end in place, and the kept part, the returned right part and (for a double split) the intersection itself are consecutive, non-degenerate and cover the original segment; the segment is unchanged exactly when the intersection is an endpoint or the whole.", "quantifier": "all segments and all intersections contained in them", "why_tests_cant": "All coordinates and equality patterns.", "anchors": ["src/crossings/sweep.rs: Segment::adjust_for_intersection, SplitSegments"]}
{"id": "C19", "title": "CrossingsIter yields strictly increasing points", "statement": "The coordinates yielded by CrossingsIter are strictly increasing in lexicographic order, so no point is yielded twice.", "quantifier": "all finite inputs (lines, points, overlaps, duplicates) in exact arithmetic, all heap tie-breaks", "why_tests_cant": "All inputs and all tie orders.", "anchors": ["src/crossings.rs: CrossingsIter::next", "src/crossings/sweep.rs: Sweep::{next_event,handle_event}"]}
{"id": "C20", "title": "Every reported crossing touches the yielded point and lies on its input", "statement": "Every Crossing reported with a yielded point has a line that is a sub-segment of its crossable's geometry, starts at the point if at_left, and otherwise ends at it (or is the point).", "quantifier": "all inputs in exact arithmetic, all yields", "why_tests_cant": "All split histories.", "anchors": ["src/crossings.rs: Crossing, CrossingsIter::{next,intersections}", "src/crossings/sweep.rs: handle_event"]}
{"id": "C21", "title": "Every input endpoint is yielded with its input", "statement": "Both endpoints of every input line, and every input point, are yielded, and the batch at that point contains a Crossing for that input.", "quantifier": "all inputs in exact arithmetic", "why_tests_cant": "All inputs, including overlaps and duplicates.", "anchors": ["src/crossings.rs: CrossingsIter", "src/crossings/sweep.rs: Sweep"]}
{"id": "C22", "title": "Every intersection point is yielded with all inputs through it", "statement": "If two inputs share a single point, or an overlap starts or ends at a point, that point is yielded and the batch contains a Crossing of each of them.", "quantifier": "all inputs in exact arithmetic", "why_tests_cant": "Bentley-Ottmann completeness over all arrangements.", "anchors": ["src/crossings.rs: CrossingsIter", "src/crossings/sweep.rs: Sweep"]}
{"id": "C23", "title": "No spurious points", "statement": "Every yielded point is an endpoint of an input or an intersection point of two inputs.", "quantifier": "all inputs in exact arithmetic", "why_tests_cant": "All inputs.", "anchors": ["src/crossings.rs: CrossingsIter", "src/crossings/sweep.rs"]}
{"id": "C24", "title": "Pieces reported as ended have no intersection in their interior", "statement": "If a Crossing is reported with at_left false, its line contains no other yielded point in its interior, as documented on Crossing::line.", "quantifier": "all inputs in exact arithmetic", "why_tests_cant": "All inputs.", "anchors": ["src/crossings.rs: Crossing.line doc (lines 74-81)"]}
{"id": "C25", "title": "Pieces tile every input", "statement": "For each input line the pieces reported with at_left false, in order, are consecutive and cover exactly the input line.", "quantifier": "all inputs in exact arithmetic", "why_tests_cant": "All split orders and overlaps.", "anchors": ["src/crossings/sweep.rs: adjust_one_segment, create_segment, chain_overlap"]}
{"id": "C26", "title": "The sweep terminates without panicking", "statement": "For every finite input without NaN, iteration reaches None after finitely many steps and no assertion, expect or unchecked access fails.", "quantifier": "all inputs in exact arithmetic, all heap tie-breaks", "why_tests_cant": "All inputs.", "anchors": ["src/crossings/sweep.rs: asserts and get_unchecked"]}
{"id": "C27", "title": "Intersections yields only intersecting pairs, with their intersection", "statement": "Every tuple (a, b, i) yielded by Intersections has a and b from the input (different positions), and i is exactly the line_intersection of their lines.", "quantifier": "all inputs in exact arithmetic", "why_tests_cant": "All inputs.", "anchors": ["src/crossings.rs: Intersections::{intersection,step,next}"]}
{"id": "C28", "title": "Intersections is a drop-in replacement for testing all pairs", "statement": "Intersections yields every pair of inputs that intersect, exactly once.", "quantifier": "all inputs", "why_tests_cant": "Depends on the order in which segments are split before their left event is reported.", "anchors": ["src/crossings.rs: Intersections (lines 212-222)", "src/crossings/sweep.rs: first_segment"]}
{"id": "C29", "title": "Intersections examines every pair of each batch once", "statement": "Between two points, the (idx, jdx) walk visits each unordered pair of distinct positions of the batch exactly once, skips batches with fewer than two segments, and its overlap flag is true exactly if all has_overlap flags from idx to jdx-1 are set.", "quantifier": "all batch sequences of all lengths", "why_tests_cant": "All batch sizes.", "anchors": ["src/crossings.rs: Intersections::step"]}
{"id": "C30", "title": "first_segment marks the first piece of each input", "statement": "A Crossing reported at_left has first_segment true iff its line starts at the first endpoint of its input.", "quantifier": "all inputs", "why_tests_cant": "Depends on when the segment is split.", "anchors": ["src/crossings.rs: Crossing.first_segment (line 83)", "src/crossings/sweep.rs: adjust_for_intersection lines 141,160,168,175"]}
{"id": "C31", "title": "Overlapping segments form one acyclic list", "statement": "At all times the overlap links of the sweep's stored segments form disjoint finite chains from one root, all members of a chain have the same geometry, and reporting a root reports every member exactly once.", "quantifier": "all inputs in exact arithmetic, all reachable sweep states", "why_tests_cant": "All histories of splits and overlaps.", "anchors": ["src/crossings/sweep.rs: chain_overlap, create_segment, handle_event"]}
{"id": "C32", "title": "Region bookkeeping is parity plus the operation's truth table", "statement": "After crossing any sequence of edges from outside, the region is in the result of the operation iff the operation's truth table holds for (odd number of first-polygon edges, odd number of second-polygon edges), for intersection, union, difference and xor.", "quantifier": "all edge sequences, all four operations", "why_tests_cant": "All sequences.", "anchors": ["src/bops/op.rs: Region::{infinity,cross,is_ty}, OpType"]}
{"id": "C33", "title": "Operand symmetry of the boolean operations", "statement": "Swapping the operands gives the same emit decisions for intersection, union and xor; difference is intersection with the complement of the second operand.", "quantifier": "all edge sequences", "why_tests_cant": "All sequences.", "anchors": ["src/bops.rs: BooleanOp", "src/bops/op.rs: Region"]}
{"id": "C34", "title": "Boolean operations take in exactly the non-degenerate edges", "statement": "add_polygon / add_multi_polygon record one edge for every pair of consecutive distinct coordinates of every ring with more than three coordinates, tagged with its operand, normalised, in order, and nothing else; a ring that is not closed panics.", "quantifier": "all polygons and multipolygons", "why_tests_cant": "All ring shapes and lengths.", "anchors": ["src/bops/op.rs: add_polygon, add_multi_polygon, add_closed_ring"]}
{"id": "C35", "title": "Ring assembly conserves edges", "statement": "When finish returns, the undirected edges of the returned rings are exactly the edges added (as a multiset): none lost, duplicated or invented.", "quantifier": "all sequences of added edges", "why_tests_cant": "All orders of insertion, joins and re-visits.", "anchors": ["src/bops/rings.rs: Rings::{add_edge,finish,push_link,link_chains}"]}
{"id": "C36", "title": "Ring assembly succeeds exactly on even-degree edge sets", "statement": "If every vertex has an even number of added edges (and no ring degenerates), finish does not panic and its traversal terminates; if some vertex has odd degree it panics.", "quantifier": "all sequences of added edges", "why_tests_cant": "All chain link structures.", "anchors": ["src/bops/rings.rs: Rings::finish"]}
{"id": "C37", "title": "Returned rings are closed and simple at vertices", "statement": "Every ring returned by finish is closed and visits no vertex twice (apart from the closing one).", "quantifier": "all sequences of added edges", "why_tests_cant": "All revisit patterns.", "anchors": ["src/bops/rings.rs: Rings::finish history, Ring::from_coords"]}
{"id": "C38", "title": "is_hole compares the ring's winding with the region's", "statement": "A ring is flagged as a hole iff its winding order differs from the winding recorded for its chain, the winding being the sign of its area; degenerate rings panic.", "quantifier": "all rings", "why_tests_cant": "All rings.", "anchors": ["src/bops/rings.rs: Ring::{from_coords,is_hole}"]}
{"id": "C39", "title": "Assembly places every ring exactly once", "statement": "Given rings and a parent assignment in which each hole's parent is an exterior ring, assemble returns one polygon per exterior ring, in ring order, whose interiors are exactly the holes assigned to it in order.", "quantifier": "all ring lists and parent maps", "why_tests_cant": "All nesting structures.", "anchors": ["src/bops/laminar.rs: assemble lines 85-101"]}
{"id": "C40", "title": "Nesting sweep assigns holes to the enclosing exterior", "statement": "Going upward through the edges of a batch, the below/region hand-over alternates between inside and outside and gives each hole the exterior whose interior lies just below its first edge.", "quantifier": "all batches of edges", "why_tests_cant": "All nestings.", "anchors": ["src/bops/laminar.rs: assemble lines 26-83"]}
{"id": "C41", "title": "Boolean operations compute the point-set operation", "statement": "A point off all edges is inside the returned multipolygon iff the operation's truth table holds for its membership in the two operands (even-odd).", "quantifier": "all pairs of polygons/multipolygons in exact arithmetic, all points", "why_tests_cant": "All inputs and all points.", "anchors": ["src/bops.rs: boolean_op", "src/bops/op.rs: Op::sweep"]}
{"id": "C42", "title": "MonoPoly::new accepts exactly monotone chain pairs", "statement": "MonoPoly::new returns iff both chains share first and last points, these differ, and both chains are strictly increasing lexicographically.", "quantifier": "all pairs of coordinate lists", "why_tests_cant": "All lists.", "anchors": ["src/monotone/mono_poly.rs: MonoPoly::new"]}
{"id": "C43", "title": "MonoPoly converts to the closed polygon bounded by its chains", "statement": "into_polygon returns the closed ring top followed by reversed bot without duplicating the shared ends; the ring is clockwise: its signed (counter-clockwise) shoelace area is the area under bot minus the area under top; into_ls_pair returns the chains unchanged.", "quantifier": "all monotone polygons", "why_tests_cant": "All chain lengths.", "anchors": ["src/monotone/mono_poly.rs: into_polygon, into_ls_pair"]}
{"id": "C44", "title": "MonoPoly bounding_rect bounds the polygon", "statement": "bounding_rect contains every vertex tightly when top is nowhere below bot, and panics exactly when the polygon has zero width or height; so it does not panic on a piece of a valid polygon.", "quantifier": "all monotone polygons", "why_tests_cant": "All chains.", "anchors": ["src/monotone/mono_poly.rs: bounding_rect"]}
{"id": "C45", "title": "Scanner trapezoids are contiguous and advance", "statement": "The trapezoids produced by advance_to/advance_upto for any sequence of increasing limits have positive width, each starts where the previous ended in x, none exceeds its limit, and the scanner ends at the limit or at the polygon's right end.", "quantifier": "all monotone polygons, all limit sequences", "why_tests_cant": "All chains and all limits.", "anchors": ["src/monotone/mono_poly.rs: Scanner::{advance_to,advance_upto,advance_next,peek_next}"]}
{"id": "C46", "title": "Scanner trapezoids follow the chains", "statement": "Each trapezoid's four corners lie on the top and bottom chains, and the total area of the trapezoids from the left end to the right end is exactly the polygon's area (exact arithmetic).", "quantifier": "all monotone polygons, all limit sequences reaching the right end", "why_tests_cant": "All polygons.", "anchors": ["src/monotone/mono_poly.rs: Scanner", "src/monotone.rs: Trapz::area"]}
{"id": "C47", "title": "Scanner always terminates and never panics on valid polygons", "statement": "advance_next consumes a vertex or reaches the limit, so advance_to terminates; with a polygon accepted by MonoPoly::new no index is out of range and interpolation is always within its edge.", "quantifier": "all monotone polygons and limits", "why_tests_cant": "All chains.", "anchors": ["src/monotone/mono_poly.rs: Scanner"]}
{"id": "C48", "title": "cross_ubounds / cross_bounds give in-range covering rows", "statement": "The row range returned lies within 0..height, is ordered, and covers every part of the swept trapezoids inside [cross_min, cross_max); an empty range/None is returned iff nothing of positive extent lies in the band.", "quantifier": "all trapezoid sequences, bands and heights > 0 in exact arithmetic", "why_tests_cant": "All values.", "anchors": ["src/monotone/rasterize.rs: cross_ubounds, cross_bounds"]}
{"id": "C49", "title": "cross_area distributes exactly the swept area", "statement": "cross_area never panics on valid trapezoids, and the amounts it adds to the array sum to the area of the swept trapezoids inside the band (exact arithmetic).", "quantifier": "all trapezoids with top above bottom, all bands and array lengths", "why_tests_cant": "All trapezoid shapes.", "anchors": ["src/monotone/rasterize.rs: cross_area"]}
{"id": "C50", "title": "Vertex classification is exhaustive and correct", "statement": "find_intersection_type classifies a vertex as Start/Split when both edges lie to its right, End/Merge when both lie to its left, otherwise Continue, choosing Start and End exactly when the polygon's interior is in the convex wedge between the edges.", "quantifier": "all vertices of valid polygons", "why_tests_cant": "All local configurations.", "anchors": ["src/monotone/sweep.rs: find_intersection_type"]}
{"id": "C51", "title": "Monotone pieces have the polygon's total area", "statement": "If monotone_chains returns, every returned piece is monotone and has a positive area, and the areas of the pieces sum to the area enclosed by the input polygon (exterior minus holes).", "quantifier": "all polygons on which the function returns, exact arithmetic", "why_tests_cant": "All polygons.", "anchors": ["src/monotone/chains.rs: monotone_chains", "src/monotone/sweep.rs: Sweep"]}
{"id": "C52", "title": "Monotone pieces use only polygon vertices", "statement": "Every vertex of every returned piece is a vertex of the input polygon.", "quantifier": "all polygons on which the function returns", "why_tests_cant": "All polygons.", "anchors": ["src/monotone/chains.rs: monotone_chains"]}
{"id": "C53", "title": "Interior side of an edge does not depend on traversal direction", "statement": "A monotone-sweep segment built from an edge and the ring's winding records the interior side correctly whichever way the edge is directed, and reversing a ring gives the same segments.", "quantifier": "all edges and windings", "why_tests_cant": "All edges.", "anchors": ["src/monotone/segment.rs: Segment::new, interior_winding", "src/utils.rs: winding_inverse"]}
{"id": "C54", "title": "Both ordered-set backends give the same neighbours", "statement": "For a totally ordered active set, prev_key/next_key/add_key/remove_key give the same answers through the BTreeSet and the SplaySet implementations.", "quantifier": "all histories of active-set operations over a total order", "why_tests_cant": "All histories.", "anchors": ["src/active.rs: Access for BTreeSet<Active>, Access for SplayWrap<Active>"]}
{"id": "C55", "title": "The boolean operation sweep never panics", "statement": "Op::sweep returns, without panic or endless loop, on the edges of any two multipolygons with closed rings, including self-intersecting, overlapping and degenerate ones.", "quantifier": "all pairs of multipolygons with closed rings in exact arithmetic, all heap tie orders, all stable sorts", "why_tests_cant": "All inputs; termination is not observable by a finite test.", "anchors": ["src/bops/op.rs: Op::sweep, Op::add_closed_ring", "src/bops/rings.rs: Rings::finish"]}
{"id": "C56", "title": "monotone_chains succeeds on valid polygons and its pieces tile the interior", "statement": "On every valid polygon monotone_chains returns, with and without debug assertions and whatever the order of the sort for equal events, and every point of the plane (points just above it counted on edges) is inside exactly one of the pieces if it is inside the polygon and inside none otherwise.", "quantifier": "all valid polygons with any number of holes, exact arithmetic, all sort orders of equal events", "why_tests_cant": "All polygons, all points of the plane, and the absence of panics.", "anchors": ["src/monotone/chains.rs: monotone_chains", "src/monotone/sweep.rs: Sweep::{from_polygon,process_event}", "src/monotone/segment.rs: Chain"]}
{"id": "C57", "title": "Interior by parity equals exterior minus holes", "statement": "For a valid polygon, the points with an odd number of edges below them (the sense in which the sweeps decide what is inside) are exactly the points inside the exterior ring and outside every hole.", "quantifier": "all valid polygons, all points", "why_tests_cant": "All polygons and points.", "anchors": ["src/monotone/sweep.rs: Sweep::from_polygon", "src/bops/op.rs: Op::add_polygon"]}
{"id": "C58", "title": "Op::sweep marks exactly the right rings as holes", "statement": "If at most two edges of the result start at any point, a ring that Op::sweep returns has is_hole set iff the region just below its least vertex belongs to the result of the operation. (With more edges it fails.)", "quantifier": "all operands with closed rings, all operations, all rings of the result", "why_tests_cant": "All operands; the flag depends on the order in which the edges at each vertex of the ring were linked during the whole sweep.", "anchors": ["src/bops/rings.rs: Rings::{add_edge,finish}", "src/bops/op.rs: Op::sweep"]}
{"id": "C59", "title": "boolean_op returns the right multipolygon on operands in general position", "statement": "If the rings of the operands are closed and their edges leave every point in at most two directions to the right and four in all, boolean_op returns; a point is in one of the returned polygons (inside the exterior and outside its holes) iff the truth table of the operation holds for its membership in the operands; every hole is inside its exterior, and neither two polygons nor two holes of a polygon have a point in common.", "quantifier": "all such operands (also self-intersecting, with any nesting of rings), all four operations, all points of the plane, all orders of equal events", "why_tests_cant": "All operands and all points; correctness of the parent found for each hole depends on the nesting of all rings.", "anchors": ["src/bops/op.rs: boolean_op", "src/bops/laminar.rs: assemble", "src/bops/rings.rs: Rings::finish"]}
{"id": "C60", "title": "The polygons of boolean_op can be decomposed by monotone_chains", "statement": "If at most two edges of the result meet at each point, the polygons that boolean_op returns are valid input for monotone_chains (closed simple rings that do not meet, holes inside the exterior and not inside each other). Applied to all of them it returns pairs of monotone chains, and each point is inside exactly one of these pieces if the truth table of the operation holds for its membership in the operands, and inside none otherwise.", "quantifier": "all operands with closed rings whose result has this property, all operations, all points, both builds", "why_tests_cant": "All operands and all points; it is the composition of two sweeps and the assembly of rings, and the first must establish the precondition of the last.", "anchors": ["src/bops/op.rs: boolean_op", "src/monotone/chains.rs: monotone_chains"]}
{"id": "C61", "title": "No debug assertion of the crossing sweep fails", "statement": "In a build with debug assertions the crossing sweep and the iterator over pairwise intersections never fail one of the assertions of crossings.rs, crossings/sweep.rs, line_or_point.rs and active.rs: the pieces of an intersection are in order, cuts are inside the piece that is cut, keys to be dereferenced or freed are in the slab, the loop over the overlapping segments has finished when a start event returns, segments seen as overlapping by the iterator over pairs are of the same kind, and neighbours that become adjacent do not overlap.", "quantifier": "all input segments and points (duplicates, overlaps, degenerate lines), all orders of equal events", "why_tests_cant": "The assertions are about all reachable states; a test only runs them on its own inputs.", "anchors": ["src/crossings/sweep.rs: Sweep::handle_event, next_event, adjust_one_segment", "src/line_or_point.rs: intersect_line_ordered", "src/active.rs", "src/crossings.rs: Intersections::intersection, CrossingsIter::prev_active"]}
{"id": "C62", "title": "No debug assertion of boolean_op fails on operands in general position", "statement": "In a build with debug assertions, boolean_op returns the same polygons as a release build if no point is the left end of more than two edges of the result or an end of more than four, in particular on operands in general position: the windings of chains that are joined agree and their ends are free, the rings are closed, edges of the rings do not overlap, and the edges of exterior rings that close a region match the ring that opened it. Without the condition it panics on two triangles that touch in their left corners, for which the release build returns a wrong result.", "quantifier": "all closed operands, operations, orders of equal events, and sorts", "why_tests_cant": "The assertions relate the windings of chains and the rings around an edge in all reachable states of two sweeps; a test runs them on its own operands.", "anchors": ["src/bops/rings.rs: Rings::add_edge, push_link, link_chains, Rings::finish", "src/bops/laminar.rs: assemble", "src/bops/op.rs: Op::sweep"]}
{"id": "C63", "title": "What a debug build of boolean_op returns is right", "statement": "When boolean_op returns in a build with debug assertions, a release build returns the same polygons, and a point is inside their rings (by the even-odd rule) iff the truth table of the operation holds for its membership in the two operands. If moreover at most four edges of the result meet at each point, it is enough that the sweep of boolean_op returns: the assembly then does not panic, and a point is in one of the polygons and not in its holes iff the truth table holds.", "quantifier": "all closed operands (any number of edges at a point, overlaps, degenerate rings), operations, orders of equal events, and sorts", "why_tests_cant": "It says that no operands pass all assertions and give a wrong result; a test can only try some.", "anchors": ["src/bops/rings.rs: Rings::add_edge, push_link, link_chains", "src/bops/laminar.rs: assemble", "src/bops/op.rs: Op::sweep, boolean_op"]}
{"id": "C64", "title": "The debug assertions of the monotone sweep and of the scanner hold", "statement": "In every state of the monotone sweep over any polygon, the events that find_intersection_type takes are at the point it was called for and belong to segments that end there on the side the event says. On every MonoPoly that new accepts, into_polygon and Scanner::new do not fail, advance_next does not fail in any reachable state for any limit ahead, and if the top chain is nowhere below the bottom chain no trapezoid has a negative area.", "quantifier": "all polygons and orders of equal events; all chains that MonoPoly::new accepts; all sequences of limits", "why_tests_cant": "The assertions are about every intermediate state; a test passes through the few of its own polygons.", "anchors": ["src/monotone/sweep.rs: find_intersection_type", "src/monotone/segment.rs: Segment", "src/monotone/mono_poly.rs: into_polygon, Scanner", "src/monotone.rs: Trapz::area"]}
{"id": "C65", "title": "Rasterising a decomposed polygon conserves its area", "statement": "For a valid polygon in a box, cut into n columns and n rows for any n > 0: decomposing it with monotone_chains, scanning every piece column by column with cross_area, and adding up all cells gives exactly the area of the polygon, and nothing panics.", "quantifier": "all valid polygons with holes, all boxes that contain them, all numbers of columns, orders of equal events, debug and release build", "why_tests_cant": "verify_scanner_area checks four polygons with one box and n = 16, up to rounding.", "anchors": ["src/monotone.rs: verify_scanner_area", "src/monotone/rasterize.rs: cross_area", "src/monotone/chains.rs: monotone_chains"]}
{"id": "C66", "title": "The bounds of cross_bounds enclose the area", "statement": "For a valid polygon in a box, and every piece of it: the sum over the columns of the swept width times the height between highest bottom and lowest top is at most the area of the piece, which is at most the area of all cells in the reported ranges of rows; in each column the lower bound is at most the upper bound; and so for the whole polygon. Nothing panics.", "quantifier": "all valid polygons with holes, all boxes that contain them, all numbers of columns, orders of equal events, debug and release build", "why_tests_cant": "verify_scanner_bounds checks four polygons, in random boxes, for four numbers of columns.", "anchors": ["src/monotone.rs: verify_scanner_bounds", "src/monotone/rasterize.rs: cross_bounds"]}
{"id": "C67", "title": "Every raster cell gets the exact area of the polygon in it", "statement": "Decompose a valid polygon, put a scanner on every piece with scan_lines(a), and call cross_area up to b >= a with rows between any two heights and an array of zeros: no call panics, the sum over the pieces of entry j is the Lebesgue measure of the part of the polygon with a <= x < b in row j, and the scanners are ready for a next column starting at b, for which the same holds.", "quantifier": "all valid polygons with holes over the reals, all columns and bands (also ones that only partly meet the polygon), all numbers of rows", "why_tests_cant": "The tests compare only the total over all cells with the area of the polygon; a single cell of a polygon with holes is not checked at all.", "anchors": ["src/monotone/rasterize.rs: cross_area", "src/monotone/mono_poly.rs: scan_lines, advance_to", "src/monotone/chains.rs: monotone_chains"]}
{"id": "C68", "title": "For operands in general position, unions, intersections and differences can be decomposed", "statement": "If no three edges of the two operands have a point in common and no two edges of one operand cross each other, then for union, intersection and difference at most two edges of the result meet at each point; the polygons that boolean_op returns are valid input for monotone_chains, which returns pieces of positive area such that a point is in exactly one of them iff the truth table of the operation holds for its membership in the operands.", "quantifier": "all pairs of multipolygons with closed rings in general position, all three operations, every order of equal events and every stable sort of the crossings", "why_tests_cant": "That no further edges meet where an edge of one operand crosses an edge of the other is a fact about all four quadrants of the truth table at every crossing; the tests compare areas of a few dozen WKT operands.", "anchors": ["src/bops/op.rs: sweep, Region::is_ty", "src/bops.rs: boolean_op", "src/monotone/chains.rs: monotone_chains"]}
{"id": "C69", "title": "The raster of a union, intersection or difference is exact in every cell", "statement": "For two multipolygons in general position (as in C68), the whole chain boolean_op, monotone_chains, scan_lines, cross_area returns, and entry j, summed over all pieces, is the Lebesgue measure of the set of points in the column and in row j for which the truth table of the operation holds.", "quantifier": "all pairs of multipolygons over the reals in general position, union, intersection and difference, all columns, bands and numbers of rows", "why_tests_cant": "No test combines the three modules; a single cell of the result is never compared with anything.", "anchors": ["src/bops.rs: boolean_op", "src/monotone/chains.rs: monotone_chains", "src/monotone/mono_poly.rs: scan_lines", "src/monotone/rasterize.rs: cross_area"]}
{"id": "C70", "title": "boolean_op maps valid operands to valid results", "statement": "If the rings of each operand neither touch nor cross themselves or each other, and no vertex of one operand lies on an edge of the other, then for union, intersection and difference boolean_op returns a valid multipolygon: rings that neither touch nor cross, holes inside their exteriors and outside each other, no point inside two polygons; its even-odd interior is given by the truth table. The result can be used as an operand again.", "quantifier": "all pairs of multipolygons with plain rings and no vertex of one on an edge of the other, three operations, every order of equal events, every sort of the crossings", "why_tests_cant": "The tests apply one operation to given operands and compare coordinates or areas; validity of the output for all inputs is never examined.", "anchors": ["src/bops.rs: boolean_op", "src/bops/op.rs: sweep", "src/bops/laminar.rs: assemble"]}
{"id": "C71", "title": "The area formula is the Lebesgue measure of the interior", "statement": "For every valid multipolygon the set of points inside it by the even-odd rule has Lebesgue measure equal to the sum over its polygons of the shoelace area of the exterior less those of the holes.", "quantifier": "all valid multipolygons over the reals", "why_tests_cant": "The tests use the area formula as the reference; they cannot check the reference itself.", "anchors": ["src/monotone.rs: verify_scanner_area", "src/monotone/chains.rs: monotone_chains"]}
{"id": "C72", "title": "The areas of union, intersection and difference add up", "statement": "For valid multipolygons A, B, no vertex of one on an edge of the other, the polygons returned by boolean_op satisfy area(A or B) + area(A and B) = area(A) + area(B) and area(A minus B) + area(A and B) = area(A), exactly.", "quantifier": "all such pairs over the reals, every order of equal events, every sort of the crossings", "why_tests_cant": "It relates three runs of the sweep on arbitrary input; the tests look at one result at a time, with rounding.", "anchors": ["src/bops.rs: boolean_op", "src/bops/op.rs: sweep"]}
{"id": "C73", "title": "The unstable sort of the crossings matters for overlapping edges only", "statement": "If no two edges of the operands have more than one point in common, Op::sweep returns the same rings for every correct sort of the crossings of a batch, stable or not, and they are right by the even-odd rule; boolean_op does not depend on that sort either.", "quantifier": "all pairs of multipolygons with closed rings without overlapping edges, all four operations, all correct sorts, every order of equal events", "why_tests_cant": "sort_unstable_by is stable for the short batches of the tests; other sorts are never exercised.", "anchors": ["src/bops/op.rs: sweep (sort_unstable_by)", "src/bops/op.rs: compare_crossings"]}
{"id": "C74", "title": "The comparisons of a history of splay tree calls", "statement": "Any history of m calls on a new SplayTree in which n entries are inserted (an extend counts once per entry) calls the comparator at most m * (14 * log2(n + 2) + 1) times, plus n times for each call of next or prev. The extra term is needed: next and prev walk down without splaying, and no multiple of m * log2(n + 2) bounds the calls of all histories.", "quantifier": "all comparators, lawful or not, and all histories of API calls of any length", "why_tests_cant": "An amortised bound is a statement on all histories of every length; the benchmarks time a few random ones.", "anchors": ["src/splay/tree.rs: splay", "src/splay/tree.rs: get, get_mut, find_key, contains, insert, remove, extend", "src/splay/tree.rs: next, prev"]}
{"id": "C75", "title": "intersect_line_ordered in rounded arithmetic", "statement": "Whatever representable point inside both bounding boxes is computed for a proper crossing, intersect_line_ordered finds an intersection exactly if there is one, overlaps and touching points are exact, and a returned point is representable, in the abscissas of both operands and not before the start of self; if self does not start before other, it is not before the start of other either, no debug assertion fails, and the pieces that the segments are split into are well-formed. The source comment that the point is forced to be greater than both left end points is false for other when other starts after self.", "quantifier": "all grids of representable numbers, all roundings that stay in the bounding boxes, all pairs of well-formed operands", "why_tests_cant": "Rounding errors that push a crossing before an end point need lines of one unit in the last place in width; the tests have few of them.", "anchors": ["src/line_or_point.rs: intersect_line_ordered", "src/line_or_point.rs: intersect_line", "src/crossings/sweep.rs: Segment::adjust_for_intersection"]}
{"id": "C76", "title": "The sweep has no fault in exact arithmetic, and three kinds of faults in rounded arithmetic", "statement": "In exact arithmetic the sweep never panics, never reads or writes a vacant slot of the slab through get_unchecked, never walks overlap links for ever, and handle_event calls itself at most once; debug build or not. With crossing points correctly rounded to the nearest representable point each of the first three happens: there are inputs with representable end points on which it panics, on which the callback of a left event is called for ever, and on which get_unchecked is called with the key of a vacant slot, which is undefined behaviour and contradicts the safety comment of Active::new.", "quantifier": "all inputs, all orders of equal events, any number of events (exact part); existence of inputs for every build (rounded part)", "why_tests_cant": "Undefined behaviour can go unnoticed in a test, and an input that triggers it is rare: it needs several rounded crossings that change the order of segments.", "anchors": ["src/crossings/sweep.rs: Sweep::handle_event", "src/crossings/sweep.rs: Sweep::chain_overlap", "src/active.rs: Active::new (safety comment)", "src/active.rs: impl Access for Active"]}
{"id": "C77", "title": "One check makes the sweep free of undefined behaviour in any arithmetic", "statement": "Suppose that handle_event also checks, after the intersection of the segment of a left event with a neighbour, that an overlap begins where the segment does. Then whatever the comparison of segments and the intersections are, as long as the comparison of a segment with itself is None or Equal, no sweep reads or writes a vacant slot of the slab and no walk along overlap links is endless, up to the point where handle_event calls itself twice; it can only panic. Without overlaps in left events this holds for the code as it is, and at any depth of the recursion.", "quantifier": "all arithmetics, all inputs, all orders of equal events, any number of events, debug build or not", "why_tests_cant": "It is a statement on all arithmetics, so on all roundings; a test has one.", "anchors": ["src/crossings/sweep.rs: Sweep::handle_event", "src/crossings/sweep.rs: Sweep::adjust_one_segment, create_segment, chain_overlap", "src/active.rs: impl Access for Active", "src/splay/tree.rs"]}
{"id": "C78", "title": "The crossings found do not depend on the order of equal events nor of the inputs", "statement": "Two iterations of CrossingsIter over the same inputs, given in any two orders, with any order of equal events in the heap and any next_after, yield the same points in the same order, and at each point the same crossings up to their order: the same inputs start there, the same pieces of inputs end there, and the same degenerate inputs are there. Only the line reported with a crossing that starts can differ, since how far it goes is not yet known.", "quantifier": "all inputs in exact arithmetic, all their permutations, all tie-breaking of the heap, all runs", "why_tests_cant": "There are factorially many orders of the inputs and of equal events, and a test fixes one; the heap of the standard library takes one way to break ties only.", "anchors": ["src/crossings.rs: impl Iterator for CrossingsIter", "src/crossings/sweep.rs: Sweep::new, next_event", "src/events.rs: Ord for Event"]}
{"id": "C79", "title": "The result of a boolean operation is determined by the edges of the operands", "statement": "Op::sweep hands to Rings exactly the parts of edges, between consecutive ends or crossings, that have the result on one side only, in order of their right ends, and from above to below; each comes with the winding that says on which side the result is. Hence what Op::sweep and boolean_op return depends on nothing but which edges the operands have: not on the order of polygons, rings and holes, the first vertex and the direction of a ring, the order of equal events in the heap, or the sort. Intersection, union and symmetric difference are commutative: with the operands interchanged the very same polygons come out, with the same first vertices and in the same order.", "quantifier": "all multipolygons with closed rings in exact arithmetic, all four operations, all orders of equal events; for operands without overlapping edges all sorts, otherwise all stable sorts", "why_tests_cant": "Each test fixes the order of the operands, their rings and vertices, and the standard library fixes how ties in the heap are broken.", "anchors": ["src/bops.rs: boolean_op", "src/bops/op.rs: Op::sweep, compare_crossings", "src/bops/rings.rs: Rings::add_edge", "src/bops/laminar.rs: assemble"]}
{"id": "C80", "title": "Operations of a multipolygon with itself and with nothing", "statement": "For a multipolygon a with closed rings, a ∪ a, a ∩ a, a ∪ ∅, ∅ ∪ a, a ∖ ∅, a ⊕ ∅ and ∅ ⊕ a all return the very same rings from Op::sweep and the very same polygons from boolean_op, with the same first vertices in the same order; and a ∖ a, a ⊕ a, a ∩ ∅, ∅ ∩ a and ∅ ∖ a return nothing.", "quantifier": "all multipolygons with closed rings in exact arithmetic, all orders of equal events; all stable sorts, and all sorts if no edges overlap", "why_tests_cant": "With a as both operands all edges overlap, so that every pair of edges takes the overlap path of the sweep; a test has one shape and one order of ties.", "anchors": ["src/bops.rs: boolean_op", "src/bops/op.rs: Op::sweep, compare_crossings, OpType", "src/bops/rings.rs: Rings::add_edge"]}
{"id": "C81", "title": "Results of boolean operations are in normal form", "statement": "No two edges of the rings that Op::sweep returns overlap, and the rings are in normal form: for a multipolygon that has just these rings, its union or intersection with itself, its union with the empty multipolygon and the other operations that keep its region return the very same rings, with the same first vertices, orientation and order. If boolean_op returned polygons in a build with debug assertions, these operations return the very same polygons.", "quantifier": "all operands with closed rings in exact arithmetic, all four operations, all orders of equal events in both runs; all stable sorts, and all sorts if no edges overlap", "why_tests_cant": "The second operation runs over whatever the first one made; that every result is reproduced to the vertex is a statement about all pairs of operands.", "anchors": ["src/bops.rs: boolean_op", "src/bops/op.rs: Op::sweep", "src/bops/rings.rs: Rings::add_edge, finish", "src/bops/laminar.rs: assemble"]}
{"id": "C82", "title": "Bounds on the work and the memory of the sweep", "statement": "Let n be the number of inputs and I the number of times an end of an input, or a point where two inputs meet, lies strictly within an input. After k calls of next_event at most 2n + 3I - k events wait, so after at most 2n + 3I calls no event is left; one call takes at most three events from the heap. After every call the active set holds at most n segments, and the slab at most n + I. I is at most 3n^2, so no more than 2n + 9n^2 events are ever handled.", "quantifier": "all finite inputs (overlaps, shared ends, points), all choices among equal events, all numbers of calls, exact arithmetic", "why_tests_cant": "A run shows the work for one input; that no input makes the sweep split segments again and again is a statement about all of them. The bound is attained by two crossing lines.", "anchors": ["src/crossings/sweep.rs: Sweep::new, next_event, handle_event", "src/crossings/sweep.rs: Segment::adjust_for_intersection", "src/active.rs: impl Access for Active"]}
{"id": "C83", "title": "When the result of a boolean operation is empty", "statement": "Op::sweep returns no rings exactly if no point satisfies the truth table of the operation, inside being taken by the even-odd rule: the difference is empty exactly if the first operand is within the second, the symmetric difference exactly if the operands have the same points inside, the intersection exactly if no point is inside both. boolean_op returns no polygons in these cases, and if it returns in a build with debug assertions, only in these.", "quantifier": "all multipolygons with closed rings, however the rings overlap or touch, all operations, stable sorts or no overlapping sides, all choices of the heap, exact arithmetic", "why_tests_cant": "Emptiness is a statement about all points of the plane: a sample cannot show that slivers and rings without area are never returned.", "anchors": ["src/bops/op.rs: Op::sweep", "src/bops/rings.rs: Rings::add_edge, finish", "src/bops.rs: boolean_op"]}
{"id": "C84", "title": "Results have the same boundary exactly if they have the same points inside", "statement": "Let two calls of Op::sweep, on any operands and for any operations, return rings. Every point is inside both results or neither, exactly if every point is on a side of both results or of neither. So the points on the boundary are determined by the region, whatever the operands; only the vertices on straight parts and the way sides are joined to rings may differ.", "quantifier": "all pairs of multipolygons with closed rings, all operations, stable sorts or no overlapping sides, all choices of the heap, exact arithmetic", "why_tests_cant": "It compares the results of any two runs on all points of the plane; a test compares two outputs on a few.", "anchors": ["src/bops/op.rs: Op::sweep", "src/bops/rings.rs: Rings::add_edge, finish"]}
{"id": "C85", "title": "Nested boolean operations", "statement": "Let the results of operations be operands of further operations, to any depth. No call panics in the sweep, a point is inside the final result exactly if the expression is true of its membership in the operands, the result is empty exactly if the expression is true nowhere, and two expressions with the same value at all points, such as the two sides of the associative, distributive and De Morgan laws, have results with the same points on their boundaries.", "quantifier": "all expressions, all multipolygons with closed rings as operands, all runs of each call (heap choices, sorts), exact arithmetic", "why_tests_cant": "A law with three operands quantifies over three multipolygons and all points, and each side is evaluated by different sweeps; tests compare areas of a few.", "anchors": ["src/bops.rs: BooleanOp", "src/bops/op.rs: Op::sweep", "src/bops/rings.rs: Rings::add_edge, finish"]}
{"id": "C86", "title": "The vertices and the size of a result", "statement": "Every vertex of a result of Op::sweep is a vertex of an operand or a point where sides of the operands meet. If the operands have n sides, and vertices and meeting points lie strictly within sides I times in all, the result has at most n + I sides and at most a third as many rings, and in any case at most n + 3n^2 sides.", "quantifier": "all multipolygons with closed rings, all operations, stable sorts or no overlapping sides, all heap choices, exact arithmetic", "why_tests_cant": "That no operands make the result larger, or give it a vertex that is not explained by the operands, is a statement about all of them.", "anchors": ["src/bops/op.rs: Op::sweep", "src/bops/rings.rs: Rings::add_edge, finish"]}
{"id": "C87", "title": "The monotone decomposition is determined by the sides of the polygon", "statement": "Two valid polygons with the same sides have the same decomposition by monotone_chains: the same list of monotone polygons, with the same chains. Rings may be drawn from any start and in either direction, holes listed in any order, the sort may leave equal events in any order, and the build may be a debug or a release build. For any polygon at all, where the debug build returns, the release build returns the same.", "quantifier": "all pairs of valid polygons with the same sides, all redrawings and permutations of rings, both builds, all sorts, exact arithmetic", "why_tests_cant": "The numbering of the edges and the order of the events differ between the drawings; a test compares some drawings of some polygons.", "anchors": ["src/monotone/chains.rs: monotone_chains", "src/monotone/sweep.rs: Sweep::from_polygon, process_event"]}
{"id": "C88", "title": "The size of the monotone decomposition", "statement": "If monotone_chains returns, on any polygon and in either build, it returns at most half as many monotone polygons as there are sides that are not points. On a valid polygon with N sides it returns, and the chains of the result have at most 4N - 4 coordinates in all.", "quantifier": "all polygons (count), all valid polygons (coordinates), both builds, all sorts, exact arithmetic", "why_tests_cant": "That no polygon makes the decomposition grow faster than linearly is a statement about all of them; the coordinates copied at split and merge vertices are paid for only in the sum.", "anchors": ["src/monotone/chains.rs: monotone_chains", "src/monotone/sweep.rs: Sweep::process_event"]}
{"id": "C89", "title": "The comparisons made by the sweep", "statement": "The splay tree of active segments makes at most 10 (n + 4) comparisons for each event taken from the heap, n being the number of inputs, and so at most 30 (2n + 3I)(n + 4) in all, I being the number of incidences of C82. The documented time O((n + k) log n), k being the number of intersections, is not met: for every h there are 4h pairwise disjoint segments for which the sweep makes at least 2 h^2 comparisons, whichever of several first events the heap prefers; so no constant A gives at most A n log n comparisons, even for inputs without intersections.", "quantifier": "all inputs and all prefixes of the run (upper bound), all h, all ordered fields and all choices of the heap (lower bound), exact arithmetic", "why_tests_cant": "Asymptotic statements are about all sizes; a benchmark shows times for some inputs, and the slow ones need a special order of insertions and removals.", "anchors": ["src/crossings.rs: documentation of CrossingsIter (108) and Intersections (219)", "src/crossings/sweep.rs: handle_event, lines 424-425", "src/splay/tree.rs: next, prev"]}
{"id": "C90", "title": "Equivariance under affine maps", "statement": "An invertible affine map (rotation, reflection, scaling, shear, translation, or a composition) applied to the inputs does the same to the results. The crossings are yielded at the images of the points, with the same inputs at each. For boolean operations on closed rings, a point is on a side of the rings that Op::sweep returns if and only if its image is on a side of the rings returned for the images, and the points inside correspond in the same way, whatever the direction of the sweep relative to the operands. For boolean_op this holds if no three edges meet in a point, and fails in general: for two triangles that touch in a corner the result is right or wrong depending on the direction of the sweep.", "quantifier": "all invertible affine maps, all lists of lines, all operands with closed rings, all four operations, all orders of equal events, exact arithmetic", "why_tests_cant": "A rotation changes the order of all events and of all segments in the active set; a metamorphic test samples maps and operands, and can apply only maps without rounding.", "anchors": ["src/crossings.rs: CrossingsIter", "src/bops/op.rs: Op::sweep", "src/bops.rs: boolean_op"]}
{"id": "C91", "title": "Counting intersections by the sweep and by brute force", "statement": "If any two of the lines that meet do so in a single point, which is the first end of neither, then count_bo returns, and returns the same number as count_brute, whatever the order of equal events. Without the condition the counts can differ in both directions: for two overlapping lines count_bo can be the larger, for lines with a common first end it can be the smaller.", "quantifier": "all lists of lines with the condition, all choices of the heap, exact arithmetic", "why_tests_cant": "The benchmark compares the two on random inputs, for which degenerate cases have probability nearly zero; the equality for all other inputs and the exact condition for it need a proof.", "anchors": ["benches/utils/crossings.rs: count_bo, count_brute", "src/crossings.rs: Intersections"]}
{"id": "C92", "title": "The areas that our_area computes", "statement": "On a valid polygon our_area returns an array of height rows of width entries. Its entry (i + 1, j) is the Lebesgue measure of the part of the polygon in the cell of row i and column j of the raster of the bounding rectangle; the entries of row 0 are zero. So every area is one row too far, and the last row of the raster is lost: the entries add up to the area of the polygon less that of its part in the last row.", "quantifier": "all valid polygons with holes, all sizes of the raster, all sorts, both builds, real coordinates", "why_tests_cant": "The benchmark only runs the function; a shift by one row shows only if single cells are compared with an independent measure.", "anchors": ["benches/utils/rasterize.rs: our_area", "src/monotone/rasterize.rs: cross_area"]}
{"id": "C93", "title": "The cells that our_rasterize marks", "statement": "On a valid polygon our_rasterize returns an array of height rows of width entries. An entry (r, j) is marked only if a monotone piece has, in some row c >= r of the raster other than the last, points of its two chains that enclose part of column j; so the last row is never marked. A piece that begins at or after row line k and is present in all rows from k to c is drawn with its cells of row c in row c - k, that is k rows away from their place. On a valid polygon a cell that no point of the polygon is in can be marked, and a cell all of whose points are inside can be left unmarked.", "quantifier": "all valid polygons with holes, all sizes of the raster, all sorts, both builds, exact arithmetic", "why_tests_cant": "For convex polygons, and others with one piece from the first row on, the displacement is nil; which cells are wrong depends on how the polygon is decomposed.", "anchors": ["benches/utils/rasterize.rs: our_rasterize (continue in line 34 skips arr_start += height in line 40)", "src/monotone/rasterize.rs: cross_ubounds"]}
{"id": "C94", "title": "The random polygons of the benchmarks are valid", "statement": "Whatever the random generator draws, steppy_polygon with at least one step and circular_polygon with at least three make valid polygons: closed rings with different vertices, whose sides have at most vertices in common. So are their images under rotations and other invertible affine maps. They meet the precondition of monotone_chains, our_area and our_rasterize.", "quantifier": "all sequences of samples (from the unit interval for steppy_polygon, real for circular_polygon), all numbers of steps, all invertible affine maps, exact arithmetic with real sine and cosine", "why_tests_cant": "A generator is run for a few seeds; that none of the infinitely many sequences gives a ring that crosses itself is a statement about all of them.", "anchors": ["benches/utils/random.rs: steppy_polygon, circular_polygon", "src/monotone/chains.rs: documentation of monotone_chains"]}
{"id": "C95", "title": "How many pieces monotone_chains makes", "statement": "On a valid polygon monotone_chains returns at least one piece; at most as many as there are vertices with both sides to the right; and at least as many as there are such vertices with the interior between the sides. So a polygon that turns around from left to right only once, in particular a convex one, is returned as a single piece, with the same interior.", "quantifier": "all valid polygons with holes, all sorts, both builds, exact arithmetic", "why_tests_cant": "The number of pieces is bounded by a count over all vertices; tests compare it for a few polygons only.", "anchors": ["src/monotone/chains.rs: monotone_chains, Link::Start, Link::Split", "src/monotone/sweep.rs: process_event"]}
{"id": "C96", "title": "The sides of the monotone pieces", "statement": "On a valid polygon every side of the polygon occurs as a whole in the chains that monotone_chains returns: once more in upper chains than in lower ones if the interior is below it, and once more in lower chains than in upper ones if the interior is above it. A segment that is not a side occurs as often in upper chains as in lower ones.", "quantifier": "all valid polygons with holes, all segments, all sorts, both builds, exact arithmetic", "why_tests_cant": "The tests compare areas; two pieces with different segments along a common border can have the right areas.", "anchors": ["src/monotone/chains.rs: monotone_chains"]}
{"id": "C97", "title": "The monotone pieces are simple and fit together edge to edge", "statement": "On a valid polygon the two chains of every piece that monotone_chains returns meet only in their common ends, and the upper one is strictly above the lower one otherwise. So into_polygon of every piece is itself a valid polygon. Every side of the polygon with the interior below it is a segment of exactly one upper chain and of no lower chain, and every side with the interior above it of exactly one lower chain and of no upper chain. Every other segment of a chain is in exactly one upper and exactly one lower chain, and lies inside the polygon but for its ends.", "quantifier": "all valid polygons with holes, all points of the chains, all segments, all sorts, both builds, exact arithmetic", "why_tests_cant": "The tests compare areas. Pieces that touch themselves along a vertex or a segment, or a diagonal that passes through a vertex, do not change any area.", "anchors": ["src/monotone/chains.rs: monotone_chains", "src/monotone/mono_poly.rs: MonoPoly::new, into_polygon"]}
{"id": "C98", "title": "Monotone polygons are not cut again", "statement": "A polygon that consists of two increasing chains with common ends, the one strictly above the other, is returned by monotone_chains as one piece with exactly these chains. In particular the decomposition of any piece of a decomposition is that piece.", "quantifier": "all pairs of increasing chains, all valid polygons with holes, all sorts, both builds, exact arithmetic", "why_tests_cant": "A fixed point statement about all results of the function; a test applies it to the pieces of a few polygons.", "anchors": ["src/monotone/chains.rs: monotone_chains", "src/monotone/mono_poly.rs: into_polygon"]}
{"id": "C99", "title": "The monotone pieces form a plane graph on the vertices of the polygon", "statement": "On a valid polygon no vertex of the polygon lies inside a segment of a chain that monotone_chains returns, so a vertex that lies on a chain is a vertex of this chain. Two different segments of chains, of one piece or of two pieces, have at most ends in common.", "quantifier": "all valid polygons with holes, all pairs of pieces, all pairs of segments, all sorts, both builds, exact arithmetic", "why_tests_cant": "A diagonal that passes through a vertex, or along which two pieces have different vertices, changes neither the areas nor the regions that a test can compare.", "anchors": ["src/monotone/chains.rs: monotone_chains", "src/monotone/sweep.rs: process_event"]}
{"id": "C100", "title": "monotone_chains depends only on comparisons and turns of the vertices", "statement": "If the points of a polygon are moved, possibly into another number system, so that no comparison of two of its points and no turn at three of them changes, then monotone_chains does the same for the moved polygon: it panics if it did for the polygon, and otherwise returns the same pieces with their points moved. For a valid polygon this holds for all sorts and both builds. Translations, positive scalings, vertical shears and order-preserving embeddings of number systems are such moves. So monotone_chains is exact whenever comparisons and orient2d are.", "quantifier": "all polygons, valid or not, all maps of the points that keep the tests, all ordered fields, all sorts, both builds", "why_tests_cant": "That no coordinate is used in any other way, on any path, is a statement about all pairs of executions; tests with floats compare single results and cannot tell exactness from luck.", "anchors": ["src/monotone/chains.rs: monotone_chains", "src/monotone/sweep.rs: Sweep", "src/monotone/segment.rs: Segment", "src/line_or_point.rs: PartialOrd"]}
{"id": "C101", "title": "Whether a polygon is valid depends only on comparisons and turns of the vertices", "statement": "If the points of a polygon are moved, possibly into another number system, so that no comparison of two of its points and no turn at three of them changes, then the moved polygon is valid, with rings that neither touch nor cross, holes inside the exterior and holes outside each other, if and only if the polygon was valid. Together with C100, everything proved of the pieces of a valid polygon holds after such a move too. The turns are needed: comparisons alone do not keep a polygon valid.", "quantifier": "all polygons, all maps of the points that keep the tests, all ordered fields", "why_tests_cant": "Validity speaks of all points of all sides; that finitely many tests on the vertices settle it, for every polygon and every move, is a statement of geometry and not of samples.", "anchors": ["src/monotone/chains.rs: monotone_chains", "src/line_or_point.rs: PartialOrd", "src/monotone/segment.rs: Segment"]}
{"id": "C102", "title": "Small errors in the coordinates do not change the decomposition of a polygon in general position", "statement": "If no two vertices of a polygon have the same x and no three are on a line, there is a positive amount such that changing every coordinate by at most that, each by itself, changes no comparison and no turn; conversely there is no such amount if two vertices share x or three are on a line. The amount can be read off the extent of the polygon, the least difference of two x and the least area of a triangle of vertices. For a valid polygon in general position the changed polygon is valid, and monotone_chains returns the same pieces with the changed coordinates, for all sorts and both builds.", "quantifier": "all polygons, all changes of the coordinates up to the bound, all ordered fields, all sorts, both builds", "why_tests_cant": "There are infinitely many changes of the coordinates; a test tries a few.", "anchors": ["src/monotone/chains.rs: monotone_chains", "src/line_or_point.rs: PartialOrd", "src/monotone/segment.rs: Segment"]}
{"id": "C103", "title": "Dropping a splay tree, and the work of its owned iterator", "statement": "After any history, clear and drop release every stored entry exactly once. The calls of the drop are nested at most as deep as the tree has entries, and after n inserts in increasing order exactly n deep, from the last entry to the first, so no fixed stack is enough for all trees. Taking entries from one end of into_iter takes at most two rounds of its loop for each stored entry, however many calls are made; taking them from both ends in turns takes n (n + 1) / 2 rounds after n inserts in increasing order.", "quantifier": "all histories with a lawful comparator, all numbers of calls, all sorted sequences of entries", "why_tests_cant": "A test overflows the stack, or is slow, for one size on one machine; the bound on the depth and on the rounds is for all histories.", "anchors": ["src/splay/tree.rs: clear", "src/splay/tree.rs: Drop for SplayTree", "src/splay/node.rs: Node", "src/splay/tree.rs: IntoIter::next", "src/splay/tree.rs: IntoIter::next_back"]}
{"id": "C104", "title": "What the fixture tests of the boolean operations check", "statement": "The fixture test computes the operation that the fixture names. If it reports a result as identical, every point inside the expected result is inside the operation of the two operands, and if it reports an error, some point is missing; it never notices points that are too many, and there are operands and a wrong expected result that it calls identical. With the symmetric difference in place of the difference it would report identical exactly if the same points are inside. The polygons that the test gives to the other library, and those it reports of it, have lost their holes: converting there and back keeps the exterior only, and a valid polygon with holes gets a larger area.", "quantifier": "all operands and expected results with closed rings, all operations, all tie policies of the heap, all stable sorts, exact arithmetic", "why_tests_cant": "This is about what a test tells: no run of it shows what it would accept.", "anchors": ["src/bops.rs: tests::try_run_fixture", "benches/utils/bops.rs: convert_poly", "benches/utils/bops.rs: convert_back_poly"]}
{"id": "C105", "title": "Counting intersections with the tree", "statement": "Whatever order the R-tree reports its candidate pairs in, count_rtree returns the same number as count_brute, for all lines: lines that intersect have bounding boxes that do, and each unordered pair is counted once although the tree is searched for pairs with itself. So the assertion of the benchmark for it never fails, and where C91 applies all three counts agree.", "quantifier": "all lists of lines, degenerate and overlapping ones included, all orders of the candidates, exact arithmetic", "why_tests_cant": "The benchmark compares the counts on random lines only, for which lines that touch or overlap hardly occur.", "anchors": ["benches/utils/crossings.rs: count_rtree", "benches/utils/crossings.rs: count_brute", "benches/rand-line-crossings.rs: bench_algos"]}
{"id": "C106", "title": "The random lines of the benchmarks", "statement": "uniform_line makes lines with both ends in the given rectangle; the lines of scaled_generator stay in the rectangle of the given dimensions and extend over at most the 2^scale-th part of it in each direction. The lines of uniform_line_with_length start in the rectangle and have the given length, but are all close to horizontal: the angle is drawn from 0 to 2 pi and used as degrees, so they rise by at most a ninth of what they go to the right. A sampler returns the samples in order and starts again after the last one; for no samples it panics.", "quantifier": "all samples from the half-open unit interval, all rectangles, lengths and scales up to 30, all lists of samples and numbers of calls, exact arithmetic with real sine and cosine", "why_tests_cant": "What a generator never returns can not be seen by drawing from it.", "anchors": ["benches/utils/random.rs: uniform_line", "benches/utils/random.rs: scaled_generator", "benches/utils/random.rs: uniform_line_with_length", "benches/utils/random.rs: Samples"]}
{"id": "C107", "title": "The steps of min and max of a splay tree", "statement": "After any history a call of min or max visits at most as many nodes as there are entries. They are not amortised: after n entries have been inserted in increasing order every call of min visits all n nodes, however often it is called, as it does not splay, and every call of max visits one; for every c there are histories whose calls take more than c steps on average.", "quantifier": "all lawful comparators, all histories, all numbers of calls", "why_tests_cant": "Both return the right key; the number of steps, and that it does not go down with repeated calls, is not visible in results, and the tests have a few entries.", "anchors": ["src/splay/tree.rs: SplayTree::min_node", "src/splay/tree.rs: SplayTree::max_node", "src/splay/set.rs: SplaySet::min"]}
{"id": "C108", "title": "The rotated polygons of the benchmarks", "statement": "The area of the image of a polygon under an affine map is its area times the determinant; a polygon rotated by rotate_around_point is valid if it was, and has the same area. So the inputs of the rasterization benchmarks are valid polygons with positive area, whatever is drawn. But the rotation by an angle drawn from 0 to 2 pi, which is taken as degrees, hardly turns them: the vector between any two points keeps at least 99/100 of its length in its old direction, so the worst case of 90 degrees, which a comment in the benchmarks mentions, is not among them.", "quantifier": "all polygons with closed rings and affine maps over an ordered field; all samples from the unit interval, all numbers of steps, real sine and cosine", "why_tests_cant": "Inputs that a generator never makes can not be noticed in a run, and no benchmark checks the angle.", "anchors": ["benches/mono-raster.rs: run_complex", "benches/prof-rasterize.rs: run_complex", "benches/utils/random.rs: steppy_polygon"]}
