{"id": "C01", "title": "Segment iteration enumerates exactly the segments", "statement": "For every polyline with n vertices, iter_segments() yields exactly segment_count() items; the i-th item is (at(i), at((i+1) mod n)); an open polyline has n-1 of them, a closed one n, and anything with fewer than 2 vertices none. iter_segment_indexes() yields the matching index pairs, in the same order, all in range. Neither iterator panics.", "quantifier": "all polylines (any length, open or closed, any vertex data including NaN)", "why_tests_cant": "vertex counts are unbounded and the wrap-around/last-segment case differs between open and closed; tests sample a few lengths", "anchors": ["cavalier_contours/src/polyline/traits.rs: PlineSource::iter_segments, segment_count, iter_segment_indexes, SegmentIter, PlineSegIndexIterator"]}
{"id": "C02", "title": "Wrapping index arithmetic is cyclic arithmetic", "statement": "For a polyline with n >= 1 vertices and in-range indexes: next_wrapping_index and prev_wrapping_index are mutually inverse and stay in range; fwd_wrapping_index(i,k) = (i+k) mod n for every k <= n; fwd_wrapping_dist(i,j) is the unique d < n with fwd_wrapping_index(i,d) = j.", "quantifier": "all vertex counts n >= 1, all in-range indexes, all offsets <= n", "why_tests_cant": "index arithmetic at the wrap boundary must hold for all n", "anchors": ["cavalier_contours/src/polyline/traits.rs: next_wrapping_index, prev_wrapping_index, fwd_wrapping_dist, fwd_wrapping_index"]}
{"id": "C03", "title": "invert_direction_mut reverses the path", "statement": "After invert_direction_mut the list of segments is the reversed list of the old segments, each with its end points swapped and its bulge negated (for a closed polyline up to the segment the list starts with: the loop is the same, run backwards); the vertex count and closed flag are unchanged; inverting twice restores every vertex of a closed polyline and every segment of an open one. It never panics.", "quantifier": "all polylines, open and closed, of any length", "why_tests_cant": "in-place two-pointer swap plus a bulge shifting pass; correctness depends on parity and on the closing segment for every length", "anchors": ["cavalier_contours/src/polyline/traits.rs: PlineSourceMut::invert_direction_mut"]}
{"id": "C04", "title": "Direction inversion negates area and keeps length and extents", "statement": "For every polyline (real-number semantics): area after invert_direction_mut is the negated area, orientation flips when the area is non-zero, and path_length is unchanged when no segment is so short that the code treats it as a point.", "quantifier": "all closed/open polylines with real coordinates and bulges", "why_tests_cant": "sum over unboundedly many segments, including arcs of either sign", "anchors": ["cavalier_contours/src/polyline/traits.rs: area, orientation, path_length, invert_direction_mut", "cavalier_contours/src/polyline/pline_seg.rs: seg_length"]}
{"id": "C05", "title": "area is the signed area enclosed by the curve", "statement": "For a closed polyline, area() equals the line integral 1/2 * (x dy - y dx) along the actual curve of lines and circular arcs (Green's theorem); for an open polyline it is 0.", "quantifier": "all closed polylines with real coordinates, any mixture of line segments and arcs, including self intersecting ones", "why_tests_cant": "needs an identity between a closed form with tan/atan and an integral, for all real parameters", "anchors": ["cavalier_contours/src/polyline/traits.rs: PlineSource::area"]}
{"id": "C06", "title": "Translation and uniform scaling act as expected", "statement": "translate_mut(x,y) moves every vertex by (x,y), keeps bulges, closed flag and count, keeps area (closed) and path_length, and moves extents/closest points accordingly; scale_mut(s) multiplies positions by s, keeps bulges, multiplies area by s^2 and path_length by |s| (s away from the fuzzy-equality threshold).", "quantifier": "all polylines and all real offsets / factors", "why_tests_cant": "continuous parameter space", "anchors": ["cavalier_contours/src/polyline/traits.rs: scale_mut, translate_mut, area, path_length"]}
{"id": "C07", "title": "orientation reports the sign of the area", "statement": "orientation() is Open exactly for open polylines, Clockwise exactly when the polyline is closed and its enclosed signed area is negative, CounterClockwise otherwise.", "quantifier": "all polylines", "why_tests_cant": "classification over a continuous domain", "anchors": ["cavalier_contours/src/polyline/traits.rs: orientation"]}
{"id": "C08", "title": "path_length is the arc length of the curve", "statement": "path_length() is the sum over segments of the true length: Euclidean distance for lines and radius times sweep angle for arcs; it is non-negative and additive over concatenation.", "quantifier": "all polylines with arcs of at most half a circle and no segment so short that the code treats it as a point", "why_tests_cant": "trigonometric identity for all bulges", "anchors": ["cavalier_contours/src/polyline/traits.rs: path_length", "cavalier_contours/src/polyline/pline_seg.rs: seg_length"]}
{"id": "C09", "title": "remove_repeat_pos removes exactly the repeated positions", "statement": "remove_repeat_pos(eps) returns None only when no two consecutive vertices (cyclically when closed) are within eps; when it returns Some, the result keeps the first position of each run with the bulge of the last of the run, and has no two consecutive vertices within eps.", "quantifier": "all polylines, all eps", "why_tests_cant": "runs may have any length and cross the closing edge", "anchors": ["cavalier_contours/src/polyline/traits.rs: remove_repeat_pos"]}
{"id": "C10", "title": "Incremental building without repeats", "statement": "A polyline built by add_or_replace_vertex, extend_remove_repeat or create_from_remove_repeat never has two consecutive vertices within the epsilon (nor last/first for create_from_remove_repeat of a closed polyline, up to one removal), first vertex position is preserved, and the operation never panics.", "quantifier": "all vertex sequences and eps", "why_tests_cant": "history of appends is unbounded", "anchors": ["cavalier_contours/src/polyline/traits.rs: add_or_replace_vertex, extend_remove_repeat, create_from_remove_repeat"]}
{"id": "C11", "title": "remove_redundant preserves the path", "statement": "remove_redundant(eps) never panics and returns a polyline tracing the same path with no more vertices, and no vertex is left that lies on the straight segment between its neighbours or joins two arcs of one circle that could be one arc.", "quantifier": "all polylines, all eps", "why_tests_cant": "unbounded runs of repeated/collinear vertices, wrap-around handling", "anchors": ["cavalier_contours/src/polyline/traits.rs: remove_redundant"]}
{"id": "C12", "title": "rotate_start keeps the closed path and moves its start", "statement": "For a closed polyline and an in-range start index with the point on that segment, rotate_start returns a closed polyline whose first vertex is at the point and whose cyclic segment sequence is the source's, with at most the one segment containing the point split in two; it returns None exactly for open polylines, fewer than 2 vertices or an out of range index.", "quantifier": "all closed polylines, all start indexes, all points", "why_tests_cant": "index wrap and split interact for every length and index", "anchors": ["cavalier_contours/src/polyline/traits.rs: rotate_start", "cavalier_contours/src/polyline/pline_seg.rs: seg_split_at_point"]}
{"id": "C13", "title": "closest_point returns a nearest point", "statement": "closest_point(p) is None exactly for an empty polyline; otherwise the returned index is a valid segment start, the returned point lies on that segment, the distance is the distance from p to the returned point, and no per-segment closest point of the polyline is closer.", "quantifier": "all non-empty polylines, all points", "why_tests_cant": "minimum over unboundedly many segments", "anchors": ["cavalier_contours/src/polyline/traits.rs: closest_point", "cavalier_contours/src/polyline/pline_seg.rs: seg_closest_point"]}
{"id": "C14", "title": "winding_number is the topological winding number", "statement": "For a closed polyline and a point not on the curve, winding_number(p) is the number of counter clockwise turns of the curve about p (total change of the argument divided by 2 pi); for open polylines it is 0.", "quantifier": "all closed polylines, including self intersecting, all points off the curve", "why_tests_cant": "equality with a topological invariant over a continuous domain", "anchors": ["cavalier_contours/src/polyline/traits.rs: winding_number"]}
{"id": "C15", "title": "arcs_to_approx_lines removes all arcs", "statement": "When arcs_to_approx_lines returns Some, every segment of the result is a line segment, the result has the same closed flag, contains all source vertex positions in order, and every inserted vertex lies on the source arc.", "quantifier": "all polylines and error distances", "why_tests_cant": "number of inserted vertices is unbounded", "anchors": ["cavalier_contours/src/polyline/traits.rs: arcs_to_approx_lines"]}
{"id": "C16", "title": "find_point_at_path_length inverts path length", "statement": "For a polyline with at least one vertex: target <= 0 gives the first vertex; a target in (0, path_length] gives a segment index and a point on that segment such that the length of the path before the segment plus the length along the segment up to the point equals target; a greater target gives Err(path_length).", "quantifier": "all polylines with >= 1 vertex, all targets", "why_tests_cant": "accumulation over unboundedly many segments", "anchors": ["cavalier_contours/src/polyline/traits.rs: find_point_at_path_length"]}
{"id": "C17", "title": "extents is the tight bounding box", "statement": "extents() is None exactly when there are no segments; otherwise the box contains every point of every segment (lines and arcs) and each of its four sides is touched.", "quantifier": "all polylines, all points of the curve", "why_tests_cant": "continuum of points per segment", "anchors": ["cavalier_contours/src/polyline/traits.rs: extents", "cavalier_contours/src/polyline/pline_seg.rs: arc_seg_bounding_box"]}
{"id": "C18", "title": "Spatial index boxes cover the curve", "statement": "create_approx_aabb_index and create_aabb_index put exactly segment_count() boxes into the index, box i containing every point of segment i, so no segment can be missed by a box query; building never hits the item count error.", "quantifier": "all polylines, all points of the curve", "why_tests_cant": "continuum of points per segment and any number of segments", "anchors": ["cavalier_contours/src/polyline/traits.rs: create_approx_aabb_index, create_aabb_index", "cavalier_contours/src/polyline/pline_seg.rs: seg_fast_approx_bounding_box, seg_bounding_box"]}
{"id": "C19", "title": "A view's get/at/vertex_count are consistent", "statement": "For any view data whose start index and offset are in range for the source, get(i) is Some exactly for i < vertex_count, at never panics for those i, and a view is always open with at least 2 vertices.", "quantifier": "all sources, all in-range view data, all indexes, both directions", "why_tests_cant": "index wrap for all source sizes", "anchors": ["cavalier_contours/src/polyline/pline_view.rs: PlineView, PlineViewData::get_vertex, vertex_count"]}
{"id": "C20", "title": "Whole-polyline view follows the same path", "statement": "from_entire_pline gives a view whose segment list equals the source's segment list (start, end, bulge), for open and closed sources with >= 2 vertices, and panics otherwise.", "quantifier": "all sources", "why_tests_cant": "unbounded length, closing segment", "anchors": ["cavalier_contours/src/polyline/pline_view.rs: from_entire_pline"]}
{"id": "C21", "title": "Slice views are contiguous sub-paths", "statement": "from_slice_points never panics for in-range indexes on a source with >= 2 vertices; the resulting view starts at the start point, ends at the end point, its interior vertices are exactly the consecutive source vertices between the two segments, with their source bulges, and the view traces exactly the part of the source between the two points.", "quantifier": "all sources, all index pairs, all points", "why_tests_cant": "wrap-around and coincidence cases combine", "anchors": ["cavalier_contours/src/polyline/pline_view.rs: from_slice_points, create, create_on_single_segment"]}
{"id": "C22", "title": "from_new_start rotates a closed source", "statement": "from_new_start on a closed source gives a view that starts and ends at the given point and visits every source vertex exactly once in cyclic order.", "quantifier": "all closed sources with >= 2 vertices, all indexes, all points", "why_tests_cant": "wrap-around", "anchors": ["cavalier_contours/src/polyline/pline_view.rs: from_new_start"]}
{"id": "C23", "title": "An inverted view is the reversal of the view", "statement": "Setting inverted_direction on view data yields a view whose segments are the reversed segments of the non inverted view with swapped end points and negated bulges.", "quantifier": "all sources, all in-range view data", "why_tests_cant": "index arithmetic for all sizes and offsets", "anchors": ["cavalier_contours/src/polyline/pline_view.rs: get_vertex"]}
{"id": "C24", "title": "Line segment intersection is sound and complete", "statement": "line_line_intr: when it reports a true or false intersect, the reported parameters give the same point on both lines; true intersect means both parameters are within [0,1] up to the tolerance; for segments that properly cross it never reports no intersect; overlapping parameters name the ends of the shared piece.", "quantifier": "all pairs of segments with real coordinates, all tolerances > 0", "why_tests_cant": "continuous domain with many degenerate cases", "anchors": ["cavalier_contours/src/core/math/line_line_intersect.rs: line_line_intr"]}
{"id": "C25", "title": "Line circle intersection is sound and complete", "statement": "line_circle_intr: every reported parameter gives a point on the circle (tangent: within tolerance), and every point of the line on the circle is reported.", "quantifier": "all lines and circles with real parameters", "why_tests_cant": "continuous domain", "anchors": ["cavalier_contours/src/core/math/line_circle_intersect.rs: line_circle_intr"]}
{"id": "C26", "title": "Circle circle intersection is sound and complete", "statement": "circle_circle_intr: both reported points lie on both circles (two-intersect case), every common point of two properly crossing circles is one of them, and no intersect means no common point.", "quantifier": "all pairs of circles with positive radii", "why_tests_cant": "continuous domain", "anchors": ["cavalier_contours/src/core/math/circle_circle_intersect.rs: circle_circle_intr"]}
{"id": "C27", "title": "Segment intersects lie on both segments", "statement": "Every point reported by pline_seg_intr lies on (or within tolerance of) both segments. For segments that cross clearly or are clear of each other no overlap is reported and the reported points are exactly the common points, each once; two points reported for a line and an arc are in the order of the second segment.", "quantifier": "all pairs of line/arc segments", "why_tests_cant": "many cases by continuous domain", "anchors": ["cavalier_contours/src/polyline/pline_seg_intersect.rs: pline_seg_intr"]}
{"id": "C28", "title": "Splitting a segment keeps its path", "statement": "seg_split_at_point at a point on the segment yields two sub segments that share the source's circle (arc) or line, meet at the point, and whose sweep angles add up to the source's.", "quantifier": "all segments (arcs at most half circle) and all points strictly inside", "why_tests_cant": "trigonometric identities for all parameters", "anchors": ["cavalier_contours/src/polyline/pline_seg.rs: seg_split_at_point"]}
{"id": "C29", "title": "Arc radius and center describe the arc", "statement": "seg_arc_radius_and_center: both end points are at distance radius from the center, the radius is positive, and rotating the start about the center by the sweep angle 4*atan(bulge) gives the end; swapping the ends and negating the bulge gives the same circle.", "quantifier": "all arcs with non zero bulge and distinct end points", "why_tests_cant": "identity over all reals", "anchors": ["cavalier_contours/src/polyline/pline_seg.rs: seg_arc_radius_and_center"]}
{"id": "C30", "title": "seg_midpoint is the middle of the segment", "statement": "seg_midpoint lies on the segment, at equal distance from both ends and at the parametric middle (for arcs: half of the sweep).", "quantifier": "all segments", "why_tests_cant": "identity over all reals", "anchors": ["cavalier_contours/src/polyline/pline_seg.rs: seg_midpoint"]}
{"id": "C31", "title": "seg_tangent_vector is tangent in travel direction", "statement": "The vector is the direction of the line, or perpendicular to the radius at the point and pointing in the travel direction (positive multiple of the derivative of the curve).", "quantifier": "all segments, all points on them", "why_tests_cant": "identity over all reals", "anchors": ["cavalier_contours/src/polyline/pline_seg.rs: seg_tangent_vector"]}
{"id": "C32", "title": "seg_closest_point is on the segment and nearest", "statement": "The returned point lies on the segment and no point of the segment is nearer (line segments: up to the degenerate length tolerance).", "quantifier": "all segments, all query points", "why_tests_cant": "optimality over a continuum", "anchors": ["cavalier_contours/src/polyline/pline_seg.rs: seg_closest_point", "cavalier_contours/src/core/math/base_math.rs: line_seg_closest_point"]}
{"id": "C33", "title": "Segment bounding boxes contain the segment", "statement": "seg_bounding_box and seg_fast_approx_bounding_box contain every point of the segment; the exact box is contained in the fast one.", "quantifier": "all segments (arcs at most half circle), all points of them", "why_tests_cant": "continuum of points", "anchors": ["cavalier_contours/src/polyline/pline_seg.rs: seg_bounding_box, seg_fast_approx_bounding_box"]}
{"id": "C34", "title": "Angle normalization and differences", "statement": "normalize_radians returns a congruent angle mod 2 pi inside [0, 2 pi]; delta_angle(a,b) is congruent to b-a and lies in (-pi, pi]; delta_angle_signed has its absolute value and the requested sign; angle_is_between and angle_is_within_sweep decide membership of the ccw / signed sweep.", "quantifier": "all real angles", "why_tests_cant": "continuous, periodic domain", "anchors": ["cavalier_contours/src/core/math/base_math.rs: normalize_radians, delta_angle, delta_angle_signed, angle_is_between_eps, angle_is_within_sweep_eps"]}
{"id": "C35", "title": "Bulge and angle conversions are inverse", "statement": "angle_from_bulge and bulge_from_angle are mutually inverse for angles in (-2 pi, 2 pi), and odd; |bulge| <= 1 iff the sweep is at most half a circle.", "quantifier": "all reals", "why_tests_cant": "transcendental identity", "anchors": ["cavalier_contours/src/core/math/base_math.rs: bulge_from_angle, angle_from_bulge"]}
{"id": "C36", "title": "Fuzzy comparison laws", "statement": "fuzzy_eq_eps is symmetric, reflexive for eps > 0, monotone in eps; fuzzy_lt/gt are implied by the exact comparisons; trichotomy up to eps.", "quantifier": "all reals and eps > 0", "why_tests_cant": "continuous domain", "anchors": ["cavalier_contours/src/core/traits/fuzzy_eq.rs: FuzzyEq", "cavalier_contours/src/core/traits/fuzzy_ord.rs: FuzzyOrd"]}
{"id": "C37", "title": "find_intersects reports valid, sound intersects", "statement": "Every reported intersect names in-range segment indexes of the two polylines and a point produced by intersecting those two segments; for every pair of segments whose boxes meet, their intersects are reported except for the documented de-duplication at segment end points; no panic.", "quantifier": "all pairs of polylines, all spatial index visiting orders", "why_tests_cant": "unbounded segment counts and arbitrary query order", "anchors": ["cavalier_contours/src/polyline/internal/pline_intersects.rs: find_intersects"]}
{"id": "C38", "title": "Self intersect visiting is bounded, ordered and stoppable", "statement": "visit_self_intersects reports only pairs of in-range segment indexes; each unordered pair of non adjacent segments is examined at most once; visiting stops at the first break and returns it; polylines with fewer than 2 vertices report nothing.", "quantifier": "all polylines, all visitors, all index query orders", "why_tests_cant": "schedules of an arbitrary visitor and of an arbitrary index order", "anchors": ["cavalier_contours/src/polyline/internal/pline_intersects.rs: visit_local_self_intersects, visit_global_self_intersects", "cavalier_contours/src/polyline/traits.rs: visit_self_intersects_opt"]}
{"id": "C39", "title": "Boolean input validation and no-intersect decision table", "statement": "boolean returns InvalidInput with no polylines exactly when an input is open or has fewer than 2 vertices; with no boundary intersects the result polylines are exactly the inputs selected by the set operation from the containment relation (disjoint / 1 in 2 / 2 in 1), and when the inputs have no common point the region of the result is the set operation applied to their regions.", "quantifier": "all pairs of inputs, all four operations", "why_tests_cant": "continuous inputs, decision table over all", "anchors": ["cavalier_contours/src/polyline/internal/pline_boolean.rs: polyline_boolean, process_for_boolean"]}
{"id": "C40", "title": "Boolean results are closed and assembled from input slices", "statement": "Every polyline in a boolean result of intersecting inputs is closed, non trivial, and is the concatenation of its listed subslices of the inputs (among them the overlapping stretches), each starting where the one before it ends; no slice is used twice.", "quantifier": "all inputs, all stitching orders", "why_tests_cant": "loops over unboundedly many slices", "anchors": ["cavalier_contours/src/polyline/internal/pline_boolean.rs: stitch_slices_into_closed_polylines, prune_slices, slice_at_intersects"]}
{"id": "C41", "title": "Stitching always terminates without an internal error", "statement": "boolean never panics for inputs accepted: neither the 'loop_count exceeded' unreachable panic nor an index out of range, whatever slices, spatial index order and selector answers occur.", "quantifier": "all slice sets, all end point query answers", "why_tests_cant": "arbitrary graphs of slices", "anchors": ["cavalier_contours/src/polyline/internal/pline_boolean.rs: polyline_boolean, stitch_slices_into_closed_polylines"]}
{"id": "C42", "title": "parallel_offset trivial inputs and the raw offset segments", "statement": "parallel_offset of a polyline with fewer than 2 vertices is empty; the raw offset segments are in one-to-one order with source segments; line segments are moved by exactly the offset along their left normal and arcs keep their center with radius changed by the offset (collapsed arcs become lines between the moved end points); for a closed polyline of straight segments with clear corners the raw offset polyline consists of the moved segments, cut off at their crossing or linked by an arc about the corner.", "quantifier": "all polylines, all offsets", "why_tests_cant": "unbounded length, continuous domain", "anchors": ["cavalier_contours/src/polyline/internal/pline_offset.rs: parallel_offset, create_untrimmed_raw_offset_segs"]}
{"id": "C43", "title": "Offset slices keep the offset distance", "statement": "Every slice kept by the offset algorithm was checked: no vertex, end point or middle point of a kept slice is closer than |offset| - tolerance to the source polyline, and no segment of it crosses the source; violated candidates are dropped.", "quantifier": "all polylines, offsets and tolerances", "why_tests_cant": "continuum of inputs, unbounded slices", "anchors": ["cavalier_contours/src/polyline/internal/pline_offset.rs: point_valid_for_offset, slices_from_raw_offset, slices_from_dual_raw_offsets"]}
{"id": "C44", "title": "Offset stitching produces connected results", "statement": "Each polyline returned by stitching consists of whole slices joined end to start within the join tolerance, closed iff its last point meets its first; every slice is used exactly once. Among the unused slices that start near the end of the chain, the one that starts the fewest segments further along the raw offset is taken; among equally near ones, one that does not end at the start of the chain comes first.", "quantifier": "all slice sets and query orders", "why_tests_cant": "arbitrary graphs of slices", "anchors": ["cavalier_contours/src/polyline/internal/pline_offset.rs: stitch_slices_together"]}
{"id": "C45", "title": "Shape classification", "statement": "Shape::from_plines never panics and puts every polyline with at least two vertexes exactly once, in order, into the ccw loops (closed, area not negative) or the cw loops (all others); the index has one box per loop, ccw loops first, and querying it with a box that contains a point of a loop visits that loop.", "quantifier": "all lists of polylines", "why_tests_cant": "unbounded lists", "anchors": ["cavalier_contours/src/shape_algorithms/mod.rs: Shape::from_plines, get_loop"]}
{"id": "C46", "title": "FFI error codes and output writes", "statement": "Every exported polyline function returns the documented error code exactly for the documented cause (null pointer, out of range position), writes its output only on success, and turns an internal panic into -1.", "quantifier": "all pointer/argument combinations and heap states", "why_tests_cant": "C callers can pass any combination", "anchors": ["cavalier_contours_ffi/src/lib.rs: cavc_pline_*"]}
{"id": "C47", "title": "FFI create/read back round trip", "statement": "Vertex data written through cavc_pline_create / set_vertex_data / add / set_vertex is read back unchanged by get_vertex_data / get_vertex / get_vertex_count, and clone is independent of the original.", "quantifier": "all histories of FFI calls", "why_tests_cant": "histories of mutations on many handles", "anchors": ["cavalier_contours_ffi/src/lib.rs: cavc_pline_create, cavc_pline_get_vertex, cavc_pline_set_vertex, cavc_pline_add, cavc_pline_remove, cavc_pline_clone"]}
{"id": "C48", "title": "FFI list ownership", "statement": "Polylines popped or taken from a list are owned by the caller, no longer listed and the rest keep their order; freeing a list releases the list and everything it still owns exactly once.", "quantifier": "all histories of FFI calls", "why_tests_cant": "memory ownership over histories", "anchors": ["cavalier_contours_ffi/src/lib.rs: cavc_plinelist_f, cavc_plinelist_pop, cavc_plinelist_take"]}
{"id": "C49", "title": "Overlap joining is complete and bounded", "statement": "sort_and_join_overlapping_intersects turns every overlapping intersect into part of exactly one overlapping slice; slices are maximal runs of overlaps that follow each other; slice indexes and view offsets are in range, so that reading a slice never panics; reading a slice gives a polyline that runs along the second polyline from the start of its first overlap to the end of its last one, and the slices together cover exactly what the overlaps cover; a slice is marked as opposing if the directions of the two polylines at its start are opposite.", "quantifier": "all intersect collections of two polylines", "why_tests_cant": "unbounded lists, arbitrary order", "anchors": ["cavalier_contours/src/polyline/internal/pline_intersects.rs: sort_and_join_overlapping_intersects, OverlappingSlice::new"]}
{"id": "C50", "title": "Public accessors do not panic on degenerate input", "statement": "Documented non-panicking API (extents, path_length, area, orientation, winding_number, closest_point, remove_repeat_pos, remove_redundant, rotate_start, arcs_to_approx_lines, last, find_point_at_path_length) returns normally on every polyline, including empty and single vertex ones.", "quantifier": "all polylines", "why_tests_cant": "every degenerate combination", "anchors": ["cavalier_contours/src/polyline/traits.rs: PlineSource"]}
{"id": "C51", "title": "Shape parallel offset", "statement": "Shape::parallel_offset takes the parallel offsets of all loops that are not turned over, cuts them wherever two of them meet, keeps exactly the parts whose first segment's middle keeps the offset distance to the other input loops, joins all kept parts, each exactly once, only where ends are near, and returns a well formed shape with loops by orientation; it panics only if an offset loop or a joined loop has fewer than two vertexes.", "quantifier": "all shapes, all offsets and options, all spatial index and sort implementations that meet their contract", "why_tests_cant": "unbounded number of loops and segments, every configuration of intersects", "anchors": ["cavalier_contours/src/shape_algorithms/mod.rs: Shape::parallel_offset"]}
{"id": "C52", "title": "Editing calls", "statement": "set_vertex, set_last, insert_vertex, remove, remove_last, clear, add_vertex, extend_vertexes and set_is_closed change exactly what they say: afterwards the vertex count, the vertex at every index, the closed flag and the returned vertex are determined by the call and the state before it, and a call panics exactly when its index is out of range or the polyline has no last vertex.", "quantifier": "all polylines, all editing calls with all arguments", "why_tests_cant": "every index of every polyline, including the boundary ones", "anchors": ["cavalier_contours/src/polyline/pline.rs: impl PlineSourceMut for Polyline", "cavalier_contours/src/polyline/traits.rs: PlineSourceMut"]}
{"id": "C53", "title": "Iterators", "statement": "iter_vertexes (pulled from either end in any order), iter_segments and iter_segment_indexes give every item exactly once in order, keep giving nothing after the end, report as size hint exactly the number of items still to come after every call, and never panic.", "quantifier": "all polylines, all finite histories of calls on the iterator", "why_tests_cant": "arbitrary interleaving of front and back calls, calls past the end, unbounded length", "anchors": ["cavalier_contours/src/polyline/traits.rs: VertexIter, PlineSegIterator, PlineSegIndexIterator"]}
{"id": "C54", "title": "winding_number only changes across the polyline, and follows its transformations", "statement": "For a closed polyline the winding number is the same at any two points of a connected set that the polyline does not meet, and it is 0 at every point outside the extents or separated from the polyline by a line. Inverting the direction negates it; translate and scale (by any factor other than 0) carry it along with the point; rotate_start keeps it.", "quantifier": "all closed polylines including self intersecting ones, all connected sets off the polyline, all points off the polyline, all offsets and factors, all start positions", "why_tests_cant": "a topological invariant over all connected sets and all curves", "anchors": ["cavalier_contours/src/polyline/traits.rs: winding_number, extents, invert_direction_mut, translate_mut, scale_mut, rotate_start"]}
{"id": "C55", "title": "Numeric helpers", "statement": "quadratic_solutions returns the two roots of the quadratic whenever its divisor is not zero, and the divisor is zero exactly when b and c are both zero; rotate_about keeps distances, fixes its centre and adds the angle; the left and right tests decide the side of a directed line, the fuzzy ones up to the epsilon; the functions without epsilon are those with epsilon 1e-8; a vertex is built from a slice exactly when it has three numbers; two polylines are fuzzy equal exactly when closedness and counts agree and corresponding vertexes agree within the epsilon.", "quantifier": "all real coefficients, points, angles, epsilons, slices and polylines", "why_tests_cant": "algebraic identities over all real arguments, with the boundary where the divisor vanishes", "anchors": ["cavalier_contours/src/core/math/base_math.rs: quadratic_solutions, is_left, is_left_or_equal, is_left_or_coincident, angle_is_between", "cavalier_contours/src/core/math/vector2.rs: rotate_about, fuzzy_eq", "cavalier_contours/src/core/traits.rs: FuzzyEq, FuzzyOrd", "cavalier_contours/src/polyline/pline_vertex.rs: from_slice", "cavalier_contours/src/polyline/traits.rs: fuzzy_eq_eps"]}
{"id": "C56", "title": "Validation of view data", "statement": "validate_for_source accepts view data exactly when its indexes fit the source and its start, end and updated points lie on the segments the indexes name, within fixed tolerances; every accepted view data can be viewed without panic; a point near enough to a line or arc segment is accepted and an accepted point is near the segment.", "quantifier": "all view data and all sources (start index in range or source shorter than 2 vertexes), all real points and segments", "why_tests_cant": "the verdict must be right for every combination of indexes, points and bulges", "anchors": ["cavalier_contours/src/polyline/pline_view.rs: validate_for_source, ViewDataValidation, view"]}
{"id": "C57", "title": "Serialized values are read back", "statement": "Vertexes, polylines, vectors, view data and boolean results are read back unchanged from what was written for them, whatever follows in the input, and the reader accepts nothing but what the writer writes. (Vectors and view data fail this in formats that store and check tuple lengths.)", "quantifier": "all values of any size, all kinds of format (delimited text, binary without lengths, binary with checked tuple lengths), all following input", "why_tests_cant": "round trip over unbounded data and over formats not chosen by the library", "anchors": ["cavalier_contours/src/polyline/pline_vertex.rs: Serialize, Deserialize for PlineVertex", "cavalier_contours/src/core/math/vector2.rs: Serialize, Deserialize for Vector2", "cavalier_contours/src/polyline/pline.rs: Polyline", "cavalier_contours/src/polyline/pline_view.rs: PlineViewData", "cavalier_contours/src/polyline/internal/pline_boolean.rs: BooleanPlineSlice"]}
{"id": "C58", "title": "Default options and the C option structs", "statement": "The calls without options behave as the calls with options given no index and the documented default tolerances. In the C interface a null option pointer and a struct filled by the init function give the same outcome on every heap, every field reaches the operation, null polylines and unknown operations are answered before the options are read, and giving the index made from the same polyline changes nothing. The extents read from the exact index made by the C interface are the extents of the polyline.", "quantifier": "all polylines, offsets, operations, heaps and option structs", "why_tests_cant": "equality of outcomes for every input and heap", "anchors": ["cavalier_contours/src/polyline/mod.rs: PlineOffsetOptions, PlineBooleanOptions, PlineSelfIntersectOptions, FindIntersectsOptions", "cavalier_contours/src/shape_algorithms/mod.rs: ShapeOffsetOptions", "cavalier_contours/src/polyline/traits.rs: parallel_offset, boolean, find_intersects", "cavalier_contours_ffi/src/lib.rs: cavc_pline_parallel_offset_o, cavc_pline_boolean_o, cavc_pline_parallel_offset_o_init, cavc_pline_boolean_o_init"]}
{"id": "C59", "title": "Boolean operations on crossing polylines give the set operation", "statement": "For two closed polylines that each wind at most once around every point and that cross only at finitely many points inside segments, clear of vertexes and of each other, every boolean operation succeeds and reports Intersected; every result polyline is closed and lies on the two inputs; and at every point on neither input the winding numbers of the result polylines add up to 1 or -1 when the set operation (union, intersection, difference, symmetric difference) holds of the two regions and to 0 otherwise, so that drawn with the non-zero or the even-odd rule the result is exactly the set operation. That each winds at most once around every point holds of all closed polylines that do not touch themselves.", "quantifier": "all pairs of closed polylines of lines and arcs of at most half a circle with clean crossings whose segment pairs report exactly their common points (which is proved of lines and arcs that cross clearly or are clear of each other), all four operations, all spatial indexes, all stitching orders, all points of the plane", "why_tests_cant": "regions are infinite sets of points and the number of crossings, pieces and result loops is unbounded", "anchors": ["cavalier_contours/src/polyline/internal/pline_boolean.rs: polyline_boolean, slice_at_intersects, prune_slices, stitch_slices_into_closed_polylines", "cavalier_contours/src/polyline/internal/pline_intersects.rs: find_intersects", "cavalier_contours/src/polyline/traits.rs: boolean, winding_number"]}
{"id": "C60", "title": "The parallel offset of a straight closed polyline is the exact parallel curve", "statement": "For a closed polyline of straight segments in general position and default options, a point lies on one of the polylines returned by parallel_offset if and only if it is at least |offset| away from every point of the input and lies at exactly that distance beside a segment, on the side given by the sign of the offset, or on the arc around a corner on that side.", "quantifier": "all closed polylines of straight segments of any length, all offsets and all points of the plane, for inputs whose corners and whose self intersects of the raw offset are clear of the tolerances", "why_tests_cant": "a statement about all points of a continuous curve and about all polylines, with local and global invalid loops of the raw offset; tests compare a few results with stored vertexes", "anchors": ["cavalier_contours/src/polyline/internal/pline_offset.rs: create_raw_offset_polyline, slices_from_raw_offset, stitch_slices_together, parallel_offset", "cavalier_contours/src/polyline/traits.rs: parallel_offset"]}
{"id": "C61", "title": "The parallel offset of a closed polyline consists of closed polylines", "statement": "For a closed polyline (of straight segments, or of lines and arcs) in general position, every polyline returned by parallel_offset is closed and has at least two segments, each of positive length: no chain of slices is left open, in whatever order the spatial index returns the candidates when the slices are stitched.", "quantifier": "all closed polylines of lines and arcs of any length, all offsets, all lawful spatial indexes (so all stitching orders), for inputs whose corners and whose self intersects of the raw offset are clear of the tolerances", "why_tests_cant": "the kept slices of the raw offset form an arbitrary finite graph of chains; that every chain comes back to its start needs an argument about all crossings of the raw offset", "anchors": ["cavalier_contours/src/polyline/internal/pline_offset.rs: slices_from_raw_offset, stitch_slices_together, parallel_offset", "cavalier_contours/src/polyline/traits.rs: parallel_offset"]}
{"id": "C62", "title": "A simple closed polyline has winding number 0 outside and one of 1 and -1 everywhere inside", "statement": "For a closed polyline of lines and arcs that does not touch itself, winding_number takes exactly two values off the polyline: 0, and one of 1 and -1, the same at all points inside. The inside is on the same side everywhere: with one w, which is 0 or -1, a little to the left of any point inside any segment the winding number is w + 1, and a little to the right it is w. For straight segments also: of a point whose nearest point of the polyline is on its right and one whose nearest point is on its left, the winding number of the former is larger by exactly one, so just one of them is inside.", "quantifier": "all closed polylines of lines and of arcs of at most half a circle, of any length, that pass every point once; all points off the polyline", "why_tests_cant": "it is the Jordan curve theorem for polylines with arcs as seen through the crossing count of winding_number: it must hold for every polyline and every point, also at the heights of vertexes", "anchors": ["cavalier_contours/src/polyline/traits.rs: winding_number"]}
{"id": "C63", "title": "The results of parallel_offset enclose exactly the points that are far enough inside, or near enough outside", "statement": "For a closed polyline of lines and arcs (of at most half a circle) that does not touch itself, with winding number s (1 or -1) inside, and an offset in general position: if the offset is to the inside, the sum of the winding numbers of all results is s at the points inside the polyline that are at least the offset away from it, and 0 at all others; if it is to the outside, the sum is 0 at the points outside that are at least the offset away, and s at all others. All results are inside, or outside, the polyline. An offset to the inside has no results if and only if no point inside is that far away; an offset to the outside always has results.", "quantifier": "all closed polylines of lines and arcs of any length that pass every point once, all offsets for which the raw offset is in general position, all points of the plane that are not on a result", "why_tests_cant": "it is a statement about all points of the plane for all polygons, and it needs orientation, completeness and single traversal of all results at once: a result that is missing, reversed, or listed twice changes the sum only at some points of some inputs", "anchors": ["cavalier_contours/src/polyline/internal/pline_offset.rs: parallel_offset, slices_from_raw_offset, stitch_slices_together", "cavalier_contours/src/polyline/traits.rs: parallel_offset_opt, winding_number"]}
{"id": "C64", "title": "area is the area of the region enclosed, for polylines, boolean results and offset results", "statement": "The area of a closed polyline of lines and arcs is the integral over the plane of its winding number. If it winds at most once around every point, the absolute value of its area is the area (Lebesgue measure) of the region it winds around, and orientation is the direction in which it winds. That holds of every closed polyline of lines and arcs that does not touch itself; its area is not 0, and its inside is on its left if orientation is counter clockwise and on its right if it is clockwise. For crossing polylines the areas of the results of a boolean operation add up to the area of the intersection, union or difference of the two regions; for OR the absolute areas of the positive results less those of the negative results are the area of the union. The areas of the results of parallel_offset on a simple polygon add up to the area of the region of the points far enough inside (offset to the inside), or of all points but those far enough outside (offset to the outside).", "quantifier": "all closed polylines of lines and of arcs of at most half a circle, self intersecting ones included; all pairs of closed polylines with clean crossings and all four operations; all simple polygons and all offsets in general position", "why_tests_cant": "it relates a closed form over the vertexes to the measure of an infinite set of points, for all polylines and all results", "anchors": ["cavalier_contours/src/polyline/traits.rs: area, orientation, winding_number, boolean, parallel_offset_opt", "cavalier_contours/src/polyline/internal/pline_boolean.rs: polyline_boolean", "cavalier_contours/src/polyline/internal/pline_offset.rs: parallel_offset"]}
{"id": "C65", "title": "The raw offset of a closed polyline of lines and arcs is the chain of its parallel segments, cut or linked at every corner", "statement": "For a closed polyline of lines and arcs of at most half a circle and an offset that collapses no arc: every segment is replaced by the parallel segment at the distance of the offset to its left (for an arc: the same center and the same sweep, the radius changed by the offset). At a corner where the parallel segments (lines and circles) have a common point, the one nearest to the corner counts; if it is on both parallel segments they are cut there, and the raw offset runs from the first to the second. Otherwise the end of the first and the start of the second are linked by the arc around the corner, or, between straight parts that overlap too little, by a straight line. Every point of the raw offset is at most the offset away from the polyline, and the points on the parallel segments are exactly that far from the segment they belong to.", "quantifier": "all closed polylines of lines and arcs of any length, all offsets, all points of the raw offset, if no corner is within the tolerance of a change of its kind", "why_tests_cant": "each corner has one of eleven kinds, depending on lines, arcs, directions and offsets, and the vertexes written at one corner are changed again at the next one and at the closing of the loop", "anchors": ["cavalier_contours/src/polyline/internal/pline_offset.rs: create_raw_offset_polyline, create_untrimmed_raw_offset_segs, line_line_join, line_arc_join, arc_line_join, arc_arc_join, connect_using_arc", "cavalier_contours/src/polyline/traits.rs: parallel_offset_opt"]}
{"id": "C66", "title": "The parallel offset of a closed polyline of lines and arcs keeps exactly the points of the raw offset that are far enough away", "statement": "For a closed polyline of lines and arcs of at most half a circle: a point is on a result of parallel_offset if and only if it is on the raw offset (the parallel segments, cut or linked at every corner) and no point of the polyline is nearer than the offset. All points of the results have exactly the offset as distance from the polyline. If what is done at the corners is in accordance with the distances, these points are exactly the parallel curve: the points at the distance of the offset beside a segment on that side, or around a corner on the outer side of the turn, with no point of the polyline nearer than that.", "quantifier": "all closed polylines of lines and arcs of any length, all offsets, all points of the plane, if the corners and the self crossings of the raw offset are clear of the tolerances and either the raw offset gets too near to the polyline, or far enough away again, only at its self crossings, or no point is on the parallel curves of both sides and the raw offset crosses itself at angles", "why_tests_cant": "it is a statement on all points of all results, and the code looks at a few points of each slice only", "anchors": ["cavalier_contours/src/polyline/internal/pline_offset.rs: parallel_offset, create_raw_offset_polyline, slices_from_raw_offset, point_valid_for_offset, stitch_slices_together", "cavalier_contours/src/polyline/traits.rs: parallel_offset_opt"]}
{"id": "C67", "title": "A boolean operation continues with the other polyline where it can", "statement": "Where a slice of the result ends, a boolean operation goes on with a piece of the other polyline if one starts there; a union or an intersection takes a piece of the same polyline next and an overlap last; a difference or symmetric difference never joins an overlap to an overlap. Every slice that a pass keeps is used exactly once; slices are missing from the result only if their chain cannot be continued or closes with fewer than three vertexes.", "quantifier": "all pairs of closed polylines that intersect, all operations, all query answer orders of the spatial index, all scalars", "why_tests_cant": "arbitrarily many slices can meet in a point, in any order", "anchors": ["cavalier_contours/src/polyline/internal/pline_boolean.rs: OrAndStitchSelector, NotXorStitchSelector, stitch_slices_into_closed_polylines, prune_slices"]}
{"id": "C68", "title": "The parallel offset of an open polyline keeps exactly the points of the raw offset that are far enough away", "statement": "For an open polyline of lines and arcs of at most half a circle: a point is on a result of parallel_offset if and only if it is on the raw offset (the parallel segments, cut or linked at every corner) and no point of the polyline is nearer than the offset. All points of the results have exactly the offset as distance from the polyline. In particular parts that are too near to one of the two ends of the polyline are left out, although the raw offset does not cross itself there. If what is done at the corners is in accordance with the distances, the results are exactly the parallel curve: the points at the offset distance beside a segment on the side of the offset, or around an inner vertex on the outer side of its turn, with no point of the polyline nearer; the curve does not go around the ends. This needs no assumption on where the distance is kept if at each cut only one other curve is met, at an angle.", "quantifier": "all open polylines of lines and arcs of any length, all offsets, all points of the plane, if the points where the raw offset crosses itself, the raw offset to the other side or a circle around an end are clear of the tolerances, and the raw offset gets too near to the polyline, or far enough away again, only there (which is proved for crossings at an angle)", "why_tests_cant": "it is a statement on all points of all results; the code cuts the raw offset with three kinds of curves and looks at a few points of each slice only", "anchors": ["cavalier_contours/src/polyline/internal/pline_offset.rs: parallel_offset, create_raw_offset_polyline, slices_from_dual_raw_offsets, point_valid_for_offset, stitch_slices_together", "cavalier_contours/src/polyline/traits.rs: parallel_offset_opt"]}
{"id": "C69", "title": "The raw offset of an open polyline of lines and arcs is the chain of its parallel segments, cut or linked at every corner", "statement": "For an open polyline of lines and arcs of at most half a circle and an offset that collapses no arc: every segment is replaced by the parallel segment at the distance of the offset to its left, and at every corner between two segments the parallel segments are cut at their common point nearest to the corner, or linked by an arc around the corner or by a straight line. The raw offset starts with the start of the first parallel segment and ends with the end of the last one, and is open. Every point of it is at most the offset away from the polyline.", "quantifier": "all open polylines of lines and arcs of any length, all offsets, all points of the raw offset, if no corner is within the tolerance of a change of its kind", "why_tests_cant": "each corner has one of eleven kinds, and the vertexes written at one corner are changed again at the next one; the end is treated differently from that of a closed polyline", "anchors": ["cavalier_contours/src/polyline/internal/pline_offset.rs: create_raw_offset_polyline, create_untrimmed_raw_offset_segs, line_line_join, line_arc_join, arc_line_join, arc_arc_join, connect_using_arc"]}
{"id": "C70", "title": "With the option for self-intersections the parallel offset of a closed polyline keeps exactly the points of the raw offset that are far enough away", "statement": "For a closed polyline of lines and arcs of at most half a circle that may cross itself and may wind around more than once, with handle_self_intersects set: a point is on a result of parallel_offset if and only if it is on the raw offset and no point of the polyline is nearer than the offset. All points of the results have exactly the offset as distance from the polyline. Where parallel_offset also works without the option, both settings give results with the same points. If what is done at the corners is in accordance with the distances, the results are exactly the parallel curve: the points at the offset distance beside a segment, on the side of the offset, or around a corner, on the outer side of the turn, with no point of the polyline nearer. For a polyline that does not touch or cross itself the results are then also closed polylines with at least two vertexes and no segment shorter than the tolerance; the sum of their winding numbers is that of the region of the points inside (for an offset to the outside: of all points but those outside) that are at least the offset away, and their areas add up to the area of that region.", "quantifier": "all closed polylines of lines and arcs of any length, all offsets, all points of the plane, if the raw offset gets too near to the polyline, or far enough away again, only where it crosses itself or the raw offset to the other side; these points are clear of the tolerances, and there is not exactly one of them (for the exact parallel curve this is not assumed but derived from the raw offset being crossed at angles)", "why_tests_cant": "it is a statement on all points of all results; the code cuts the raw offset with a second one and looks at a few points of each slice only, and a slice may run over the start of the polyline", "anchors": ["cavalier_contours/src/polyline/internal/pline_offset.rs: parallel_offset, create_raw_offset_polyline, slices_from_dual_raw_offsets, point_valid_for_offset, stitch_slices_together", "cavalier_contours/src/polyline/traits.rs: parallel_offset_opt"]}
{"id": "C71", "title": "Inputs of a boolean operation are reported as overlapping exactly if they are the same curve", "statement": "For two closed polylines of the same lines and arcs, whatever vertex each starts at and in whichever direction it runs, boolean reports Overlapping; union and intersection give the second polyline, NOT and XOR give nothing, and this is the set operation applied to the regions. Conversely Overlapping is reported only if the overlapping intersects found, in order along the second polyline, form one run without a gap that closes up, and only if the inputs have the same region.", "quantifier": "all pairs of closed polylines with at least two vertexes, all four operations, all indexes; for the regions all points off the polylines", "why_tests_cant": "the number of segments, the start vertexes and the directions are arbitrary, and the decision depends on the order and joints of all overlaps found", "anchors": ["cavalier_contours/src/polyline/internal/pline_boolean.rs: polyline_boolean, process_for_boolean, completely_overlapping", "cavalier_contours/src/polyline/internal/pline_intersects.rs: sort_and_join_overlapping_intersects, OverlappingSlice::new", "cavalier_contours/src/polyline/pline_seg_intersect.rs: pline_seg_intr"]}
{"id": "C72", "title": "The parallel offset of a shape consists of the points that keep the distance from all its polylines", "statement": "Shape::parallel_offset returns closed polylines of at least two vertexes. Together they consist of exactly those points of the parallel offsets of the single polylines of the shape that are at least the distance away from all other polylines of the shape: the offset of an island is cut where it comes too close to the shore, the offset of the shore where it comes too close to the island, and the remaining parts are joined to closed loops. If the offset of each single polyline keeps the distance from it, every point of the result is at least the distance away from every polyline of the shape.", "quantifier": "all shapes of any number of closed polylines of lines and arcs, all offsets and tolerances, whose offset loops cross in any number of points clear of the tolerances; all points of the plane", "why_tests_cant": "the number of loops, of crossings and the order in which they are found and joined are arbitrary, and the statement is about all points", "anchors": ["cavalier_contours/src/shape_algorithms/mod.rs: Shape::parallel_offset, Shape::from_plines"]}
{"id": "C73", "title": "Removing redundant vertexes and moving the start keep area, length and winding numbers", "statement": "remove_redundant and rotate_start do not change what a polyline measures. After remove_redundant an open polyline has the same path_length as before; a closed polyline that starts with a line segment has the same area, the same path_length and the same winding_number at every point that is not on it. After rotate_start to a vertex, or to a point within a segment, a closed polyline has the same area and the same path_length.", "quantifier": "all polylines of lines and arcs with any number of vertexes whose vertex positions, turns and circles are told apart by the epsilon given; all rotation points on the polyline; all points of the plane", "why_tests_cant": "the number of removed vertexes, the segments joined and the point to which the start moves are arbitrary; equality of area, length and winding numbers must hold exactly for all of them", "anchors": ["cavalier_contours/src/polyline/traits.rs: remove_redundant, rotate_start, area, path_length, winding_number"]}
{"id": "C74", "title": "The parallel offset of a shape encloses the right region", "statement": "The winding numbers of the polylines of a shape, added up, tell inside from outside: off the polylines the sum is a (outside) or a + 1 (inside). After Shape::parallel_offset, the winding numbers of the polylines of the result add up to the same value as those of the shape at every point that is at least the distance away from all polylines of the shape. At all other points off the result they add up to a for a positive offset, which shrinks the inside, and to a + 1 for a negative offset, which makes the inside grow: what is too near to a polyline is taken away from the inside, or added to it, all around every outline and every hole, also where the offsets of different polylines meet and are joined. The areas of the resulting polylines add up, up to the sign of their direction, to the area of that region.", "quantifier": "all shapes of any number of closed polylines of lines and arcs without common points, in any nesting for which the sum of the winding numbers has two neighbouring values; all offsets and tolerances for which the offset loops are clear of the tolerances; all points of the plane off the result", "why_tests_cant": "it is a statement about all points of the plane, for any number of polylines, of crossings of their offsets, and of loops joined from their parts", "anchors": ["cavalier_contours/src/shape_algorithms/mod.rs: Shape::parallel_offset", "cavalier_contours/src/polyline/internal/pline_offset.rs: parallel_offset", "cavalier_contours/src/polyline/traits.rs: winding_number"]}
{"id": "C75", "title": "The results of the parallel offset of a polyline or a shape touch neither themselves nor each other", "statement": "For a closed polyline that does not touch itself, every polyline that parallel_offset returns is closed and does not touch itself, and no two of them have a common point, however often the raw offset crosses itself. So every result winds at most once around every point, the absolute value of its area is the area of the region it encloses and is not zero, and results can be offset again. Results of an offset to the inside have the orientation of the polyline. The same holds for the polylines of Shape::parallel_offset, however often the offsets of the single polylines cross each other: they touch neither themselves nor each other, are sorted by orientation, and off them the winding numbers add up to the same two values as for the shape, so the result is again a shape that can be offset.", "quantifier": "all closed polylines of lines and arcs that do not touch themselves, and all shapes of such polylines without common points; all offsets and tolerances for which the raw offsets and their crossings, at any number and at angles, are clear of the tolerances", "why_tests_cant": "it is a statement about all pairs of points of the results, for any number of vertexes, crossings and resulting loops", "anchors": ["cavalier_contours/src/polyline/internal/pline_offset.rs: parallel_offset, slices_from_raw_offset, stitch_slices_together", "cavalier_contours/src/polyline/traits.rs: parallel_offset_opt, area, orientation, winding_number", "cavalier_contours/src/shape_algorithms/mod.rs: Shape::parallel_offset, Shape::from_plines"]}
{"id": "C76", "title": "Offsetting a shape twice to the same side is the same as offsetting it once by the sum", "statement": "If Shape::parallel_offset is called with an offset d1 and then on its result with an offset d2 of the same sign, the final shape consists of the same points as the result of one call with d1 + d2, the winding numbers of both around every point off them are equal, and so are the sums of the areas of their polylines. It does not matter how the polylines of the three calls split, merge or vanish.", "quantifier": "all shapes of closed polylines of lines and arcs that touch neither themselves nor each other and whose winding numbers take two neighbouring values; all pairs of offsets of the same sign and all tolerances such that each of the three calls is clear of the tolerances", "why_tests_cant": "it compares three calls for all shapes, offsets and points; a test can only compare chosen shapes up to a tolerance", "anchors": ["cavalier_contours/src/shape_algorithms/mod.rs: Shape::parallel_offset, Shape::from_plines", "cavalier_contours/src/polyline/internal/pline_offset.rs: parallel_offset"]}
{"id": "C77", "title": "Offsets of one shape by several distances are nested and lie apart by the difference of the distances", "statement": "If Shape::parallel_offset is called on the same shape with two different offsets, the result for the larger (signed) offset winds around no point more often than the other result, and the areas of its polylines do not add up to more: offsets to the inside enclose less and less, offsets to the outside more and more. Every point of one result is at least the difference of the two offsets away from every point of the other. If both offsets are to the same side, every point of the farther result has a point of the nearer one at exactly this distance, so passes at a constant step leave no gap wider than the step.", "quantifier": "all shapes of closed polylines of lines and arcs that touch neither themselves nor each other and whose winding numbers take two neighbouring values; all pairs of different offsets, to the same or to different sides, and all tolerances such that both calls are clear of the tolerances", "why_tests_cant": "it is a statement about all pairs of points of two results for all shapes and all pairs of offsets", "anchors": ["cavalier_contours/src/shape_algorithms/mod.rs: Shape::parallel_offset", "cavalier_contours/src/polyline/traits.rs: area, winding_number"]}
{"id": "C78", "title": "Offsetting a shape to one side and back by the same distance stays on that side of the shape, and returns to it where the first offset touched", "statement": "If Shape::parallel_offset is called with d and then on its result with -d, then for d > 0 the final shape winds around no point more often than the original and its areas do not add up to more, and for d < 0 not less. So inside and back outside only removes what is too narrow for the distance (and rounds corners), outside and back inside only fills. Every point of the original that has a point of the intermediate result at the distance |d| lies on the final shape.", "quantifier": "all shapes of closed polylines of lines and arcs that touch neither themselves nor each other and whose winding numbers take two neighbouring values; all offsets of either sign and all tolerances such that both calls are clear of the tolerances", "why_tests_cant": "it compares the original with the result of two calls at all points of the plane, for all shapes and offsets", "anchors": ["cavalier_contours/src/shape_algorithms/mod.rs: Shape::parallel_offset", "cavalier_contours/src/polyline/traits.rs: area, winding_number"]}
{"id": "C79", "title": "Offsetting a polyline to the inside, and each result again, equals one offset by the sum", "statement": "If Polyline::parallel_offset is called on a closed polyline with d1 to the inside (positive for counter-clockwise, negative for clockwise), and then on each polyline of the result with d2 of the same sign, none of the calls fails, and all the final polylines together consist of exactly the points of the polylines that one call with d1 + d2 returns, wind equally often around every point off them, and have the same sum of areas. So a loop that makes the passes of a pocket by offsetting the previous pass neither misses nor adds anything.", "quantifier": "all closed polylines of lines and arcs that do not touch themselves, of either orientation; all pairs of offsets to the inside, also such that the first call splits the polyline into any number of pieces or returns nothing, and all tolerances such that all calls are clear of the tolerances", "why_tests_cant": "it compares the point sets of many calls in sequence with one call, for all polylines and all pairs of offsets", "anchors": ["cavalier_contours/src/polyline/internal/pline_offset.rs: parallel_offset", "cavalier_contours/src/polyline/traits.rs: parallel_offset, parallel_offset_opt, area, winding_number"]}
{"id": "C80", "title": "Any number of passes, each offset from the one before, end where one offset by the sum ends, at exact distances from each other", "statement": "A caller offsets a closed polyline to the inside, then offsets each of the results again, and so on, for any list of distances (or does the same with a Shape and Shape::parallel_offset, all passes to the inside or all to the outside). No call fails. The polylines of the last pass consist of exactly the points of the result of one call with the sum of the distances, wind equally often around every point off them, and have the same sum of areas: rounding aside, errors do not build up from pass to pass. For a polyline, every pass consists of closed polylines that do not touch themselves, oriented like the original; no point of a pass is nearer to the pass before than the distance of the pass, and each has a point of the pass before at exactly that distance.", "quantifier": "all closed polylines of lines and arcs that do not touch themselves, and all shapes of them whose winding numbers take two neighbouring values; all nonempty lists of distances to one side, of any length; all tolerances such that all calls are clear of the tolerances", "why_tests_cant": "it is a statement about loops with any number of calls, in which the input of each call is the result of the one before", "anchors": ["cavalier_contours/src/polyline/internal/pline_offset.rs: parallel_offset", "cavalier_contours/src/shape_algorithms/mod.rs: Shape::parallel_offset", "cavalier_contours/src/polyline/traits.rs: parallel_offset_opt, area, winding_number"]}
{"id": "C81", "title": "An offset leaves nothing exactly if no point is far enough away, and passes to the inside end", "statement": "parallel_offset of a closed polyline to the inside returns an empty list exactly if no point inside the polyline is at least the offset away from it; the same holds for the sum of the distances of any number of passes, and for Shape::parallel_offset to either side with the points that are far enough from all polylines. For every closed polyline there is a bound, independent of steps, tolerances and index, such that passes to the inside whose distances add up to more leave nothing, so the usual loop 'offset until nothing is left' ends.", "quantifier": "all closed polylines of lines and arcs that do not touch themselves, and all nonempty shapes of them whose winding numbers take two neighbouring values; all offsets or lists of distances of any length, and all tolerances such that all calls are clear of the tolerances", "why_tests_cant": "that a result is empty is equivalent to a statement about all points inside, and termination is about loops of any length", "anchors": ["cavalier_contours/src/polyline/internal/pline_offset.rs: parallel_offset", "cavalier_contours/src/shape_algorithms/mod.rs: Shape::parallel_offset"]}
{"id": "C82", "title": "The offset depends on the curve only, not on how it is given, on the index or on the tolerances", "statement": "Two closed polylines that consist of the same points but have different vertexes (another start vertex, additional vertexes on segments) and run in the same direction have the same offset by d, also if the calls use different tolerances, a supplied index or none, or different spatial indexes: the results consist of the same points, wind equally often around every point off them, and have the same sum of areas. If the second polyline runs in the opposite direction, its offset by -d consists of the same points, and winding numbers and areas have the opposite sign. The same holds for shapes with the same points and winding numbers, for instance for the same polylines in another order.", "quantifier": "all pairs of closed polylines of lines and arcs that do not touch themselves and consist of the same points, all pairs of shapes of such polylines, all offsets to either side, all pairs of options and indexes such that both calls are clear of the tolerances", "why_tests_cant": "it compares the point sets of two calls for all representations of all curves", "anchors": ["cavalier_contours/src/polyline/internal/pline_offset.rs: parallel_offset", "cavalier_contours/src/shape_algorithms/mod.rs: Shape::parallel_offset, Shape::from_plines"]}
{"id": "C83", "title": "A shape made of one polyline is offset like the polyline", "statement": "For a closed polyline p, Shape::from_plines of p alone followed by Shape::parallel_offset by d gives the same as p.parallel_offset(d): both results consist of the same points, wind equally often around every point off them, and have the same sum of areas, whichever way p runs and to whichever side it is offset, also if the two calls use different tolerances.", "quantifier": "all closed polylines of lines and arcs that do not touch themselves, in both directions, all offsets to either side, all pairs of options such that both calls are clear of the tolerances", "why_tests_cant": "it compares the point sets of the results of two different algorithms for all curves and distances", "anchors": ["cavalier_contours/src/shape_algorithms/mod.rs: Shape::from_plines, Shape::parallel_offset", "cavalier_contours/src/polyline/internal/pline_offset.rs: parallel_offset"]}
