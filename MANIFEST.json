{"claims": [
{"property": "C01", "status": "proved", "theorems": ["Cavc.C01_iter_segments", "Cavc.C01_iter_segment_indexes"], "note": "all scalars"},
{"property": "C02", "status": "proved", "theorems": ["Cavc.C02_next_prev", "Cavc.C02_fwd_index", "Cavc.C02_fwd_dist"], "note": "all scalars"},
{"property": "C03", "status": "proved", "theorems": ["Cavc.C03_invert_path", "Cavc.C03_invert_twice"], "note": "all scalars; the twice law uses -(-x)=x only"},
{"property": "C04", "status": "proved", "theorems": ["Cavc.C04_invert_area", "Cavc.C04_invert_length"], "note": "exact reals; the length half needs segments longer than the default epsilon"},
{"property": "C05", "status": "proved", "theorems": ["Cavc.C05_area", "Cavc.C05_curve_closed"], "note": "exact reals; every closed polyline, arcs of any bulge with distinct end points"},
{"property": "C06", "status": "proved", "theorems": ["Cavc.C06_translate_vertexes", "Cavc.C06_scale_vertexes", "Cavc.C06_translate", "Cavc.C06_scale_area", "Cavc.C06_scale_length"], "note": "vertex law for all scalars; area and length over exact reals"},
{"property": "C07", "status": "proved", "theorems": ["Cavc.C07_orientation"], "note": "exact reals"},
{"property": "C08", "status": "proved", "theorems": ["Cavc.C08_path_length", "Cavc.C08_length_laws", "Cavc.C08_seg_length"], "note": "exact reals; lines and proper arcs (|bulge| <= 1)"},
{"property": "C09", "status": "partial", "theorems": ["Cavc.C09_open", "Cavc.C09_closed", "Cavc.C09_closed_cyclic_partial", "Cavc.C09_drift_witness", "Cavc.C09_empty_witness"], "note": "all scalars; in-order merging is exact. The cyclic guarantee is proved when nearness is an equivalence on the vertexes; C09_drift_witness and C09_empty_witness show the code breaks it otherwise"},
{"property": "C10", "status": "proved", "theorems": ["Cavc.C10_add_or_replace", "Cavc.C10_extend_remove_repeat", "Cavc.C10_create_from_remove_repeat"], "note": "all scalars"},
{"property": "C11", "status": "partial", "theorems": ["Cavc.C11_shape_partial", "Cavc.C11_lost_end_witness", "Cavc.C11_panic_witness", "Cavc.C11_open_arcs_partial", "Cavc.C11_closed_arcs_partial", "Cavc.C11_wrong_circle_witness", "Cavc.C11_open_lines_partial", "Cavc.C11_closed_lines_partial", "Cavc.C11_open_lines_same_points"], "note": "For every scalar and epsilon: never more vertexes, every position comes from the source, the closed flag is kept, open polylines never panic and closed ones can only fail by indexing. On polylines of lines and arcs over exact reals whose geometry the epsilon resolves (C11_open_arcs_partial, C11_closed_arcs_partial; the closed ones start with a line): only repeated vertexes, vertexes on a line between their neighbours and vertexes between two arcs of one circle are deleted, the result consists of the same points and no such vertex is left. The full statement is false of the code: C11_lost_end_witness, C11_panic_witness and C11_wrong_circle_witness."},
{"property": "C12", "status": "proved", "theorems": ["Cavc.C12_split_path", "Cavc.C12_none", "Cavc.C12_at_vertex", "Cavc.C12_split"], "note": "all scalars"},
{"property": "C13", "status": "proved", "theorems": ["Cavc.C13_closest_point", "Cavc.C13_nearest"], "note": "exact reals; index, point, distance, minimality and first-wins for every polyline; nearest over the whole path for lines and proper arcs"},
{"property": "C14", "status": "proved", "theorems": ["Cavc.C14_winding_number", "Cavc.C14_open"], "note": "At real numbers, closed polylines of lines and arcs of at most half a circle: winding_number times 2 pi is the total change of every continuous angle of the direction from the point to the curve, and such an angle exists. Open polylines: 0 for any number type."},
{"property": "C15", "status": "proved", "theorems": ["Cavc.C15_approx_lines", "Cavc.C15_error", "Cavc.C15_total", "Cavc.C15_single_closed_witness"], "note": "Over exact real arithmetic, lines and proper arcs, error distance > 0. A closed single vertex polyline becomes empty (C15_single_closed_witness)."},
{"property": "C16", "status": "proved", "theorems": ["Cavc.C16_find_point", "Cavc.C16_beyond", "Cavc.C16_not_positive", "Cavc.C16_empty_witness"], "note": "Over exact real arithmetic, nonempty polylines; the empty polyline panics (C16_empty_witness)."},
{"property": "C17", "status": "proved", "theorems": ["Cavc.C17_extents"], "note": "exact reals; lines and proper arcs with separated end points; each side is touched up to the code's angle tolerance"},
{"property": "C18", "status": "proved", "theorems": ["Cavc.C18_approx_index", "Cavc.C18_exact_index"], "note": "exact reals; the construction of the spatial index from the boxes is an external crate, taken as a parameter"},
{"property": "C19", "status": "proved", "theorems": ["Cavc.C19_view_get", "Cavc.C19_view_slice"], "note": "all scalars"},
{"property": "C20", "status": "proved", "theorems": ["Cavc.C20_entire"], "note": "all scalars"},
{"property": "C21", "status": "proved", "theorems": ["Cavc.C21_traces", "Cavc.C21_slice", "Cavc.C21_segment_end_witness"], "note": "all scalars (C21_slice); over the reals C21_traces: the view runs one for one along the part of the source between the two points. C21_segment_end_witness records the start = end = segment end case, where the view is the whole loop"},
{"property": "C22", "status": "proved", "theorems": ["Cavc.C22_new_start"], "note": "all scalars"},
{"property": "C23", "status": "proved", "theorems": ["Cavc.C23_inverted"], "note": "all scalars"},
{"property": "C24", "status": "partial", "theorems": ["Cavc.C24_crossing", "Cavc.C24_crossing_complete_partial", "Cavc.C24_false_sound", "Cavc.C24_apart", "Cavc.C24_collinear", "Cavc.C24_point_first", "Cavc.C24_point_second", "Cavc.C24_points", "Cavc.C24_short_crossing_witness"], "note": "exact reals. Segments that cross at more than the area tolerance: exact parameters, sound and complete; collinear, point and apart cases characterised. C24_short_crossing_witness shows short crossing segments are treated as collinear and get parameters of two different points, so the unrestricted statement is false."},
{"property": "C25", "status": "proved", "theorems": ["Cavc.C25_line_circle", "Cavc.C25_point"], "note": "exact reals; vertical lines or lines whose ends differ by at least the default epsilon in x; at the single boundary distance r + eps the reported points are within 2*eps of the circle"},
{"property": "C26", "status": "partial", "theorems": ["Cavc.C26_common_points", "Cavc.C26_tangent_partial", "Cavc.C26_tangent_witness"], "note": "exact reals. No-intersect, two-intersect and overlap answers are exact; tangent points are within eps of both circles unless one circle is inside the other. C26_tangent_witness shows a tangent point 70 units off both circles."},
{"property": "C27", "status": "partial", "theorems": ["Cavc.C27_arcs", "Cavc.C27_same_circle_partial", "Cavc.C27_exact", "Cavc.C27_order_arc", "Cavc.C27_order_line", "Cavc.C27_lines", "Cavc.C27_line_arc", "Cavc.C27_lines_complete", "Cavc.C27_wrong_touch_witness", "Cavc.C27_small_arc_witness"], "note": "Soundness of every reported point for line-line, line-arc (either order), arcs of different circles not nested, and arcs of one circle, with explicit tolerances; crossing lines also complete. For pairs of lines and arcs that cross clearly or are clear of each other the answer is exact (C27_exact); two points of a line and an arc come in the order of the second segment (C27_order_arc, C27_order_line). Missing: points inside the sweep test's area band (SweepClear), nested nearly-tangent circles, radii above 1e8*eps on one circle. C27_wrong_touch_witness proves that the code reports a point off both touching opposite-direction arcs, C27_small_arc_witness that arcs with r^2 < eps report points off the arc."},
{"property": "C28", "status": "proved", "theorems": ["Cavc.C28_split_line", "Cavc.C28_split_arc", "Cavc.C28_split_ends"], "note": "exact reals"},
{"property": "C29", "status": "proved", "theorems": ["Cavc.C29_radius_and_center"], "note": "exact reals"},
{"property": "C30", "status": "proved", "theorems": ["Cavc.C30_midpoint"], "note": "exact reals"},
{"property": "C31", "status": "proved", "theorems": ["Cavc.C31_tangent"], "note": "exact reals"},
{"property": "C32", "status": "partial", "theorems": ["Cavc.C32_line", "Cavc.C32_arc_partial", "Cavc.C32_arc_center", "Cavc.C32_off_segment_witness"], "note": "exact reals. Lines: on the segment, squared distance optimal up to 2e-8. Arcs: never farther than any point of the segment and on the circle; on the segment unless the query point is in the tolerance band. C32_off_segment_witness shows the returned point can be far off the segment inside that band, so the unrestricted statement is false."},
{"property": "C33", "status": "proved", "theorems": ["Cavc.C33_exact_box", "Cavc.C33_fast_box", "Cavc.C33_exact_in_fast", "Cavc.C33_tiny_arc"], "note": "exact reals; the exact box lies in the fast box up to the angle tolerance; arcs with nearly coincident ends get a one-point box and stay within 1.5e-8 of it (C33_tiny_arc)"},
{"property": "C34", "status": "proved", "theorems": ["Cavc.C34_normalize_radians", "Cavc.C34_delta_angle", "Cavc.C34_delta_angle_signed", "Cavc.C34_angle_is_between", "Cavc.C34_angle_is_within_sweep", "Cavc.C34_full_turn_witness"], "note": "exact reals; a full-turn input is a witness of a boundary disagreement"},
{"property": "C35", "status": "proved", "theorems": ["Cavc.C35_inverse", "Cavc.C35_odd", "Cavc.C35_half_circle"], "note": "exact reals"},
{"property": "C36", "status": "proved", "theorems": ["Cavc.C36_fuzzy_eq", "Cavc.C36_fuzzy_ord", "Cavc.C36_fuzzy_in_range"], "note": "exact reals"},
{"property": "C37", "status": "proved", "theorems": ["Cavc.C37_result", "Cavc.C37_no_repetition", "Cavc.C37_own_index", "Cavc.C37_boxes", "Cavc.C37_crossing", "Cavc.C37_lost_crossing_witness"], "note": "For every scalar type and every visiting order of the index: no panic, the reported set is characterised exactly by the segment intersects, no repetition; over the reals no pair with a common point is skipped and crossings of straight segments away from vertexes are reported. C37_lost_crossing_witness proves that a crossing within eps of a corner can be lost."},
{"property": "C38", "status": "proved", "theorems": ["Cavc.C38_visit", "Cavc.C38_indexes", "Cavc.C38_as_basic"], "note": "For every scalar type, visitor, control flow type, index order and include option: no panic, the exact list of reports delivered, each pair of segments without common vertex examined once, visiting stops at the first break and returns it."},
{"property": "C39", "status": "proved", "theorems": ["Cavc.C39_invalid", "Cavc.C39_info", "Cavc.C39_regions", "Cavc.C39_apart", "Cavc.C39_clear"], "note": "all scalars with a total totalCmp, any index that serves the first polyline; C39_regions is for any notion of region for which the reported relation is true; C39_apart proves over the real numbers that it is true of the regions by winding number when the polylines have no common point, so there the result is exactly the set operation; C39_clear states it with hypotheses on the inputs only: no common point and every two segments with meeting boxes clear of each other"},
{"property": "C40", "status": "proved", "theorems": ["Cavc.C40_assembled"], "note": "all scalars with a total totalCmp; every result polyline is the closed chain of its subslices, kept by the pass of the operation, none used twice"},
{"property": "C41", "status": "partial", "theorems": ["Cavc.C41_returns_partial", "Cavc.C41_only_reading", "Cavc.C41_panic_witness", "Cavc.C41_stitch"], "note": "stitching proved without guard for readable slices and every selector of the code; the whole boolean operation returns under NoEarlyReturn (inputs whose overlaps do not lead back to an earlier point); missing case is false: C41_panic_witness. Offset stitching: see C44"},
{"property": "C42", "status": "proved", "theorems": ["Cavc.C42_raw_straight", "Cavc.C42_raw_segs", "Cavc.C42_distance", "Cavc.C42_trivial"], "note": "Raw offset segments of every line and every proper arc (|bulge| at most 1) at real numbers: the offset segment runs parallel at the signed distance; collapsed arcs become lines between the moved end points; every point of a non-collapsed raw segment is at distance |offset| from the source point with the same parameter. C42_raw_straight gives the whole raw offset polyline of closed polylines of straight segments with clear corners."},
{"property": "C43", "status": "partial", "theorems": ["Cavc.C43_parallel_offset", "Cavc.C43_vertexes_clear_partial", "Cavc.C43_clear_distance", "Cavc.C43_distance_partial"], "note": "All scalars, all polylines and options: no panic, the slices kept are exactly those gaps between cut points whose vertexes, first and last midpoints and segments pass the tests; over the reals the tests mean the distance to every point of the input. Missing: when the raw offset polyline has no cut point at all the code tests only its first vertex, so nothing is proved about the other vertexes then. (For closed polylines in general position C60 and C66 cover that case too.)"},
{"property": "C44", "status": "proved", "theorems": ["Cavc.C44_nearest", "Cavc.C44_stitch", "Cavc.C44_single"], "note": "All scalars, slice lists and visiting orders of the index: no panic, every slice used exactly once, each next slice starts near the end of the one before (join boxes grown on both sides), closed iff the ends agree. C44_nearest adds which candidate is taken: the nearest ahead along the raw offset, and among ties one that does not lead back to the start of the chain. (The distance ahead of a slice that starts before the current one is counted with the number of vertexes less one, as in the code.)"},
{"property": "C45", "status": "proved", "theorems": ["Cavc.C45_from_plines", "Cavc.C45_partition", "Cavc.C45_index_visits"], "note": "every list of polylines, every lawful index; the index visits loops at points over the reals for lines and arcs with |bulge| <= 1 (C33)"},
{"property": "C46", "status": "proved", "theorems": ["Cavc.C46_codes", "Cavc.C46_causes", "Cavc.C46_internal", "Cavc.C46_safe_calls_are_defined", "Cavc.C46_null_first", "Cavc.C46_truncation_witness", "Cavc.C46_null_buffer_witness"], "note": "every call; documented causes of each code under vertex counts below 2^32 (Counts32). C46_truncation_witness: at 2^32 vertexes every position is reported out of range; C46_null_buffer_witness: set_vertex_data with null buffer and count 0 is undefined behaviour although create accepts it."},
{"property": "C47", "status": "proved", "theorems": ["Cavc.C47_step", "Cavc.C47_history", "Cavc.C47_read", "Cavc.C47_create", "Cavc.C47_clone", "Cavc.C47_clone_independent", "Cavc.C47_round_trip"], "note": "all histories of calls over a heap of live objects (bump allocator: addresses are not reused). Reading calls under vertex counts below 2^32."},
{"property": "C48", "status": "partial", "theorems": ["Cavc.C48_step", "Cavc.C48_history", "Cavc.C48_pop", "Cavc.C48_take", "Cavc.C48_free_once", "Cavc.C48_offset_results", "Cavc.C48_list_free_partial", "Cavc.C48_leak_witness"], "note": "ownership invariant over all histories of dutiful callers, pop, take, free once, offset results. The clause \"freeing a list frees what it owns\" is false: C48_leak_witness proves that the owned polylines stay allocated and unowned, contrary to the documentation."},
{"property": "C49", "status": "partial", "theorems": ["Cavc.C49_join", "Cavc.C49_range", "Cavc.C49_of_find", "Cavc.C49_early_return_witness", "Cavc.C49_traces_partial", "Cavc.C49_end_bulge_witness"], "note": "joining is complete for all collections (C49_join); the offset bound needs NoEarlyReturn, without it it is false: C49_early_return_witness; over the reals the slices trace the second polyline and cover what the overlaps cover (C49_traces_partial), except that an overlap which begins inside an arc may not continue another one, where it is false: C49_end_bulge_witness"},
{"property": "C50", "status": "partial", "theorems": ["Cavc.C50_total_partial", "Cavc.C50_last_witness", "Cavc.C50_find_point_witness"], "note": "Totality of the public polyline functions, offset, intersects and shape building over any number type; the exact panic condition of find_point_at_path_length; missing: remove_redundant of closed polylines can panic (C11_panic_witness) and last() underflows in debug builds (C50_last_witness). Boolean panics are characterised under C41."},
{"property": "C51", "status": "proved", "theorems": ["Cavc.C51_shape_offset", "Cavc.C51_kept_distance"], "note": "whole of Shape::parallel_offset, every shape with serving indexes; the exact panic condition (loop with fewer than two vertexes) is part of the theorem; distance over the reals is proved for the tested point of each kept part (C51_kept_distance), as in the code"},
{"property": "C52", "status": "proved", "theorems": ["Cavc.C52_edit"], "note": "Every editing call on every polyline, over any number type."},
{"property": "C53", "status": "proved", "theorems": ["Cavc.C53_vertex_iter", "Cavc.C53_segment_iter", "Cavc.C53_index_iter"], "note": "Every history of calls, over any number type."},
{"property": "C54", "status": "proved", "theorems": ["Cavc.C54_connected", "Cavc.C54_separated", "Cavc.C54_outside_extents", "Cavc.C54_invert", "Cavc.C54_translate", "Cavc.C54_scale", "Cavc.C54_rotate_vertex", "Cavc.C54_rotate_split"], "note": "real numbers, arcs of at most half a circle; C54_rotate_split: neither part of a divided arc is so short that its bulge counts as 0"},
{"property": "C55", "status": "proved", "theorems": ["Cavc.C55_quadratic_divisor", "Cavc.C55_quadratic", "Cavc.C55_rotate", "Cavc.C55_sides", "Cavc.C55_default_epsilon", "Cavc.C55_from_slice", "Cavc.C55_pline_fuzzy_eq"], "note": "real numbers; C55_from_slice over any number type"},
{"property": "C56", "status": "proved", "theorems": ["Cavc.C56_verdict", "Cavc.C56_accepted_reads", "Cavc.C56_open_wrap_witness", "Cavc.C56_near_accepted", "Cavc.C56_accepted_near"], "note": "C56_verdict and C56_accepted_reads over any number type; C56_near_accepted and C56_accepted_near over the reals. C56_open_wrap_witness: a view along the missing closing segment of an open polyline is accepted."},
{"property": "C57", "status": "partial", "theorems": ["Cavc.C57_polyline", "Cavc.C57_view_data_partial", "Cavc.C57_counted_witness", "Cavc.C57_vertex_length"], "note": "Missing: vectors and view data in formats with checked tuple lengths, where the code fails (C57_counted_witness)."},
{"property": "C58", "status": "proved", "theorems": ["Cavc.C58_exact_index", "Cavc.C58_defaults", "Cavc.C58_without_options", "Cavc.C58_init_is_null", "Cavc.C58_checked_first", "Cavc.C58_fields", "Cavc.C58_same_offset", "Cavc.C58_own_index"], "note": "any number type; C58_defaults, C58_without_options and C58_exact_index over the reals (the latter for lines and arcs of at most half a circle with ends apart)"},
{"property": "C59", "status": "proved", "theorems": ["Cavc.C59_simple", "Cavc.C59_region", "Cavc.C59_clear"], "note": "real numbers. C59_region takes as hypothesis that the common points of every pair of segments are reported exactly (FindsPairs); C59_clear derives it from the geometry for lines and arcs (ClearPair). Overlapping boundaries, crossings at vertexes and touching without crossing within eps are outside the hypotheses (CleanCrossing). C59_simple: for closed polylines of lines and arcs that do not touch themselves and cross clearly, nothing about winding numbers is assumed."},
{"property": "C60", "status": "proved", "theorems": ["Cavc.C60_offset_curve", "Cavc.C60_raw_points"], "note": "real numbers, options with handle_self_intersects off (the default). C60_offset_curve: a point is on a result of the whole computation if and only if it is a point of the parallel curve. General position is: corners with a clear turn (ClearTurn), a raw offset that passes no point twice except at its clean crossings (SelfCrossing, FindsSelf), no point on the parallel curves of both sides (OneSided), and tests on slices that are clear of the tolerances (ClearTests)."},
{"property": "C61", "status": "proved", "theorems": ["Cavc.C61_offset_closed", "Cavc.C61_offset_closed_arcs"], "note": "Real arithmetic; closed polylines in general position, default self intersect handling. C61_offset_closed: straight segments, shown on a polyline whose raw offset crosses itself. C61_offset_closed_arcs: lines and arcs, under the hypotheses of C66_parallel_exact, shown on a rectangle with a half disc on top."},
{"property": "C62", "status": "proved", "theorems": ["Cavc.C62_simple_winding", "Cavc.C62_same_side", "Cavc.C62_inside_one_side"], "note": "C62_simple_winding and C62_same_side for lines and arcs of at most half a circle; C62_inside_one_side (seen from the nearest point) for straight segments. Real arithmetic."},
{"property": "C63", "status": "proved", "theorems": ["Cavc.C63_offset_oriented", "Cavc.C63_offset_region", "Cavc.C63_offset_empty", "Cavc.C63_offset_region_arcs", "Cavc.C63_offset_empty_arcs", "Cavc.C63_offset_oriented_arcs"], "note": "Real arithmetic; closed polylines that pass every point once. C63_offset_region and C63_offset_empty: straight segments, in the general position of C60 and C61. C63_offset_region_arcs and C63_offset_empty_arcs: lines and arcs, under the hypotheses of C66_parallel_exact (OneSidedCurve is proved, not assumed). Shown on an offset to the inside whose raw offset crosses itself, on an offset to the outside with arcs, and on a rectangle with a half disc on top. C63_offset_oriented and C63_offset_oriented_arcs state it with the direction that orientation reports."},
{"property": "C64", "status": "proved", "theorems": ["Cavc.C64_area_winding", "Cavc.C64_area_region", "Cavc.C64_orientation", "Cavc.C64_simple", "Cavc.C64_boolean_area", "Cavc.C64_offset_area", "Cavc.C64_inside_left", "Cavc.C64_offset_area_arcs"], "note": "Real arithmetic. C64_area_winding and C64_area_region for all closed polylines of lines and arcs of at most half a circle; C64_simple and C64_inside_left for all simple closed polylines; C64_boolean_area under the hypotheses of C59, C64_offset_area under those of C63, C64_offset_area_arcs under those of C63_offset_region_arcs (lines and arcs)."},
{"property": "C65", "status": "proved", "theorems": ["Cavc.C65_raw", "Cavc.C65_points", "Cavc.C65_parallel", "Cavc.C65_near"], "note": "For closed polylines with no collapsed arc and clear corners (ClearOffset): createRawOffsetPolyline gives exactly the chain of parallel segments, cut or linked at the corners; its points; their distance from the polyline. Examples: a half disc inwards and outwards."},
{"property": "C66", "status": "proved", "theorems": ["Cavc.C66_offset_curve", "Cavc.C66_offset_parallel", "Cavc.C66_parallel_simple", "Cavc.C66_parallel_curve", "Cavc.C66_parallel_exact"], "note": "real numbers, options with handle_self_intersects off (the default). C66_offset_curve takes any raw offset that createRawOffsetPolyline returns; C66_offset_parallel spells it out with C65. C66_parallel_curve: the points of the results are exactly the parallel curve (ParallelPt, which does not mention the raw offset), if the corners are CleanCorners. Assumed of the geometry: clean self crossings (SelfCrossing, FindsSelf), tests clear of the tolerances (ClearTests, ReadableTests), and ChangesAtCrossings. C66_parallel_exact derives ChangesAtCrossings from OneSidedCurve, FreeCuts and CrossAtAngle. Examples: a rectangle with a half disc on top, and a polygon whose raw offset crosses itself. C66_parallel_simple: for polylines that pass every point once OneSidedCurve is not needed."},
{"property": "C67", "status": "proved", "theorems": ["Cavc.C67_joints"], "note": "all scalars with a total totalCmp; full account of the stitching rounds: which slices are possible at each joint, which one is taken (ties in the rank are open, as in the code), and why slices are left out"},
{"property": "C68", "status": "proved", "theorems": ["Cavc.C68_offset_open", "Cavc.C68_offset_parallel", "Cavc.C68_parallel_curve", "Cavc.C68_parallel_exact", "Cavc.C68_parallel_straight"], "note": "real numbers, open polylines. C68_offset_open takes any raw offsets that createRawOffsetPolyline returns for the offset and for its negative; C68_offset_parallel spells them out with C69. Assumed of the geometry: clean cuts (OpenCuts, FindsPath, FindsPairs, FindsCircle), tests clear of the tolerances (OpenTests), and ChangesAtCuts. Example: a hook of four lines whose raw offset is cut by the circle around its end. C68_parallel_straight: for straight segments clean corners are proved, not assumed."},
{"property": "C69", "status": "proved", "theorems": ["Cavc.C69_raw", "Cavc.C69_points", "Cavc.C69_parallel", "Cavc.C69_near"], "note": "For open polylines with no collapsed arc and clear corners (ClearPath): createRawOffsetPolyline gives exactly the chain of parallel segments, cut or linked at the corners; its points; their distance from the polyline. Examples: a hook to both sides, and a line followed by a half circle."},
{"property": "C70", "status": "proved", "theorems": ["Cavc.C70_option_same", "Cavc.C70_offset_self", "Cavc.C70_offset_parallel", "Cavc.C70_agree", "Cavc.C70_parallel_exact", "Cavc.C70_parallel_straight", "Cavc.C70_closed", "Cavc.C70_closed_simple", "Cavc.C70_closed_straight", "Cavc.C70_region", "Cavc.C70_empty", "Cavc.C70_area"], "note": "real numbers, closed polylines, handleSelfIntersects = true. C70_offset_self takes any raw offsets that createRawOffsetPolyline returns for the offset and for its negative; C70_offset_parallel spells them out with C65; C70_agree compares with C66. Assumed of the geometry: clean cuts, not exactly one (SelfCuts, FindsSelf, FindsPairs), tests clear of the tolerances (SelfTests), and SelfChanges; C70_parallel_exact derives SelfChanges from corners that are clean on both sides and cuts that are crossed at angles (LoopCutKind), and concludes that the results are exactly the parallel curve; C70_parallel_straight does it for straight polylines, where clean corners are proved. C70_closed: if the exact distance is kept on one side of the polyline only (OneSidedCurve), every result is closed, has at least two vertexes and no segment below the tolerance; C70_closed_simple proves OneSidedCurve for simple loops, C70_closed_straight is the straight case with no assumption on corners. C70_region, C70_empty, C70_area: for simple loops the results enclose exactly the points inside (or all but those outside) that are at least the offset away, and their areas add up to the area of that region. C70_option_same: for simple loops both settings of the option give the same points, the same sums of winding numbers and the same sum of areas. Examples: a coil that winds twice and crosses itself; a square; a room with a passage too narrow for the offset, whose raw offset crosses itself twice (it also serves C61, C63 and C66)."},
{"property": "C71", "status": "partial", "theorems": ["Cavc.C71_overlapping_partial", "Cavc.C71_lobe_witness", "Cavc.C71_same", "Cavc.C71_region"], "note": "C71_overlapping_partial: all scalars, exact condition on the overlaps found. C71_same and C71_region: real numbers, polylines of the same segments without partial overlaps of different segments (NoPartialOverlap); for the regions both do not touch themselves. Missing, because false: that inputs reported as overlapping have the same region (C71_lobe_witness, two figure-eight polylines with one lobe in common)."},
{"property": "C72", "status": "proved", "theorems": ["Cavc.C72_shape_curve", "Cavc.C72_shape_offset", "Cavc.C72_keeps_distance", "Cavc.C72_from_plines", "Cavc.C72_shape_exact"], "note": "real numbers, shapes of closed polylines. C72_shape_offset: the points of the result, for any offset loops that meet the hypotheses; C72_keeps_distance: the distance from all inputs. Assumed of the geometry: clean cuts, no loop cut exactly once (ShapeCuts, ShapeFinds), tests clear of the tolerances (ShapeTests), distance changes only at cuts with balance (ShapeChanges). C72_shape_curve: the points of the result without mention of the offset loops, and with ShapeChanges replaced by offset loops that cross at angles, two at a time (ShapeCross). C72_shape_exact: points and winding numbers of the result from conditions on the polylines of the shape and their single offsets (SinglesClear) and on the crossings of the offset loops (ShapeCuts, ShapeFinds, ShapeCross, ShapeTests) only. Example: the square island in a triangular bay, offset loops crossing twice (islet_offset, islet_curve, islet_exact). C72_from_plines: from a list of polylines in any order through from_plines, all in terms of these polylines."},
{"property": "C73", "status": "proved", "theorems": ["Cavc.C73_redundant_open", "Cavc.C73_redundant_closed", "Cavc.C73_rotate_vertex", "Cavc.C73_rotate_split"], "note": "real numbers. C73_redundant_open, C73_redundant_closed (with C11_open_arcs_partial, C11_closed_arcs_partial; closed polylines that start with a line, since after an arc at the start the code may compare with the wrong circle: C11_wrong_circle_witness); C73_rotate_vertex, C73_rotate_split (with C12). Assumed: the epsilon resolves positions, turns and circles (ResolvesArcs), segments are lines or proper arcs; for rotate_start no segment shorter than the default epsilon. Winding numbers after rotate_start: C54_rotate_vertex, C54_rotate_split."},
{"property": "C74", "status": "proved", "theorems": ["Cavc.C74_inward_orientation", "Cavc.C74_none_skipped", "Cavc.C74_region_cross", "Cavc.C74_area_cross", "Cavc.C74_loops_alongside", "Cavc.C74_shape_region", "Cavc.C74_shape_area", "Cavc.C74_offset_curve"], "note": "real numbers, shapes of closed polylines. C74_shape_region: the winding numbers of the result, for any shape and offset loops that meet the hypotheses of C72, with single offsets that are the parallel curves of the single polylines (Alongside) and do not touch themselves; C74_shape_area: the areas add up to the area of that region; C74_region_cross and C74_area_cross: the same with ShapeChanges replaced by offset loops that cross at angles, two at a time (ShapeCross); C74_offset_curve: the conditions of C66 under which the results of parallel_offset are such curves. C74_loops_alongside: the offset loops from one polyline are all that parallel_offset returns for it when none is turned over; C74_inward_orientation: offsets to the inside of a simple closed polyline keep its orientation; C74_none_skipped: so the offset of a shape skips none of the single offsets that are parallel curves. Assumed of the shape: polylines without common points and without crossings, whose winding numbers add up to one of two neighbouring values. All hypotheses are met by an island (a square) in a bay (a triangle) whose offset loops cross (islet_region), and by the house with the round roof (example)."},
{"property": "C75", "status": "proved", "theorems": ["Cavc.C75_offset_simple", "Cavc.C75_offset_each", "Cavc.C75_shape_simple", "Cavc.C75_shape_again"], "note": "real numbers, closed polylines of lines and arcs, without the self-intersection option. C75_offset_simple: the results; C75_offset_each: what follows for each of them. Assumed of the geometry as in C66: cuts clear of the tolerances (SelfCrossing, FindsSelf, ClearTests, ReadableTests), corners that are clean, crossings at angles. Example: the room with a narrow passage, whose raw offset crosses itself twice. C75_shape_simple: the polylines of the offset of a shape, under the conditions of C72_shape_curve; C75_shape_again: under those of C72_shape_exact the result meets the conditions on the shape again. Example: island and bay (islet_again)."},
{"property": "C76", "status": "proved", "theorems": ["Cavc.C76_offset_twice"], "note": "real numbers, shapes of closed polylines of lines and arcs. C76_offset_twice: same points, same winding numbers off them, same sum of areas. Assumed of the shape: SoundShape (what C75_shape_again proves of each result); of each of the three calls: ClearShape, the conditions of C72_shape_exact on crossings and tolerances; for the second call they are assumed of the result of the first. Example: triangles of any size, any two distances to the inside (wedge_twice)."},
{"property": "C77", "status": "proved", "theorems": ["Cavc.C77_nested", "Cavc.C77_apart"], "note": "real numbers, shapes of closed polylines of lines and arcs. C77_nested: winding numbers and areas; C77_apart: the distance between the two results, and that it is reached everywhere for offsets to the same side. Assumed: SoundShape of the shape, ClearShape of both calls (as in C76). Example: triangles of any size, any two distances to the inside (wedge_steps)."},
{"property": "C78", "status": "proved", "theorems": ["Cavc.C78_back"], "note": "real numbers, shapes of closed polylines of lines and arcs. C78_back: winding numbers, areas, and the points to which the shape returns. Assumed: SoundShape of the shape, ClearShape of both calls (as in C76), for the second call of the result of the first. Example: a square that gets round corners (box6_back)."},
{"property": "C79", "status": "proved", "theorems": ["Cavc.C79_offset_repeat"], "note": "real numbers, one closed polyline of lines and arcs that does not touch itself, offsets to the inside, options without an index (the code makes its own) and without handling of self-intersections. Assumed: ClearlyOffset of the first call, of the calls for its results, and of the call with the sum (as in C69). Example: triangles of any size, two distances (wedge_repeat)."},
{"property": "C80", "status": "proved", "theorems": ["Cavc.C80_passes", "Cavc.C80_step", "Cavc.C80_shape_passes"], "note": "real numbers, closed polylines of lines and arcs. C80_passes and C80_step: one polyline, passes to the inside, options without an index and without handling of self-intersections. C80_shape_passes: shapes, either side. Assumed: every call, and the call with the sum, is clear of the tolerances (ClearPasses, ClearShapePasses, as in C69 and C76). Examples: triangles of any size, any number of passes (wedge_passes, wedge_step, wedge_shape_passes)."},
{"property": "C81", "status": "proved", "theorems": ["Cavc.C81_empty", "Cavc.C81_passes_empty", "Cavc.C81_passes_end", "Cavc.C81_shape_empty"], "note": "real numbers, closed polylines of lines and arcs. C81_empty: one polyline; C81_passes_empty, C81_passes_end: any number of passes to the inside; C81_shape_empty: shapes, either side. The bound is stated for passes that leave something. Assumed: all calls are clear of the tolerances, as in C80. Examples: triangles of any size (wedge_room, wedge_end, wedge_shape_room), with results that are not empty."},
{"property": "C82", "status": "proved", "theorems": ["Cavc.C82_same_curve", "Cavc.C82_invert", "Cavc.C82_same_shape"], "note": "real numbers, closed polylines of lines and arcs. C82_same_curve: polylines, same or opposite direction; C82_invert: the polyline with its direction inverted; C82_same_shape: shapes. In C82_same_curve and C82_same_shape it is assumed that the two inputs have the same points and winding numbers (for rotate_start and remove_redundant the winding numbers are the subject of C54 and C73). Assumed: both calls are clear of the tolerances. Examples: triangles of any size with different indexes and tolerances for joining (wedge_same, wedge_same_shape) and in the opposite direction (wedge_gib)."},
{"property": "C83", "status": "proved", "theorems": ["Cavc.C83_shape_of_one"], "note": "real numbers, closed polylines of lines and arcs. The shape is the one returned by from_plines for the polyline. Assumed: both calls are clear of the tolerances (ClearlyOffset for the polyline, ClearShape for the shape). Examples: triangles of any size in both directions (wedge_of_one, gib_of_one)."}
]}
