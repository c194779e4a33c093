{
 "claims": [
  {
   "property": "C01",
   "status": "proved",
   "theorems": [
    "Cavc.C01_query_exact"
   ],
   "note": ""
  },
  {
   "property": "C02",
   "status": "proved",
   "theorems": [
    "Cavc.C02_visitQuery_prefix"
   ],
   "note": ""
  },
  {
   "property": "C03",
   "status": "proved",
   "theorems": [
    "Cavc.C03_no_fault",
    "Cavc.C03_overflow_above_range",
    "Cavc.C03_zero_items"
   ],
   "note": "in the range 1..2^24 no fault; above the range (2^24+1 items, node size 16) a heap overflow is proved"
  },
  {
   "property": "C04",
   "status": "proved",
   "theorems": [
    "Cavc.C04_sort"
   ],
   "note": ""
  },
  {
   "property": "C05",
   "status": "proved",
   "theorems": [
    "Cavc.C05_extents_exact",
    "Cavc.C05_visitItemBoxes",
    "Cavc.C05_visitBoundingBoxes"
   ],
   "note": ""
  },
  {
   "property": "C06",
   "status": "proved",
   "theorems": [
    "Cavc.C06_coord_range",
    "Cavc.C06_hilbert_defined",
    "Cavc.C06_zero_width"
   ],
   "note": "positive extents: defined and in range; zero width: undefined cast proved"
  },
  {
   "property": "C07",
   "status": "proved",
   "theorems": [
    "Cavc.C07_normalizeRadians",
    "Cavc.C07_deltaAngle"
   ],
   "note": ""
  },
  {
   "property": "C08",
   "status": "proved",
   "theorems": [
    "Cavc.C08_sweep_ccw",
    "Cavc.C08_sweep_cw",
    "Cavc.C08_full_turn_exception"
   ],
   "note": "exception at exactly one full turn above the start proved"
  },
  {
   "property": "C09",
   "status": "proved",
   "theorems": [
    "Cavc.C09_quadratic",
    "Cavc.C09_double_zero_root"
   ],
   "note": ""
  },
  {
   "property": "C10",
   "status": "proved",
   "theorems": [
    "Cavc.C10_arcRadiusAndCenter"
   ],
   "note": ""
  },
  {
   "property": "C11",
   "status": "proved",
   "theorems": [
    "Cavc.C11_split_arc",
    "Cavc.C11_split_path",
    "Cavc.C11_split_ends"
   ],
   "note": ""
  },
  {
   "property": "C12",
   "status": "proved",
   "theorems": [
    "Cavc.C12_bbox_contains"
   ],
   "note": ""
  },
  {
   "property": "C13",
   "status": "proved",
   "theorems": [
    "Cavc.C13_closestPointOnLineSeg"
   ],
   "note": ""
  },
  {
   "property": "C14",
   "status": "proved",
   "theorems": [
    "Cavc.C14_closestPointOnSeg",
    "Cavc.C14_off_arc_witness"
   ],
   "note": "off-arc result inside the tolerance band proved by witness"
  },
  {
   "property": "C15",
   "status": "proved",
   "theorems": [
    "Cavc.C15_segLength"
   ],
   "note": ""
  },
  {
   "property": "C16",
   "status": "proved",
   "theorems": [
    "Cavc.C16_segMidpoint"
   ],
   "note": ""
  },
  {
   "property": "C17",
   "status": "proved",
   "theorems": [
    "Cavc.C17_segTangentVector"
   ],
   "note": ""
  },
  {
   "property": "C18",
   "status": "proved",
   "theorems": [
    "Cavc.C18_crossing",
    "Cavc.C18_complete",
    "Cavc.C18_sound",
    "Cavc.C18_collinear"
   ],
   "note": ""
  },
  {
   "property": "C19",
   "status": "proved",
   "theorems": [
    "Cavc.C19_line_circle",
    "Cavc.C19_short_segment_missed",
    "Cavc.C19_false_tangent"
   ],
   "note": "short segments that miss a crossing and a false tangent a tenth of the radius off are proved as witnesses"
  },
  {
   "property": "C20",
   "status": "proved",
   "theorems": [
    "Cavc.C20_circle_circle",
    "Cavc.C20_near_coincident_witness"
   ],
   "note": "near coincident circles with a reported point 100 units off are proved as a witness"
  },
  {
   "property": "C21",
   "status": "proved",
   "theorems": [
    "Cavc.C21_getArea",
    "Cavc.C21_open"
   ],
   "note": ""
  },
  {
   "property": "C22",
   "status": "proved",
   "theorems": [
    "Cavc.C22_translate",
    "Cavc.C22_scale",
    "Cavc.C22_invert"
   ],
   "note": ""
  },
  {
   "property": "C23",
   "status": "proved",
   "theorems": [
    "Cavc.C23_getPathLength",
    "Cavc.C23_translate",
    "Cavc.C23_invert",
    "Cavc.C23_scale"
   ],
   "note": "arcs of at most a half circle; scaling exact when no segment is below the 1e-8 cut"
  },
  {
   "property": "C24",
   "status": "proved",
   "theorems": [
    "Cavc.C24_getExtents",
    "Cavc.C24_small",
    "Cavc.C24_open_witness"
   ],
   "note": "closed, or open with a final arc; counterexample for open polylines that end in a line proved"
  },
  {
   "property": "C25",
   "status": "proved",
   "theorems": [
    "Cavc.C25_getWindingNumber"
   ],
   "note": "lines and arcs of at most a half circle"
  },
  {
   "property": "C26",
   "status": "proved",
   "theorems": [
    "Cavc.C26_trivial",
    "Cavc.C26_invert",
    "Cavc.C26_translate"
   ],
   "note": ""
  },
  {
   "property": "C27",
   "status": "proved",
   "theorems": [
    "Cavc.C27_closestPoint",
    "Cavc.C27_small"
   ],
   "note": ""
  },
  {
   "property": "C28",
   "status": "proved",
   "theorems": [
    "Cavc.C28_invertDirection",
    "Cavc.C28_involution",
    "Cavc.C28_same_points"
   ],
   "note": ""
  },
  {
   "property": "C29",
   "status": "proved",
   "theorems": [
    "Cavc.C29_prune",
    "Cavc.C29_unchanged",
    "Cavc.C29_closing_witness"
   ],
   "note": "counterexample for the closing pair proved"
  },
  {
   "property": "C30",
   "status": "proved",
   "theorems": [
    "Cavc.C30_convertArcsToLines",
    "Cavc.C30_empty_witness"
   ],
   "note": "positive error"
  },
  {
   "property": "C31",
   "status": "proved",
   "theorems": [
    "Cavc.C31_visitSegIndices",
    "Cavc.C31_too_small"
   ],
   "note": ""
  },
  {
   "property": "C32",
   "status": "proved",
   "theorems": [
    "Cavc.C32_createApproxSpatialIndex",
    "Cavc.C32_too_small",
    "Cavc.C32_area"
   ],
   "note": "1 to 2^24 segments, not degenerate beyond 16 segments; C32_area: closed polylines with an area are not degenerate"
  },
  {
   "property": "C33",
   "status": "proved",
   "theorems": [
    "Cavc.C33_findIntersects",
    "Cavc.C33_common_point_close",
    "Cavc.C33_complete",
    "Cavc.C33_first_vertex_witness"
   ],
   "note": "1 to 2^24 segments, arcs of at most a half circle with distinct ends; counterexample at the first vertex of open polylines proved"
  },
  {
   "property": "C34",
   "status": "proved",
   "theorems": [
    "Cavc.C34_globalSelfIntersects",
    "Cavc.C34_complete"
   ],
   "note": "1 to 2^24 segments, arcs of at most a half circle with distinct ends"
  },
  {
   "property": "C35",
   "status": "proved",
   "theorems": [
    "Cavc.C35_localSelfIntersects",
    "Cavc.C35_small",
    "Cavc.C35_small_overlap",
    "Cavc.C35_small_witness",
    "Cavc.C35_singular_arc_witness"
   ],
   "note": "arcs of at most a half circle with distinct ends; counterexamples proved for repeated vertexes that start an arc and for two almost straight segments"
  },
  {
   "property": "C36",
   "status": "proved",
   "theorems": [
    "Cavc.C36_sortAndjoinCoincidentSlices",
    "Cavc.C36_bulge_witness"
   ],
   "note": "arcs of at most a half circle with distinct ends; counterexample proved: the slice of an arc overlap that ends before the arc need not follow the arc"
  },
  {
   "property": "C37",
   "status": "proved",
   "theorems": [
    "Cavc.C37_createUntrimmedOffsetSegments",
    "Cavc.C37_normal_exists",
    "Cavc.C37_distance",
    "Cavc.C37_repeat_witness"
   ],
   "note": "no repeated vertexes; counterexample for repeated vertexes proved"
  },
  {
   "property": "C38",
   "status": "proved",
   "theorems": [
    "Cavc.C38_bulgeForConnection",
    "Cavc.C38_connection_center",
    "Cavc.C38_line_to_line",
    "Cavc.C38_line_to_arc",
    "Cavc.C38_arc_to_line",
    "Cavc.C38_arc_to_arc",
    "Cavc.C38_line_to_line_raw",
    "Cavc.C38_rawOffset",
    "Cavc.C38_createRawOffsetPline",
    "Cavc.C38_near_collapse_witness"
   ],
   "note": "decision tables for all four kinds of corners, exact sweep of trimmed arcs, the raw offset as the sequence of the joins (C38_rawOffset); bounds and absence of other faults for all joins; near-collapsed arc assertion failure proved as a witness"
  },
  {
   "property": "C39",
   "status": "proved",
   "theorems": [
    "Cavc.C39_pointValidForOffset",
    "Cavc.C39_small_offset_witness"
   ],
   "note": "both directions for a point and any offset with tolerance <= |offset|; the exact case distinction of closestPointOnSeg is C13/C14; witness for offsets below the tolerance"
  },
  {
   "property": "C40",
   "status": "proved",
   "theorems": [
    "Cavc.C40_stitchOffsetSlicesTogether",
    "Cavc.C40_domain",
    "Cavc.C40_small",
    "Cavc.C40_single_vertex_witness"
   ],
   "note": "at least two slices in C40_stitchOffsetSlicesTogether, fewer in C40_small; domain of the spatial index discharged in C40_domain"
  },
  {
   "property": "C41",
   "status": "proved",
   "theorems": [
    "Cavc.C41_small",
    "Cavc.C41_shape"
   ],
   "note": "shape theorems are for runs that return (the faults of the raw offset stage are C38's); fewer than two vertexes in C41_small"
  },
  {
   "property": "C42",
   "status": "proved",
   "theorems": [
    "Cavc.C42_nested_rectangles",
    "Cavc.C42_rectangles_apart",
    "Cavc.C42_table",
    "Cavc.C42_boolean"
   ],
   "note": "the region statement takes nesting or disjointness of the regions away from the boundary as a hypothesis (a topological fact about the input); for rectangles it is discharged"
  },
  {
   "property": "C43",
   "status": "proved",
   "theorems": [
    "Cavc.C43_combinePolylines",
    "Cavc.C43_arcs",
    "Cavc.C43_polygons",
    "Cavc.C43_too_small"
   ],
   "note": "whole run of the model; no fault for polygons (C43_polygons) and for arcs with intersects apart from their ends (C43_arcs)"
  },
  {
   "property": "C44",
   "status": "proved",
   "theorems": [
    "Cavc.C44_stitchOrderedSlices",
    "Cavc.C44_domain"
   ],
   "note": ""
  },
  {
   "property": "C45",
   "status": "proved",
   "theorems": [
    "Cavc.C45_unionSelector",
    "Cavc.C45_excludeSelector",
    "Cavc.C45_no_coincident_pair"
   ],
   "note": ""
  },
  {
   "property": "C46",
   "status": "proved",
   "theorems": [
    "Cavc.C46_ownership",
    "Cavc.C46_permitted_calls",
    "Cavc.C46_no_leak",
    "Cavc.C46_frame",
    "Cavc.C46_new_handle",
    "Cavc.C46_double_delete_witness"
   ],
   "note": "Histories of permitted calls of every C API function, for every allocator (including reuse of freed addresses and failing allocation): handles valid exactly as booked, no invalid use, no double ownership, no leak, frame."
  },
  {
   "property": "C47",
   "status": "proved",
   "theorems": [
    "Cavc.C47_new",
    "Cavc.C47_new_null",
    "Cavc.C47_read",
    "Cavc.C47_set_vertex_data",
    "Cavc.C47_round_trip",
    "Cavc.C47_add_vertex",
    "Cavc.C47_set_is_closed",
    "Cavc.C47_clear",
    "Cavc.C47_capacity",
    "Cavc.C47_list",
    "Cavc.C47_queries"
   ],
   "note": "Functional effect of every accessor, round trip through vertex arrays, capacity rules, list functions, queries."
  },
  {
   "property": "C48",
   "status": "proved",
   "theorems": [
    "Cavc.C48_remove_range",
    "Cavc.C48_out_of_range",
    "Cavc.C48_wrap_witness"
   ],
   "note": "Exact removal for valid ranges; complete description of invalid ranges; witness for the 32 bit wrap-around of the check."
  },
  {
   "property": "C49",
   "status": "proved",
   "theorems": [
    "Cavc.C49_parallel_offset",
    "Cavc.C49_combine",
    "Cavc.C49_invalid_mode",
    "Cavc.C49_invalid_mode_witness"
   ],
   "note": "Mode table, flag 0x1, outputs hold exactly the library's results; invalid modes with and without assertions (witness for the mismatch with the documentation)."
  },
  {
   "property": "C50",
   "status": "proved",
   "theorems": [
    "Cavc.C50_line_arc_sound",
    "Cavc.C50_line_arc_complete",
    "Cavc.C50_arc_arc",
    "Cavc.C50_exact",
    "Cavc.C50_same_circle",
    "Cavc.C50_line_line",
    "Cavc.C50_no_fault",
    "Cavc.C50_opposite_direction_witness"
   ],
   "note": "for coincident arcs of opposite direction the property fails: proved by witness"
  },
  {
   "property": "C51",
   "status": "proved",
   "theorems": [
    "Cavc.C51_parallelOffset_distance",
    "Cavc.C51_dual_distance",
    "Cavc.C51_slice_loop_bound",
    "Cavc.C51_first_slice_loop_bound"
   ],
   "note": "partial correctness: for runs that return; the two unvalidated places of the code are part of the statement"
  },
  {
   "property": "C52",
   "status": "proved",
   "theorems": [
    "Cavc.C52_rectangle",
    "Cavc.C52_rectangle_collapse",
    "Cavc.C52_outward",
    "Cavc.C52_outward_clockwise",
    "Cavc.C52_segment"
   ],
   "note": "full run of the model on rectangles: to the inside, including the collapse, and to the outside, with rounded corners and in both directions; and on segments in any direction"
  },
  {
   "property": "C53",
   "status": "proved",
   "theorems": [
    "Cavc.C53_islands_loops",
    "Cavc.C53_rectangle",
    "Cavc.C53_two_rectangles"
   ],
   "note": "Partial correctness: for every run that returns. C53_rectangle is an exact run."
  },
  {
   "property": "C54",
   "status": "proved",
   "theorems": [
    "Cavc.C54_islands_distance"
   ],
   "note": "Same points as the code tests: first vertex of untouched loops, midpoint of the last segment of slices."
  },
  {
   "property": "C55",
   "status": "proved",
   "theorems": [
    "Cavc.C55_islands"
   ],
   "note": "conditional on the call returning (faults of the parallel offset are described in C41/DESIGN 6); stitched pieces described for up to 2^24 of them"
  },
  {
   "property": "C56",
   "status": "proved",
   "theorems": [
    "Cavc.C56_slice_points"
   ],
   "note": ""
  },
  {
   "property": "C57",
   "status": "proved",
   "theorems": [
    "Cavc.C57_combinePolylines",
    "Cavc.C57_side"
   ],
   "note": "Complete characterisation of every run that returns (C43 says when it does); the side is the one of the midpoint of the last segment of the piece, as in the code."
  },
  {
   "property": "C58",
   "status": "proved",
   "theorems": [
    "Cavc.C58_combinePolylines",
    "Cavc.C58_simple_polygons"
   ],
   "note": "Polygons (straight segments) in general position in the exact-real model; touching, overlapping or nearly touching polygons and arcs are outside its hypotheses (C57 says for those what pieces are put together). Even-odd rule for all modes; x off both boundaries."
  },
  {
   "property": "C59",
   "status": "proved",
   "theorems": [
    "Cavc.C59_parallelOffset",
    "Cavc.C59_parallelOffset_dual",
    "Cavc.C59_nothing_left"
   ],
   "note": "Complete characterisation of every run that returns, for raw offset polylines in the domain of the intersect functions (PlineOk: no degenerate arcs; Indexable). The distance test is the one of property C39 (closest point of every segment whose box reaches into the square). For open polylines with two or more pieces the stitching part assumes that each has two vertexes, as in C40."
  },
  {
   "property": "C60",
   "status": "proved",
   "theorems": [
    "Cavc.C60_simple",
    "Cavc.C60_goes_once",
    "Cavc.C60_jordan"
   ],
   "note": "Straight segments only (SimplePolygon in Spec/Simple.lean); exact reals. The inside is that of Spec.Inside (winding number of the path not zero). C60_jordan is the Jordan curve theorem for them."
  },
  {
   "property": "C61",
   "status": "proved",
   "theorems": [
    "Cavc.C61_area_integral"
   ],
   "note": "All closed polylines with PlineOk (bulges of at most 1, ends of arcs at least 1e-8 apart), self-intersecting or not; Lebesgue integral over the plane."
  },
  {
   "property": "C62",
   "status": "proved",
   "theorems": [
    "Cavc.C62_raw",
    "Cavc.C62_level"
   ],
   "note": "Straight segments only; hypothesis ClearOffset (Spec/OffsetPolygon.lean) says that the tolerances 1e-8 and 1e-5 of the joins do not decide anything for this polygon and offset; exact reals. The raw offset before it is sliced; what the slicing keeps is C59."
  },
  {
   "property": "C63",
   "status": "proved",
   "theorems": [
    "Cavc.C63_all_or_nothing",
    "Cavc.C63_uncut"
   ],
   "note": "all-or-nothing along the raw offset of a simple polygon (C63_all_or_nothing), by a closed-cover argument over the parts of the raw offset; and the result when nothing has to be cut (C63_uncut). The hypothesis that the raw offset passes no point twice is a geometric one, and that the search finds no self intersects is a separate hypothesis (C34, C35, C50 say what it finds). With cuts, C59 says which pieces are kept."
  },
  {
   "property": "C64",
   "status": "proved",
   "theorems": [
    "Cavc.C64_kept_pieces",
    "Cavc.C64_parallelOffset",
    "Cavc.C64_clear_meets",
    "Cavc.C64_plain"
   ],
   "note": "for simple polygons: the kept pieces (C64_kept_pieces) and the whole function including that it returns (C64_parallelOffset); that the self intersects found are exact is the hypothesis ExactCuts (C34, C35, C50 say what is found), that no part of the exact offset is reported to meet the polygon is ClearMeets, which follows from plain sizes (C64_clear_meets, C64_plain: offset at least 1/100, edges at least 1/10 and at most a million offsets long, vertical or 1e-4 to the side). A square with a cut corner meets all hypotheses (OffsetChamfer). The exceptions (Shallow, ShortLoop) are whole parts from a cut to the next one (CutPiece), so that they do not cover more than what the code keeps or drops."
  },
  {
   "property": "C65",
   "status": "proved",
   "theorems": [
    "Cavc.C65_parallelOffset",
    "Cavc.C65_parallelOffset_dual"
   ],
   "note": "C65_parallelOffset for closed polylines, C65_parallelOffset_dual for open ones and for those marked as self intersecting; hypotheses on the raw offset polyline that the code computes: Indexable, LongArcs, number of cuts. The assertion that fails without 'no arc nearly collapses' is C38; an example with a loop that is cut off and an open one are in OffsetChamfer."
  },
  {
   "property": "C66",
   "status": "proved",
   "theorems": [
    "Cavc.C66_islands_total",
    "Cavc.C66_islands_arcs"
   ],
   "note": "C66_islands_total, and C66_islands_arcs without the condition on the ends of arcs; the bound of 1000 vertexes keeps the number of slices below 2^24. The hypotheses are met by two overlapping rectangles (example)."
  },
  {
   "property": "C67",
   "status": "proved",
   "theorems": [
    "Cavc.C67_area",
    "Cavc.C67_inclusion_exclusion"
   ],
   "note": "C67_area and C67_inclusion_exclusion; the measure is Lebesgue measure of the plane. Straight segments, general position (Spec/Region.lean), exact reals."
  },
  {
   "property": "C68",
   "status": "proved",
   "theorems": [
    "Cavc.C68_combinePolylines",
    "Cavc.C68_directions"
   ],
   "note": "C68_combinePolylines and C68_directions. Straight segments, general position (Spec/Region.lean), SimplePolygon (Spec/Simple.lean), exact reals. For the symmetric difference two polygons may have crossing points in common."
  },
  {
   "property": "C69",
   "status": "proved",
   "theorems": [
    "Cavc.C69_curve",
    "Cavc.C69_space_filling",
    "Cavc.C69_order"
   ],
   "note": "the bit-parallel code is proved equal to the recursive Hilbert curve (Spec.hilbert); the order is that of visitItemBoxes"
  },
  {
   "property": "C70",
   "status": "proved",
   "theorems": [
    "Cavc.C70_connected",
    "Cavc.C70_beyond",
    "Cavc.C70_unbounded",
    "Cavc.C70_crossing"
   ],
   "note": "the set is a subset of the plane as pairs of numbers; connected is Mathlib IsPreconnected"
  },
  {
   "property": "C71",
   "status": "proved",
   "theorems": [
    "Cavc.C71_combinePolylines",
    "Cavc.C71_simple"
   ],
   "note": "Lines and arcs of at most a half circle in the exact-real model; touching, overlapping or nearly touching polylines are outside its hypotheses (C57 says for those what pieces are put together). ArcEndsApart: no known point within 1e-4 of the end of an arc without being it. Worked example: a disc and a rectangle."
  },
  {
   "property": "C72",
   "status": "proved",
   "theorems": [
    "Cavc.C72_simple",
    "Cavc.C72_goes_once",
    "Cavc.C72_jordan"
   ],
   "note": "Lines and arcs of at most a half circle, every segment at least 1e-8 long in a coordinate (SimpleCurve in Spec/Simple.lean); exact reals. The inside is that of Spec.Inside (winding number of the path not zero). C72_jordan is the Jordan curve theorem for them; C71_simple uses it to drop the hypotheses of C71 about directions."
  },
  {
   "property": "C73",
   "status": "proved",
   "theorems": [
    "Cavc.C73_combinePolylines",
    "Cavc.C73_directions",
    "Cavc.C73_area",
    "Cavc.C73_inclusion_exclusion"
   ],
   "note": "C67 and C68 for polylines with arcs. SimpleCurve (Spec/Simple.lean): arcs of at most a half circle, no segment shorter than 1e-8; CleanMeet (Spec/ArcRegion.lean): crossings are clear and apart by more than the tolerances; ArcEndsApart as in C43_arcs; exact reals. For the symmetric difference two polylines may have crossing points in common, and C73_directions says which go like A."
  },
  {
   "property": "C74",
   "status": "proved",
   "theorems": [
    "Cavc.C74_inward",
    "Cavc.C74_outward",
    "Cavc.C74_parallelOffset",
    "Cavc.C74_uncut",
    "Cavc.C74_area"
   ],
   "note": "C74_parallelOffset (cut raw offset, includes that the function returns), C74_uncut (raw offset that does not meet itself), C74_area (areas), C74_inward and C74_outward (each single polyline, and how they lie to each other; GoodOffset collects the hypotheses of the first two). Hypotheses besides those of C64: no Shallow piece and no ShortLoop. A square offset inwards (uncut) and a square with a cut corner (cut, with a dropped loop) meet all hypotheses. Polygons only (no arcs in the input; the result may have arcs); exact reals."
  },
  {
   "property": "C75",
   "status": "proved",
   "theorems": [
    "Cavc.C75_islands"
   ],
   "note": "C75_islands. The tolerances not mattering is GoodOffset for each input loop (the hypotheses of C74) and CleanLoops for the offset loops and where they meet (cuts inside of segments and apart; every place where an offset loop is at the distance of the offset from another input loop, and nowhere closer to any, is a cut; no kept piece that is closer than the offset by less than 1e-4). Two squares side by side meet all hypotheses (example). Polygons as input only; exact reals."
  },
  {
   "property": "C76",
   "status": "proved",
   "theorems": [
    "Cavc.C76_raw",
    "Cavc.C76_all_or_nothing",
    "Cavc.C76_parallelOffset",
    "Cavc.C76_both",
    "Cavc.C76_uncut"
   ],
   "note": "C76_raw and C76_all_or_nothing need only ClearOffset (the tolerances of the joins decide nothing); C76_parallelOffset and C76_both (cut raw offsets, includes that the function returns) assume that the intersects found are exact (CutsAt; C33, C34, C35, C50 say what is found) and ClearMeets (which follows from plain sizes, C64_clear_meets); C76_uncut is the case without intersects. Parts between cuts that are too close by at most 1e-4 are not dropped by the code (ShallowPiece). Closed polylines of lines; the result may have arcs; exact reals. A polygon of four vertexes that crosses itself meets all hypotheses, on both sides (Props/OffsetBowtie.lean)."
  },
  {
   "property": "C77",
   "status": "proved",
   "theorems": [
    "Cavc.C77_nested",
    "Cavc.C77_areas",
    "Cavc.C77_same_points"
   ],
   "note": "Simple polygons of lines at good offsets (GoodOffset: the numeric tolerances do not matter, as in C64); the default path (no hasSelfIntersects). Both sides, all pairs of distances; regions via C74."
  },
  {
   "property": "C78",
   "status": "proved",
   "theorems": [
    "Cavc.C78_same_segs",
    "Cavc.C78_rotated",
    "Cavc.C78_polygons",
    "Cavc.C78_inverted"
   ],
   "note": "C78_same_segs from the segments alone; C78_rotated for curves with arcs started at another vertex; C78_polygons and C78_inverted for polygons of lines in any direction."
  },
  {
   "property": "C79",
   "status": "proved",
   "theorems": [
    "Cavc.C79_inverted",
    "Cavc.C79_same_points",
    "Cavc.C79_both_orders",
    "Cavc.C79_rotated"
   ],
   "note": "Simple curves with arcs under CleanMeet (the tolerances do not matter) and ArcEndsApart, as in C73. ArcEndsApart is assumed for both orders. C79_inverted: A, B or both in the other direction; crossing clearly carries over to the inverted polylines."
  },
  {
   "property": "C80",
   "status": "proved",
   "theorems": [
    "Cavc.C80_circle",
    "Cavc.C80_circle_twice",
    "Cavc.C80_inverted",
    "Cavc.C80_rounded",
    "Cavc.C80_parallel",
    "Cavc.C80_parallel_simple",
    "Cavc.C80_start"
   ],
   "note": "C80_parallel with the self intersects of the parallel curve (property C34/C35) assumed none; C80_parallel_simple derives that from KeepsApart, a condition on the curve; C80_circle and C80_circle_twice for all circles of two half arcs; C80_rounded for all axis-parallel rectangles with rounded corners. The distance test of the code is made at the first vertex only, so the theorem needs the distance only there. C80_start and C80_inverted: written down from any vertex, and in the other direction."
  },
  {
   "property": "C81",
   "status": "proved",
   "theorems": [
    "Cavc.C81_rounded_area",
    "Cavc.C81_parallel",
    "Cavc.C81_offset",
    "Cavc.C81_rounded"
   ],
   "note": "C81_parallel for a curve and its parallel curve; C81_offset for the results of parallelOffset (with the self intersects of the parallel curve assumed none as in C80_parallel); C81_rounded unconditional for rectangles with rounded corners, where the total turn is 2 pi, C81_rounded_area (area of rectangles with rounded corners)."
  },
  {
   "property": "C82",
   "status": "proved",
   "theorems": [
    "Cavc.C82_islands_apart",
    "Cavc.C82_smooth",
    "Cavc.C82_circles"
   ],
   "note": "C82_islands_apart for all loops whose offsets report no intersects with each other; C82_circles unconditional for circles with room between them (count up to 2^24); C82_smooth (curves without corners; SmoothLoop, NeverMeet)."
  },
  {
   "property": "C83",
   "status": "proved",
   "theorems": [
    "Cavc.C83_points",
    "Cavc.C83_winding",
    "Cavc.C83_inside",
    "Cavc.C83_simple",
    "Cavc.C83_measures",
    "Cavc.C83_closest",
    "Cavc.C83_combine",
    "Cavc.C83_regions",
    "Cavc.C83_cross"
   ],
   "note": "C83_points, C83_simple, C83_winding, C83_inside, C83_measures, C83_closest (unless the point is within 1e-8 of the center, where the code returns a vertex), C83_combine, C83_regions (1e-4 of room between the circles), C83_cross (circles that cross: CrossClearly)."
  },
  {
   "property": "C84",
   "status": "proved",
   "theorems": [
    "Cavc.C84_symm",
    "Cavc.C84_trans",
    "Cavc.C84_back",
    "Cavc.C84_twice",
    "Cavc.C84_rounded",
    "Cavc.C84_rounded_twice"
   ],
   "note": "C84_symm, C84_trans (parallel curves), C84_back, C84_twice (parallelOffset, conditions Roomy and Collapses), C84_rounded, C84_rounded_twice (rectangles with rounded corners)."
  }
 ]
}