{
 "claims": [
  {
   "property": "C01",
   "status": "proved",
   "theorems": [
    "Verif.Properties.Set90.C01_boolean_operators",
    "Verif.Properties.Set90.C01_operator_assignments",
    "Verif.Properties.Set90.C01_expressions"
   ],
   "note": ""
  },
  {
   "property": "C02",
   "status": "proved",
   "theorems": [
    "Verif.Properties.Set90.C02_reachable_is_valid",
    "Verif.Properties.Set90.C02_clean_defined",
    "Verif.Properties.Set90.C02_binary_defined"
   ],
   "note": ""
  },
  {
   "property": "C03",
   "status": "proved",
   "theorems": [
    "Verif.Properties.Set90.C03_clean"
   ],
   "note": ""
  },
  {
   "property": "C04",
   "status": "proved",
   "theorems": [
    "Verif.Properties.Set90.C04_equality",
    "Verif.Properties.Set90.C04_orientation_matters"
   ],
   "note": ""
  },
  {
   "property": "C05",
   "status": "proved",
   "theorems": [
    "Verif.Properties.Set90.C05_clean_idempotent",
    "Verif.Properties.Set90.C05_or_commutes",
    "Verif.Properties.Set90.C05_and_xor_commute",
    "Verif.Properties.Set90.C05_idempotence",
    "Verif.Properties.Set90.C05_associativity",
    "Verif.Properties.Set90.C05_distributivity",
    "Verif.Properties.Set90.C05_de_morgan"
   ],
   "note": ""
  },
  {
   "property": "C06",
   "status": "proved",
   "theorems": [
    "Verif.Properties.Set90.C06_self_xor",
    "Verif.Properties.Set90.C06_self_intersect"
   ],
   "note": ""
  },
  {
   "property": "C07",
   "status": "proved",
   "theorems": [
    "Verif.Properties.Set90.C07_insert_rectangle",
    "Verif.Properties.Set90.C07_insert_set",
    "Verif.Properties.Set90.C07_insert_vertex",
    "Verif.Properties.Set90.C07_insert_edge"
   ],
   "note": ""
  },
  {
   "property": "C08",
   "status": "partial",
   "theorems": [
    "Verif.Properties.Polygon.C08_insert_signed",
    "Verif.Properties.Polygon.C08_insert_polygon_partial",
    "Verif.Properties.Polygon.C08_direction_and_start_partial",
    "Verif.Properties.Polygon.C08_closing_vertex",
    "Verif.Properties.Polygon.C08_insert_valid",
    "Verif.Properties.Polygon.C08_degenerate",
    "Verif.Properties.Polygon.C08_insert_with_holes_partial",
    "Verif.Properties.Polygon.C08_zero_area_violated",
    "Verif.Properties.Polygon.C08_repeated_vertex_violated"
   ],
   "note": "proved for polygons whose winding number does not change sign (one orientation of traversal); polygons with zero signed area or a vertex repeated three times are shown to be inserted wrongly."
  },
  {
   "property": "C09",
   "status": "proved",
   "theorems": [
    "Verif.Properties.Set90.C09_transform",
    "Verif.Properties.Set90.C09_axis_transform"
   ],
   "note": ""
  },
  {
   "property": "C10",
   "status": "proved",
   "theorems": [
    "Verif.Properties.Set90.C10_move",
    "Verif.Properties.Set90.C10_scale_up"
   ],
   "note": ""
  },
  {
   "property": "C11",
   "status": "partial",
   "theorems": [
    "Verif.Properties.Set90.C11_scale_down_violated",
    "Verif.Properties.Set90.C11_scale_down_partial"
   ],
   "note": "violated: scale_down on a clean set leaves the clean flag on; partial covers sets with pending inserts."
  },
  {
   "property": "C12",
   "status": "proved",
   "theorems": [
    "Verif.Properties.Set90.C12_empty",
    "Verif.Properties.Set90.C12_extents"
   ],
   "note": ""
  },
  {
   "property": "C13",
   "status": "proved",
   "theorems": [
    "Verif.Properties.RectForm.C13_get_rectangles",
    "Verif.Properties.RectForm.C13_slicing",
    "Verif.Properties.RectForm.C13_free_function"
   ],
   "note": ""
  },
  {
   "property": "C14",
   "status": "proved",
   "theorems": [
    "Verif.Properties.RectForm.C14_counts_cells",
    "Verif.Properties.RectForm.C14_depends_on_region",
    "Verif.Properties.RectForm.C14_inclusion_exclusion",
    "Verif.Properties.RectForm.C14_additive",
    "Verif.Properties.RectForm.C14_move"
   ],
   "note": ""
  },
  {
   "property": "C15",
   "status": "partial",
   "theorems": [
    "Verif.Properties.Set90.C15_orientation_change",
    "Verif.Properties.Set90.C15_operators_see_regions_only",
    "Verif.Properties.Set90.C15_range_constructor_violated"
   ],
   "note": "proved for insert, operators and assignments; violated by the (orientation, begin, end) constructor, which ignores the orientation."
  },
  {
   "property": "C16",
   "status": "proved",
   "theorems": [
    "Verif.Properties.Transform.C16_turns_are_rotations",
    "Verif.Properties.Transform.C16_iterated_left",
    "Verif.Properties.Transform.C16_accessors"
   ],
   "note": ""
  },
  {
   "property": "C17",
   "status": "proved",
   "theorems": [
    "Verif.Properties.Transform.C17_add_is_composition",
    "Verif.Properties.Transform.C17_invert",
    "Verif.Properties.Transform.C17_group",
    "Verif.Properties.Transform.C17_directions",
    "Verif.Properties.Transform.C17_set_get_directions",
    "Verif.Properties.Transform.C17_combine_axis_arrays_wrong"
   ],
   "note": "combine_axis_arrays itself is shown not to be composition; the public operator+ is."
  },
  {
   "property": "C18",
   "status": "partial",
   "theorems": [
    "Verif.Properties.Transform.C18_invert",
    "Verif.Properties.Transform.C18_composition_violated",
    "Verif.Properties.Transform.C18_composition_partial"
   ],
   "note": "transform and invert proved; composition (operator+=) reads uninitialised variables, shown violated for some initial values; partial theorem covers the axis part."
  },
  {
   "property": "C19",
   "status": "partial",
   "theorems": [
    "Verif.Properties.Transform.C19_scale_violated",
    "Verif.Properties.Transform.C19_scale_partial",
    "Verif.Properties.Transform.C19_transform",
    "Verif.Properties.Transform.C19_invert"
   ],
   "note": "anisotropic scale() uses the horizontal factor for y: violation proved, partial covers equal factors; transform and invert proved."
  },
  {
   "property": "C20",
   "status": "proved",
   "theorems": [
    "Verif.Properties.Interval.C20_construct",
    "Verif.Properties.Interval.C20_contains_value",
    "Verif.Properties.Interval.C20_contains_interval",
    "Verif.Properties.Interval.C20_intersects_touch",
    "Verif.Properties.Interval.C20_intersects_no_touch",
    "Verif.Properties.Interval.C20_intersects_no_touch_interiors",
    "Verif.Properties.Interval.C20_intersect_touch",
    "Verif.Properties.Interval.C20_intersect_no_touch",
    "Verif.Properties.Interval.C20_generalized_intersect",
    "Verif.Properties.Interval.C20_boundaries_intersect_touch",
    "Verif.Properties.Interval.C20_abuts",
    "Verif.Properties.Interval.C20_encompass",
    "Verif.Properties.Interval.C20_encompass_value"
   ],
   "note": ""
  },
  {
   "property": "C21",
   "status": "proved",
   "theorems": [
    "Verif.Properties.Interval.C21_convolve",
    "Verif.Properties.Interval.C21_reflected_convolve",
    "Verif.Properties.Interval.C21_deconvolve",
    "Verif.Properties.Interval.C21_bloat_shrink",
    "Verif.Properties.Interval.C21_bloat_dir",
    "Verif.Properties.Interval.C21_flip_move_scale",
    "Verif.Properties.Interval.C21_scale_down",
    "Verif.Properties.Interval.C21_center",
    "Verif.Properties.Interval.C21_get_half",
    "Verif.Properties.Interval.C21_join_with"
   ],
   "note": ""
  },
  {
   "property": "C22",
   "status": "partial",
   "theorems": [
    "Verif.Properties.Rectangle.C22_contains_point",
    "Verif.Properties.Rectangle.C22_contains_rect",
    "Verif.Properties.Rectangle.C22_intersects",
    "Verif.Properties.Rectangle.C22_intersect_touch",
    "Verif.Properties.Rectangle.C22_intersect_no_touch_violated",
    "Verif.Properties.Rectangle.C22_intersect_no_touch_partial",
    "Verif.Properties.Rectangle.C22_boundaries_intersect",
    "Verif.Properties.Rectangle.C22_abuts",
    "Verif.Properties.Rectangle.C22_abuts_dir",
    "Verif.Properties.Rectangle.C22_set_points",
    "Verif.Properties.Rectangle.C22_encompass",
    "Verif.Properties.Rectangle.C22_encompass_point"
   ],
   "note": "intersect without touching returns true for rectangles that only touch: violation proved; everything else proved."
  },
  {
   "property": "C23",
   "status": "partial",
   "theorems": [
    "Verif.Properties.Rectangle.C23_interval_distance",
    "Verif.Properties.Rectangle.C23_rect_point_distance",
    "Verif.Properties.Rectangle.C23_rect_rect_distance",
    "Verif.Properties.Rectangle.C23_euclidean_rect_rect_violated",
    "Verif.Properties.Rectangle.C23_euclidean_rect_rect_partial"
   ],
   "note": "euclidean_distance(rect,rect) truncates the squared distance to int: violation proved; squared and Manhattan distances proved to be minima."
  },
  {
   "property": "C24",
   "status": "partial",
   "theorems": [
    "Verif.Properties.Rectangle.C24_convolve",
    "Verif.Properties.Rectangle.C24_area",
    "Verif.Properties.Rectangle.C24_get_half",
    "Verif.Properties.Rectangle.C24_join_with",
    "Verif.Properties.Rectangle.C24_bloat_shrink",
    "Verif.Properties.Rectangle.C24_scale_up_transform",
    "Verif.Properties.Rectangle.C24_get_corner",
    "Verif.Properties.Rectangle.C24_guess_orientation",
    "Verif.Properties.Rectangle.C24_scale_violated",
    "Verif.Properties.Rectangle.C24_scale_partial"
   ],
   "note": "scale(rectangle, scaling) collapses the rectangle to a point: violation proved; everything else proved."
  },
  {
   "property": "C25",
   "status": "proved",
   "theorems": [
    "Verif.Properties.Rectangle.C25_point_less",
    "Verif.Properties.Rectangle.C25_interval_less",
    "Verif.Properties.Rectangle.C25_rectangle_less"
   ],
   "note": ""
  },
  {
   "property": "C26",
   "status": "proved",
   "theorems": [
    "Verif.Properties.Segment.C26_orientation_segments",
    "Verif.Properties.Segment.C26_orientation_point",
    "Verif.Properties.Segment.C26_orientation_antisymmetric"
   ],
   "note": ""
  },
  {
   "property": "C27",
   "status": "proved",
   "theorems": [
    "Verif.Properties.Segment.C27_contains_point",
    "Verif.Properties.Segment.C27_contains_segment"
   ],
   "note": ""
  },
  {
   "property": "C28",
   "status": "proved",
   "theorems": [
    "Verif.Properties.Segment.C28_intersects_touch",
    "Verif.Properties.Segment.C28_intersects_no_touch",
    "Verif.Properties.Segment.C28_intersects_symmetric",
    "Verif.Properties.Segment.C28_abuts"
   ],
   "note": ""
  },
  {
   "property": "C29",
   "status": "partial",
   "theorems": [
    "Verif.Properties.SegmentDist.C29_segment_point_partial",
    "Verif.Properties.SegmentDist.C29_degenerate_violated",
    "Verif.Properties.SegmentDist.C29_segment_segment_partial"
   ],
   "note": "exact for non-degenerate segments (real arithmetic in place of doubles); degenerate segments report distance 0: violation proved."
  },
  {
   "property": "C30",
   "status": "proved",
   "theorems": [
    "Verif.Properties.Polygon.C30_shoelace",
    "Verif.Properties.Polygon.C30_manhattan_exact",
    "Verif.Properties.Polygon.C30_rotate",
    "Verif.Properties.Polygon.C30_translate",
    "Verif.Properties.Polygon.C30_reverse",
    "Verif.Properties.Polygon.C30_closing_vertex",
    "Verif.Properties.Polygon.C30_winding",
    "Verif.Properties.Polygon.C30_holes",
    "Verif.Properties.Polygon.C30_counts_cells"
   ],
   "note": ""
  },
  {
   "property": "C31",
   "status": "partial",
   "theorems": [
    "Verif.Properties.Contains.C31_contains",
    "Verif.Properties.Contains.C31_contains_degenerate",
    "Verif.Properties.Contains.C31_contains_degenerate_violated",
    "Verif.Properties.Contains.C31_contains_holes"
   ],
   "note": "proved for every vertex list with two different vertices, with and without holes; a polygon whose vertices all coincide ignores the touching flag: violation proved."
  },
  {
   "property": "C32",
   "status": "partial",
   "theorems": [
    "Verif.Properties.Contains.C32_contains_90",
    "Verif.Properties.Contains.C32_agrees_with_general",
    "Verif.Properties.Contains.C32_contains_90_holes",
    "Verif.Properties.Contains.C32_zero_edge_violated",
    "Verif.Properties.Contains.C32_collinear_vertex_violated"
   ],
   "note": "proved for alternating polygons without empty edges, and shown to agree with the general function; empty edges and collinear vertices give wrong answers: violations proved."
  },
  {
   "property": "C33",
   "status": "partial",
   "theorems": [
    "Verif.Properties.Polygon.C33_compact_expand_partial",
    "Verif.Properties.Polygon.C33_expand_compact_partial",
    "Verif.Properties.Polygon.C33_violated"
   ],
   "note": "round trips proved for alternating boundaries whose last horizontal edge is not degenerate; shown false for coordinate lists ending on the first x."
  },
  {
   "property": "C34",
   "status": "proved",
   "theorems": [
    "Verif.Properties.Contains.C34_equal_slope",
    "Verif.Properties.Contains.C34_less_slope",
    "Verif.Properties.Contains.C34_on_above_or_below",
    "Verif.Properties.Contains.C34_less_point_between"
   ],
   "note": ""
  },
  {
   "property": "C35",
   "status": "partial",
   "theorems": [
    "Verif.Properties.ExtInt.C35_of_int32",
    "Verif.Properties.ExtInt.C35_of_int64",
    "Verif.Properties.ExtInt.C35_neg",
    "Verif.Properties.ExtInt.C35_add_partial",
    "Verif.Properties.ExtInt.C35_sub_partial",
    "Verif.Properties.ExtInt.C35_mul",
    "Verif.Properties.ExtInt.C35_add_canonical",
    "Verif.Properties.ExtInt.C35_two_chunks",
    "Verif.Properties.ExtInt.C35_expression_partial",
    "Verif.Properties.ExtInt.C35_cancellation_violated"
   ],
   "note": "construction, negation and multiplication proved for every operand; addition and subtraction proved for operands without a leading zero chunk and for whole expressions in which no sum is more than one chunk shorter than its operands; a difference that cancels two or more chunks makes later results wrong: violation proved."
  },
  {
   "property": "C36",
   "status": "partial",
   "theorems": [
    "Verif.Properties.ExtInt.C36_compare_partial",
    "Verif.Properties.ExtInt.C36_sign_partial",
    "Verif.Properties.ExtInt.C36_expression_partial",
    "Verif.Properties.ExtInt.C36_cancellation_violated"
   ],
   "note": "proved for operands without a leading zero chunk, and for what expressions without deep cancellation compute; violated after deep cancellation."
  },
  {
   "property": "C37",
   "status": "proved",
   "theorems": [
    "Verif.Properties.Ulp.C37_equal_iff",
    "Verif.Properties.Ulp.C37_order",
    "Verif.Properties.Ulp.C37_exact",
    "Verif.Properties.Ulp.C37_swap",
    "Verif.Properties.Ulp.C37_monotone"
   ],
   "note": ""
  },
  {
   "property": "C38",
   "status": "proved",
   "theorems": [
    "Verif.Properties.VoronoiSites.C38_orientation_exact",
    "Verif.Properties.VoronoiSites.C38_value_exact"
   ],
   "note": ""
  },
  {
   "property": "C39",
   "status": "proved",
   "theorems": [
    "Verif.Properties.VoronoiSites.C39_decides",
    "Verif.Properties.VoronoiSites.C39_strict_weak_order",
    "Verif.Properties.VoronoiSites.C39_equivalent_sites",
    "Verif.Properties.VoronoiSites.C39_queue",
    "Verif.Properties.VoronoiSites.C39_overlap_needed"
   ],
   "note": ""
  },
  {
   "property": "C40",
   "status": "proved",
   "theorems": [
    "Verif.Properties.VoronoiDiagram.C40_sweep",
    "Verif.Properties.VoronoiDiagram.C40_beach",
    "Verif.Properties.VoronoiDiagram.C40_progress",
    "Verif.Properties.VoronoiDiagram.C40_site_edge",
    "Verif.Properties.VoronoiDiagram.C40_circle_edge",
    "Verif.Properties.VoronoiDiagram.C40_existence_rejects_equal"
   ],
   "note": "Invariant over every run of the sweep with arbitrary predicate answers, from the initial beach line on; C40_progress adds that no null pointer is followed, C40_beach that beach line nodes and half-edges agree. Rejection of equal neighbouring sites, which the runs assume, is C40_existence_rejects_equal."
  },
  {
   "property": "C41",
   "status": "proved",
   "theorems": [
    "Verif.Properties.Robust.C41_robust_dif"
   ],
   "note": ""
  },
  {
   "property": "C42",
   "status": "proved",
   "theorems": [
    "Verif.Properties.Robust.C42_eval1",
    "Verif.Properties.Robust.C42_eval2",
    "Verif.Properties.Robust.C42_eval3",
    "Verif.Properties.Robust.C42_eval4"
   ],
   "note": ""
  },
  {
   "property": "C43",
   "status": "proved",
   "theorems": [
    "Verif.Properties.PropertyMerge.C43_merge",
    "Verif.Properties.PropertyMerge.C43_merge_members",
    "Verif.Properties.PropertyMerge.C43_merge_disjoint"
   ],
   "note": "the sorted order of equal points is arbitrary (any permutation sorted by point); results keyed by the ordered list of properties."
  },
  {
   "property": "C44",
   "status": "partial",
   "theorems": [
    "Verif.Properties.Touch.C44_connectivity_partial",
    "Verif.Properties.Touch.C44_symmetric_irreflexive",
    "Verif.Properties.Touch.C44_mixed_orientation_violated"
   ],
   "note": "For any number of sets of one orientation the extraction succeeds and the graph links exactly the pairs whose closed shapes share a point (overlap, common edge or a single corner); symmetric, irreflexive, ids in range for every input. For sets of different orientations the claim is false: connectivity_extraction_90::insert ignores the orientation (C44_mixed_orientation_violated)."
  },
  {
   "property": "C45",
   "status": "partial",
   "theorems": [
    "Verif.Properties.Simplify.C45_removed_near_line_partial",
    "Verif.Properties.Simplify.C45_removed_exact_partial",
    "Verif.Properties.Simplify.C45_removes_far_vertex_violated",
    "Verif.Properties.Simplify.C45_leaves_collinear_vertex_violated",
    "Verif.Properties.Simplify.C45_result_partial"
   ],
   "note": "What one test guarantees, where it is exact, and what the result of the loop is are proved for every list and tolerance; the full claim is violated in both directions (a far vertex is removed, a vertex on the segment is kept)."
  },
  {
   "property": "C46",
   "status": "partial",
   "theorems": [
    "Verif.Properties.Set90.C46_const_observer_violated",
    "Verif.Properties.Set90.C46_const_observer_partial"
   ],
   "note": "violated for self_xor and self_intersect after a const observer; proved for all other modelled operations."
  },
  {
   "property": "C47",
   "status": "partial",
   "theorems": [
    "Verif.Properties.Polygon.C47_sequence",
    "Verif.Properties.Polygon.C47_holes_violated",
    "Verif.Properties.Polygon.C47_holes_partial"
   ],
   "note": "is_45 of a polygon with holes ignores the holes: violation proved; sequences and hole-free polygons proved."
  },
  {
   "property": "C48",
   "status": "proved",
   "theorems": [
    "Verif.Properties.VoronoiSites.C48_color_keeps_attributes",
    "Verif.Properties.VoronoiSites.C48_color_roundtrip",
    "Verif.Properties.VoronoiSites.C48_edge_attributes",
    "Verif.Properties.VoronoiSites.C48_site_source",
    "Verif.Properties.VoronoiSites.C48_inverse_keeps_category",
    "Verif.Properties.VoronoiSites.C48_contains_agrees",
    "Verif.Properties.VoronoiSites.C48_zero_length_segment"
   ],
   "note": ""
  },
  {
   "property": "C49",
   "status": "proved",
   "theorems": [
    "Verif.Properties.ResizePoly.C49_edges_displaced",
    "Verif.Properties.ResizePoly.C49_remove_collinear"
   ],
   "note": "for rectilinear boundaries without spikes, any amounts (also negative)."
  },
  {
   "property": "C50",
   "status": "proved",
   "theorems": [
    "Verif.Properties.Resize.C50_bloat2"
   ],
   "note": ""
  },
  {
   "property": "C51",
   "status": "partial",
   "theorems": [
    "Verif.Properties.SegmentDist.C51_point_distance_partial",
    "Verif.Properties.SegmentDist.C51_point_distance_violated"
   ],
   "note": "violated for far-apart points (int subtraction overflows); exact when differences fit in int."
  },
  {
   "property": "C52",
   "status": "proved",
   "theorems": [
    "Verif.Properties.Segment.C52_envelope"
   ],
   "note": ""
  },
  {
   "property": "C53",
   "status": "partial",
   "theorems": [
    "Verif.Properties.Polygon.C53_no_overflow_partial",
    "Verif.Properties.Polygon.C53_overflow_violated"
   ],
   "note": "no overflow when 8*M^2*(number of vertices) < 2^63; violated for 32-bit polygons near the limits."
  },
  {
   "property": "C54",
   "status": "proved",
   "theorems": [
    "Verif.Properties.RectForm.C54_full_slices"
   ],
   "note": ""
  },
  {
   "property": "C55",
   "status": "proved",
   "theorems": [
    "Verif.Properties.Resize.C55_shrink2"
   ],
   "note": ""
  },
  {
   "property": "C56",
   "status": "proved",
   "theorems": [
    "Verif.Properties.Resize.C56_closing_opening"
   ],
   "note": ""
  },
  {
   "property": "C57",
   "status": "partial",
   "theorems": [
    "Verif.Properties.VoronoiSites.C57_directions_violated",
    "Verif.Properties.VoronoiSites.C57_directions_partial"
   ],
   "note": "Exact for all 32-bit segments except when the determinant is exactly 2^64 or -2^64, where segments far from parallel are called collinear: violation proved."
  },
  {
   "property": "C58",
   "status": "proved",
   "theorems": [
    "Verif.Properties.ResizePoly.C58_bloat_direction",
    "Verif.Properties.ResizePoly.C58_shrink_direction",
    "Verif.Properties.ResizePoly.C58_bloat_set",
    "Verif.Properties.ResizePoly.C58_shrink_set"
   ],
   "note": "what get returns is a parameter constrained by RegularPolys; polygon formation itself is a separate property. Resizing in two directions at once is covered for bloat2/shrink2 by C50, C55, C56."
  },
  {
   "property": "C59",
   "status": "partial",
   "theorems": [
    "Verif.Properties.VoronoiDiagram.C59_build_partial",
    "Verif.Properties.VoronoiDiagram.C59_build_keeps",
    "Verif.Properties.VoronoiDiagram.C59_vertical",
    "Verif.Properties.VoronoiDiagram.C59_lines_violated",
    "Verif.Properties.VoronoiDiagram.C59_vertices_violated"
   ],
   "note": "Proved for finished sweeps in which no circle event joins two arcs of one site; vertex references proved in range when no edge has length zero. Both remaining hypotheses are necessary for arbitrary predicate answers: C59_lines_violated, C59_vertices_violated are runs where the statement fails."
  },
  {
   "property": "C60",
   "status": "proved",
   "theorems": [
    "Verif.Properties.VoronoiDiagram.C60_capacity",
    "Verif.Properties.VoronoiDiagram.C60_euler",
    "Verif.Properties.VoronoiDiagram.C60_terminates"
   ],
   "note": "For all runs with arbitrary predicate answers; C60_euler gives the sharp bounds 2n-3 and 3n-4."
  },
  {
   "property": "C61",
   "status": "proved",
   "theorems": [
    "Verif.Properties.PolyForm.C61_polygons_with_holes"
   ],
   "note": "For every valid set, vertex threshold absent."
  },
  {
   "property": "C62",
   "status": "proved",
   "theorems": [
    "Verif.Properties.PolyForm.C62_polygons_without_holes"
   ],
   "note": "For every valid set, vertex threshold absent."
  },
  {
   "property": "C63",
   "status": "proved",
   "theorems": [
    "Verif.Properties.PolyForm.C63_round_trip"
   ],
   "note": ""
  },
  {
   "property": "C64",
   "status": "proved",
   "theorems": [
    "Verif.Properties.PolyForm.C64_holes_nest_in_their_polygon"
   ],
   "note": ""
  },
  {
   "property": "C65",
   "status": "proved",
   "theorems": [
    "Verif.Properties.PolyForm.C65_every_side_once",
    "Verif.Properties.PolyForm.C65_set_on_the_left"
   ],
   "note": ""
  },
  {
   "property": "C66",
   "status": "partial",
   "theorems": [
    "Verif.Properties.Interact.C66_interact_partial",
    "Verif.Properties.Interact.C66_unsorted_argument_violated",
    "Verif.Properties.Interact.C66_result_unequal_violated"
   ],
   "note": "Covered points proved for arguments that are clean or sorted; a sorted flag lost on the argument makes the answer wrong, and the result can compare unequal to an equal set: violations proved."
  },
  {
   "property": "C67",
   "status": "proved",
   "theorems": [
    "Verif.Properties.MaxCover.C67_max_rectangles",
    "Verif.Properties.MaxCover.C67_every_rectangle_inside",
    "Verif.Properties.MaxCover.C67_same_region"
   ],
   "note": ""
  },
  {
   "property": "C68",
   "status": "proved",
   "theorems": [
    "Verif.Properties.Arb.C68_boolean_region",
    "Verif.Properties.Arb.C68_sort"
   ],
   "note": "For every planar list of directed edges (what C75/C76 show cutting to produce) and every permitted sort."
  },
  {
   "property": "C69",
   "status": "proved",
   "theorems": [
    "Verif.Properties.Arb.C69_boolean_canonical"
   ],
   "note": ""
  },
  {
   "property": "C70",
   "status": "proved",
   "theorems": [
    "Verif.Properties.Arb.C70_empty_iff",
    "Verif.Properties.Arb.C70_equivalence"
   ],
   "note": ""
  },
  {
   "property": "C71",
   "status": "proved",
   "theorems": [
    "Verif.Properties.PolySet.C71_insert_polygon",
    "Verif.Properties.PolySet.C71_insert_with_holes",
    "Verif.Properties.PolySet.C71_history",
    "Verif.Properties.PolySet.C71_start_and_direction",
    "Verif.Properties.PolySet.C71_zero_area",
    "Verif.Properties.PolySet.C71_insert_set",
    "Verif.Properties.PolySet.C71_scale_up",
    "Verif.Properties.PolySet.C71_scale_down"
   ],
   "note": ""
  },
  {
   "property": "C72",
   "status": "partial",
   "theorems": [
    "Verif.Properties.PolySet.C72_downcast_violated",
    "Verif.Properties.PolySet.C72_downcast_partial"
   ],
   "note": "The function tests for a non-Manhattan edge with or instead of and: violation proved; what it does return is characterised for every edge list."
  },
  {
   "property": "C73",
   "status": "proved",
   "theorems": [
    "Verif.Properties.Cut.C73_cut",
    "Verif.Properties.Cut.C73_exact"
   ],
   "note": "For every arithmetic that keeps an ordinate within the extent of its segment; exact arithmetic is shown to."
  },
  {
   "property": "C74",
   "status": "proved",
   "theorems": [
    "Verif.Properties.Cut.C74_boolean",
    "Verif.Properties.Cut.C74_polygons",
    "Verif.Properties.Cut.C74_expression",
    "Verif.Properties.Cut.C74_equality",
    "Verif.Properties.Cut.C74_clean"
   ],
   "note": "For every arithmetic."
  },
  {
   "property": "C75",
   "status": "proved",
   "theorems": [
    "Verif.Properties.Cut.C75_boolean",
    "Verif.Properties.Cut.C75_expression",
    "Verif.Properties.Cut.C75_exact"
   ],
   "note": "For arithmetic that is exact on integers; exact rational arithmetic is shown to be."
  },
  {
   "property": "C76",
   "status": "proved",
   "theorems": [
    "Verif.Properties.Cut.C76_boolean",
    "Verif.Properties.Cut.C76_polygons",
    "Verif.Properties.Cut.C76_equal_regions",
    "Verif.Properties.Cut.C76_exact"
   ],
   "note": "For arithmetic that is exact and rounded down (the result of the exact fallback); the effect of long double rounding errors on non-lattice intersections is not covered."
  },
  {
   "property": "C77",
   "status": "partial",
   "theorems": [
    "Verif.Properties.Cut.C77_union_with_part_violated",
    "Verif.Properties.Cut.C77_equality_violated",
    "Verif.Properties.Cut.C77_transitive_violated",
    "Verif.Properties.Cut.C77_clean_violated",
    "Verif.Properties.Cut.C77_lattice_partial"
   ],
   "note": "Violated in four ways, each proved on a concrete input with exact arithmetic; proved where edges meet in lattice points."
  },
  {
   "property": "C78",
   "status": "proved",
   "theorems": [
    "Verif.Properties.SegUtils.C78_pieces",
    "Verif.Properties.SegUtils.C78_direction",
    "Verif.Properties.SegUtils.C78_manhattan",
    "Verif.Properties.SegUtils.C78_lattice",
    "Verif.Properties.SegUtils.C78_snapped"
   ],
   "note": ""
  },
  {
   "property": "C79",
   "status": "proved",
   "theorems": [
    "Verif.Properties.ArbMerge.C79_rectilinear",
    "Verif.Properties.ArbMerge.C79_lattice",
    "Verif.Properties.ArbMerge.C79_snapped"
   ],
   "note": ""
  },
  {
   "property": "C80",
   "status": "partial",
   "theorems": [
    "Verif.Properties.ArbTouch.C80_rectilinear_partial",
    "Verif.Properties.ArbTouch.C80_lattice_partial",
    "Verif.Properties.ArbTouch.C80_snapped_partial",
    "Verif.Properties.ArbTouch.C80_overlap",
    "Verif.Properties.ArbTouch.C80_empty_violated"
   ],
   "note": "Proved whenever some inserted set covers a point; the scan reads an empty vector when all inserted sets are empty: violation proved."
  },
  {
   "property": "C81",
   "status": "proved",
   "theorems": [
    "Verif.Properties.ArbForm.C81_inside",
    "Verif.Properties.ArbForm.C81_form",
    "Verif.Properties.ArbForm.C81_get_manhattan",
    "Verif.Properties.ArbForm.C81_get_lattice",
    "Verif.Properties.ArbForm.C81_get",
    "Verif.Properties.ArbForm.C81_get_polygons"
   ],
   "note": "Polygons with holes (no fracturing). That the windings add up to the number of polygons containing the point is C81_inside."
  },
  {
   "property": "C82",
   "status": "proved",
   "theorems": [
    "Verif.Properties.Deg45.C82_programs_exact",
    "Verif.Properties.Deg45.C82_boolean_regions",
    "Verif.Properties.Deg45.C82_programs_valid"
   ],
   "note": "The redo of an operation after the precision exception is not modelled: the exception is an outcome."
  },
  {
   "property": "C83",
   "status": "proved",
   "theorems": [
    "Verif.Properties.Deg45.C83_even_never_throws",
    "Verif.Properties.Deg45.C83_even_stays",
    "Verif.Properties.Deg45.C83_odd_throws",
    "Verif.Properties.Deg45.C83_rectilinear_stays"
   ],
   "note": ""
  },
  {
   "property": "C84",
   "status": "partial",
   "theorems": [
    "Verif.Properties.Deg45.C84_insert_polygon",
    "Verif.Properties.Deg45.C84_insert_rectangle",
    "Verif.Properties.Deg45.C84_insert_set",
    "Verif.Properties.Deg45.C84_vertex_hole_violated",
    "Verif.Properties.Deg45.C84_set90_hole_violated",
    "Verif.Properties.Deg45.C84_set_data_violated"
   ],
   "note": "Insertion of raw vertices, of rectilinear sets as holes and of raw data is violated."
  },
  {
   "property": "C85",
   "status": "partial",
   "theorems": [
    "Verif.Properties.Deg45.C85_clean",
    "Verif.Properties.Deg45.C85_self_intersect",
    "Verif.Properties.Deg45.C85_self_xor_partial",
    "Verif.Properties.Deg45.C85_self_xor_violated"
   ],
   "note": "self_xor of negative depths differs between the two branches."
  },
  {
   "property": "C86",
   "status": "partial",
   "theorems": [
    "Verif.Properties.Deg45.C86_equal_sound",
    "Verif.Properties.Deg45.C86_equal_complete_partial",
    "Verif.Properties.Deg45.C86_equal_violated",
    "Verif.Properties.Deg45.C86_empty_violated"
   ],
   "note": "The converse fails on touching corners; empty() does not clean."
  },
  {
   "property": "C87",
   "status": "partial",
   "theorems": [
    "Verif.Properties.Merge45.C87_merge_partial",
    "Verif.Properties.Merge45.C87_insert_succeeds",
    "Verif.Properties.Merge45.C87_merge_violated"
   ],
   "note": "The entries before the error rectangles and the scaling by one half. Violated: polygon formation of an entry whose vertices are out of order is undefined."
  },
  {
   "property": "C88",
   "status": "proved",
   "theorems": [
    "Verif.Properties.Touch45.C88_connectivity",
    "Verif.Properties.Touch45.C88_symmetric"
   ],
   "note": "Nodes are numbered in order of insertion; the sets are inserted by value. Insertions that meet the precision exception are outside the statement."
  },
  {
   "property": "C89",
   "status": "proved",
   "theorems": [
    "Verif.Properties.Form45.C89_polygons",
    "Verif.Properties.Form45.C89_polygons_even"
   ],
   "note": "Polygons with holes (no fracturing); C81_inside turns the sum of windings into the number of polygons that contain the point."
  },
  {
   "property": "C90",
   "status": "proved",
   "theorems": [
    "Verif.Properties.RoundTrip.C90_winding",
    "Verif.Properties.RoundTrip.C90_round_trip_manhattan",
    "Verif.Properties.RoundTrip.C90_round_trip_lattice",
    "Verif.Properties.RoundTrip.C90_round_trip",
    "Verif.Properties.RoundTrip.C90_round_trip_45",
    "Verif.Properties.RoundTrip.C90_area",
    "Verif.Properties.RoundTrip.C90_area_45",
    "Verif.Properties.RoundTrip.C90_area_manhattan",
    "Verif.Properties.RoundTrip.C90_area_lattice"
   ],
   "note": "Exact for rectilinear sets, for edges that meet in lattice points, and for 45-degree sets; for other sets away from the edges, as the code rounds crossings. Area arithmetic in long double is modelled as exact."
  },
  {
   "property": "C91",
   "status": "proved",
   "theorems": [
    "Verif.Properties.Frac45.C91_polygons",
    "Verif.Properties.Frac45.C91_polygons_even",
    "Verif.Properties.Frac45.C91_with_and_without",
    "Verif.Properties.Frac45.C91_round_trip"
   ],
   "note": "Freeing of tails is not modelled."
  },
  {
   "property": "C92",
   "status": "partial",
   "theorems": [
    "Verif.Properties.SetTransform.C92_winding",
    "Verif.Properties.SetTransform.C92_invert",
    "Verif.Properties.SetTransform.C92_area",
    "Verif.Properties.SetTransform.C92_polygon",
    "Verif.Properties.SetTransform.C92_figure_of_eight_violated",
    "Verif.Properties.SetTransform.C92_move",
    "Verif.Properties.SetTransform.C92_scale_up",
    "Verif.Properties.SetTransform.C92_set_manhattan",
    "Verif.Properties.SetTransform.C92_set_lattice",
    "Verif.Properties.SetTransform.C92_set",
    "Verif.Properties.SetTransform.C92_45",
    "Verif.Properties.SetTransform.C92_scale_up_45"
   ],
   "note": "Violated for outlines of signed area zero (figure of eight): mirroring exchanges the loops that are covered. For sets at any angle off the unit squares of edges, as the code rounds crossings."
  },
  {
   "property": "C93",
   "status": "proved",
   "theorems": [
    "Verif.Properties.Extents.C93_manhattan",
    "Verif.Properties.Extents.C93_lattice",
    "Verif.Properties.Extents.C93_any",
    "Verif.Properties.Extents.C93_45",
    "Verif.Properties.Extents.C93_polygon"
   ],
   "note": "Manhattan and lattice sets and 45-degree sets exactly; sets at any other angle relative to the polygons read from them (rounding moves edges by up to a unit)."
  },
  {
   "property": "C94",
   "status": "proved",
   "theorems": [
    "Verif.Properties.VoronoiCircle.C94_ppp",
    "Verif.Properties.VoronoiCircle.C94_pps",
    "Verif.Properties.VoronoiCircle.C94_pss",
    "Verif.Properties.VoronoiCircle.C94_sss"
   ],
   "note": "The multi-precision functor in exact real arithmetic; rounding of the final square roots and of the lazy floating point path is not covered."
  },
  {
   "property": "C95",
   "status": "proved",
   "theorems": [
    "Verif.Properties.VoronoiLazy.C95_ppp",
    "Verif.Properties.VoronoiLazy.C95_pps",
    "Verif.Properties.VoronoiLazy.C95_pss",
    "Verif.Properties.VoronoiLazy.C95_sss"
   ],
   "note": "Both functors in exact real arithmetic: the error estimates (ulp), which choose what is computed again, are inputs of the model."
  },
  {
   "property": "C96",
   "status": "proved",
   "theorems": [
    "Verif.Properties.VoronoiBeach.C96_points",
    "Verif.Properties.VoronoiBeach.C96_points_height",
    "Verif.Properties.VoronoiBeach.C96_point_segment",
    "Verif.Properties.VoronoiBeach.C96_segment_point",
    "Verif.Properties.VoronoiBeach.C96_segments",
    "Verif.Properties.VoronoiBeach.C96_two_sides",
    "Verif.Properties.VoronoiBeach.C96_directed",
    "Verif.Properties.VoronoiBeach.C96_old_and_new",
    "Verif.Properties.VoronoiBeach.C96_new_nodes"
   ],
   "note": "Distances in exact real arithmetic (the floating-point rounding of the code is not covered); orientation tests in 64-bit arithmetic, proved exact where the fast path relies on them. Nodes that begin at the same abscissa but came with different sites are not covered."
  },
  {
   "property": "C97",
   "status": "partial",
   "theorems": [
    "Verif.Properties.Concept90.C97_keep_partial",
    "Verif.Properties.Concept90.C97_lower_limit_violated"
   ],
   "note": "The lower limits of width and height are exclusive in the code while the limits of the area are inclusive: violated for polygons exactly as wide or as high as the lower limit. Manhattan sets; sets at any angle are C101, the 45-degree sets have a function of the same text that is not modelled."
  },
  {
   "property": "C98",
   "status": "partial",
   "theorems": [
    "Verif.Properties.Resize90.C98_bloat_along",
    "Verif.Properties.Resize90.C98_shrink_along",
    "Verif.Properties.Resize90.C98_direction",
    "Verif.Properties.Resize90.C98_resize_partial"
   ],
   "note": "Proved for amounts along one axis and for resize that grows or shrinks along one axis or shrinks along one and grows along the other. Missing: growing or shrinking along both axes at once (bloat2 and shrink2, which do that by rectangles, are C50)."
  },
  {
   "property": "C99",
   "status": "partial",
   "theorems": [
    "Verif.Properties.GrowAnd.C99_self_intersect",
    "Verif.Properties.GrowAnd.C99_grow_and_partial"
   ],
   "note": "Proved for amounts along one axis. Missing: growing along both axes at once."
  },
  {
   "property": "C100",
   "status": "proved",
   "theorems": [
    "Verif.Properties.Minkowski.C100_polygons",
    "Verif.Properties.Minkowski.C100_sets"
   ],
   "note": "Exact coordinates. Not covered: sets whose edges cross off the lattice (there get rounds, see C81), and make_arc, which supplies the offset polygon of resize with rounded corners."
  },
  {
   "property": "C101",
   "status": "partial",
   "theorems": [
    "Verif.Properties.ArbKeep.C101_keep_lattice_partial",
    "Verif.Properties.ArbKeep.C101_keep_manhattan_partial",
    "Verif.Properties.ArbKeep.C101_lower_limit_violated"
   ],
   "note": "The lower limits of width and height are exclusive in the code while the limits of the area are inclusive: violated for polygons exactly as wide or as high as the lower limit. Missing also: edges that meet between lattice points, where reading the set moves them."
  },
  {
   "property": "C102",
   "status": "partial",
   "theorems": [
    "Verif.Properties.Snap45.C102_snap_partial",
    "Verif.Properties.Snap45.C102_snap_from_axis",
    "Verif.Properties.Snap45.C102_unchanged",
    "Verif.Properties.Snap45.C102_axis_edges",
    "Verif.Properties.Snap45.C102_size",
    "Verif.Properties.Snap45.C102_repeats",
    "Verif.Properties.Snap45.C102_closed",
    "Verif.Properties.Snap45.C102_holes_partial",
    "Verif.Properties.Snap45.C102_snap_violated",
    "Verif.Properties.Snap45.C102_scale_down_violated"
   ],
   "note": "Proved for all edges but the one from the first vertex to the second, and for that one too if it was horizontal or vertical to begin with; violated for it otherwise, and so for scale_down of 45-degree polygons. Repeated points and a repeated first point have no effect."
  },
  {
   "property": "C103",
   "status": "proved",
   "theorems": [
    "Verif.Properties.ScaleDown.C103_polygon",
    "Verif.Properties.ScaleDown.C103_holes",
    "Verif.Properties.ScaleDown.C103_set",
    "Verif.Properties.ScaleDown.C103_boolean",
    "Verif.Properties.ScaleDown.C103_clean"
   ],
   "note": "Proved for all inputs, including edges that turn vertical, point downwards or become points. Division exact; the arithmetic of intersections exact and rounded down, as in C76."
  },
  {
   "property": "C104",
   "status": "partial",
   "theorems": [
    "Verif.Properties.Resize45.C104_band",
    "Verif.Properties.Resize45.C104_inner_corner",
    "Verif.Properties.Resize45.C104_outer_corner",
    "Verif.Properties.Resize45.C104_diagonal_step",
    "Verif.Properties.Resize45.C104_rounding",
    "Verif.Properties.Resize45.C104_resize",
    "Verif.Properties.Resize45.C104_region",
    "Verif.Properties.Resize45.C104_unfilled",
    "Verif.Properties.Resize45.C104_defined",
    "Verif.Properties.Resize45.C104_straight_corner_violated",
    "Verif.Properties.Resize45.C104_half_corner_violated"
   ],
   "note": "Proved for corners that turn, with every rounding option but SQRT1OVER2: the pieces cover exactly the bands along the edges and the corner regions. Violated for vertices in the middle of a straight edge, where shrinking divides by zero, and for SQRT1OVER2, where a sharp corner is filled and its mirror image is not. The floating point rounding of the diagonal distance is a parameter; its exact values are given. That the pieces are then united with the polygon or subtracted from it is not restated here, see C82 and C84."
  },
  {
   "property": "C105",
   "status": "proved",
   "theorems": [
    "Verif.Properties.OffsetArb.C105_vertex",
    "Verif.Properties.OffsetArb.C105_turn",
    "Verif.Properties.OffsetArb.C105_polygon",
    "Verif.Properties.OffsetArb.C105_right_angle",
    "Verif.Properties.OffsetArb.C105_rectangle"
   ],
   "note": "Proved with long double as exact real numbers and without its limits. Outer boundaries in shrink and holes in bloat go through resize_poly_down, which moves vertices by the same function; the test by which it drops polygons that turn inside out, and the union of the moved polygons, are not modelled."
  }
 ]
}