{"id": "C01", "title": "Manhattan Boolean operations compute the set operation on regions", "statement": "For polygon_90_set operands A and B, the vertex data produced by A & B, A | B, A ^ B and A - B covers a point of the plane exactly when the corresponding propositional combination of 'A covers it' and 'B covers it' holds, and every covered point is covered exactly once.", "quantifier": "every pair of sorted vertex sequences whose columns close (every one obtainable by inserting rectangles, polygons or other sets), every point, all four operators", "why_tests_cant": "The operands are unbounded lists of overlapping, abutting, nested and negatively-weighted figures; the scan has a dozen split/merge branches whose combinations are unbounded.", "anchors": ["include/boost/polygon/detail/boolean_op.hpp: applyBooleanBinaryOp, BooleanOp::processInterval, BinaryAnd, BinaryOr, BinaryNot, BinaryXor", "include/boost/polygon/detail/polygon_90_set_view.hpp: compute_90_set_value"]}
{"id": "C02", "title": "The Boolean scan never leaves defined behaviour", "statement": "No call of a Manhattan Boolean operation or of clean() dereferences, decrements or increments past the ends of its internal scanline map, or uses an erased position, whatever the input.", "quantifier": "every sorted input sequence, closed or not, of any length", "why_tests_cant": "The failure would be an iterator misuse on a particular interleaving of splits and erasures.", "anchors": ["include/boost/polygon/detail/boolean_op.hpp: BooleanOp::processInterval, lookup_, insert_"]}
{"id": "C03", "title": "Cleaning a set keeps its region and flattens overlaps", "statement": "After clean(), a point is covered once if its accumulated count before was positive and zero times otherwise.", "quantifier": "every polygon_90_set_data content whose columns close, every point", "why_tests_cant": "Overlap depth and arrangement are unbounded.", "anchors": ["include/boost/polygon/polygon_90_set_data.hpp: clean, sort", "include/boost/polygon/detail/boolean_op.hpp: default_arg_workaround::applyBooleanOr"]}
{"id": "C04", "title": "Cleaned data is canonical, so == decides geometric equality", "statement": "Two polygon_90_set_data with the same scanline orientation compare equal exactly when they cover the same points, independently of the order, multiplicity or decomposition with which geometry was inserted.", "quantifier": "every pair of sets, every insertion history", "why_tests_cant": "Quantifies over all pairs of representations of the same region.", "anchors": ["include/boost/polygon/polygon_90_set_data.hpp: operator==, clean", "include/boost/polygon/detail/boolean_op.hpp: applyBooleanOr, applyBooleanBinaryOp"]}
{"id": "C05", "title": "Clean is idempotent and Boolean algebra laws hold on stored data", "statement": "clean(clean(S)) is vertex-for-vertex clean(S); A|B, B|A and inserting B into A then cleaning give identical vertex data; A&A, A|A and clean(A) are identical; A^A and A-A are empty; distributive and De Morgan laws hold as vertex-data equalities.", "quantifier": "all sets A, B, C", "why_tests_cant": "Algebraic laws range over all operands.", "anchors": ["include/boost/polygon/detail/boolean_op.hpp: applyBooleanBinaryOp, applyBooleanOr", "include/boost/polygon/detail/polygon_90_set_view.hpp: operator|, operator+, operator&, operator*, operator^, operator-"]}
{"id": "C06", "title": "self_xor keeps odd depth and self_intersect keeps depth two or more", "statement": "On a set with pending (uncleaned) inserts, self_xor leaves exactly the points whose overlap depth is odd and self_intersect exactly the points of depth at least two.", "quantifier": "every set of non-negatively weighted inserts, every point in the coordinate range", "why_tests_cant": "Depth is unbounded.", "anchors": ["include/boost/polygon/polygon_90_set_data.hpp: self_xor, self_intersect", "include/boost/polygon/detail/boolean_op.hpp: UnaryCount"]}
{"id": "C07", "title": "Inserting a rectangle covers exactly the rectangle; inserting it as a hole removes it", "statement": "Inserting rectangle R adds one to the coverage of exactly the points of R (half-open on the high sides) whatever the set's scanline orientation, and inserting it as a hole subtracts one there.", "quantifier": "every rectangle, either scanline orientation, every point, every prior content", "why_tests_cant": "All coordinates.", "anchors": ["include/boost/polygon/detail/iterator_geometry_to_set.hpp: iterator_geometry_to_set<rectangle_concept>", "include/boost/polygon/polygon_90_set_data.hpp: insert"]}
{"id": "C08", "title": "Inserting a Manhattan polygon covers points by their winding number, whichever way it is listed", "statement": "Inserting a rectilinear polygon adds to each point the absolute sense winding of the boundary around it: listing the same vertices clockwise or counter-clockwise or starting from another vertex gives the same coverage, and a simple polygon covers its interior once.", "quantifier": "every rectilinear vertex list with alternating edges, both windings, both scanline orientations, every point", "why_tests_cant": "Number of vertices is unbounded.", "anchors": ["include/boost/polygon/detail/iterator_geometry_to_set.hpp: iterator_geometry_to_set<polygon_90_concept>", "include/boost/polygon/polygon_traits.hpp: winding"]}
{"id": "C09", "title": "Transforming a Manhattan set transforms its region and keeps it canonical", "statement": "After S.transform(t) for any of the eight axis transformations, a point is covered exactly when its pre-image was; a clean set is still canonical after re-sorting.", "quantifier": "every set, all eight axis transformations, both scanline orientations, every point", "why_tests_cant": "Quantifies over all sets and points; sign/half-open off-by-ones show only on particular geometry.", "anchors": ["include/boost/polygon/polygon_90_set_data.hpp: transform, sort", "include/boost/polygon/transform.hpp: axis_transformation"]}
{"id": "C10", "title": "move and scale_up translate and scale the region, keep sortedness and cleanness", "statement": "After move(dx,dy) a point p is covered exactly when p-(dx,dy) was; after scale_up(k), k>0, exactly when the point divided by k was; sorted data stays sorted and canonical data stays canonical.", "quantifier": "every set, every displacement and factor for which no coordinate overflows", "why_tests_cant": "All sets, displacements and factors.", "anchors": ["include/boost/polygon/polygon_90_set_data.hpp: move, scale_up"]}
{"id": "C11", "title": "scale_down leaves a set whose observers are right", "statement": "After scale_down(k), empty(), size() and == still describe the covered region (a set that collapses to nothing reports empty).", "quantifier": "every set and factor", "why_tests_cant": "Needs coordinates that collide only after rounding.", "anchors": ["include/boost/polygon/polygon_90_set_data.hpp: scale_down, clean, empty"]}
{"id": "C12", "title": "empty() is exact and extents() is the least bounding box", "statement": "empty() is true exactly when no point is covered; extents() returns false exactly then, and otherwise returns the smallest rectangle that contains every covered point.", "quantifier": "every set", "why_tests_cant": "Tightness and coverage range over all sets.", "anchors": ["include/boost/polygon/polygon_90_set_data.hpp: empty, extents"]}
{"id": "C13", "title": "get_rectangles tiles the region", "statement": "The rectangles returned by get_rectangles are non-degenerate, have pairwise disjoint interiors and together cover exactly the points of the set.", "quantifier": "every clean set", "why_tests_cant": "The slicing scanline merges and splits open rectangles in ways that depend on unbounded column histories.", "anchors": ["include/boost/polygon/detail/rectangle_formation.hpp: processEdge_, ScanLineToRects, form_rectangles", "include/boost/polygon/polygon_90_set_data.hpp: get_rectangles"]}
{"id": "C14", "title": "area of a Manhattan set counts its unit cells", "statement": "area(S) equals the number of unit cells covered, and is additive over disjoint sets.", "quantifier": "every set", "why_tests_cant": "All sets.", "anchors": ["include/boost/polygon/polygon_90_set_concept.hpp: area", "include/boost/polygon/detail/rectangle_formation.hpp: form_rectangles"]}
{"id": "C15", "title": "Scanline orientation is unobservable in the region", "statement": "Copying vertex data into a set with the other scanline orientation covers the same points, so Boolean operations between sets of different orientations still compute the set operation.", "quantifier": "every set, both orientations", "why_tests_cant": "All sets.", "anchors": ["include/boost/polygon/polygon_90_set_data.hpp: insert (iterator range, vertex)", "include/boost/polygon/detail/polygon_90_set_view.hpp: insert_into_view_arg, compute_90_set_value"]}
{"id": "C16", "title": "Direction algebra is planar rotation", "statement": "For every Manhattan direction d, d.left() is d rotated by +90 degrees, d.right() by -90, d.backward() by 180; turn, orientation and sign accessors agree with the unit vector of d.", "quantifier": "all directions (finite table) and all points of the plane", "why_tests_cant": "The bit formula is opaque; correctness must be total over the table and compose any number of times.", "anchors": ["include/boost/polygon/isotropy.hpp: direction_2d, orientation_2d, direction_1d"]}
{"id": "C17", "title": "axis_transformation composition and inversion are those of the functions they denote", "statement": "(a + b) applied to p equals b applied to (a applied to p); a.invert() undoes a; set_directions(get_directions(a)) gives a; the eight values form a group acting faithfully.", "quantifier": "all pairs of the eight transformations, every point", "why_tests_cant": "Must hold for every point of the plane.", "anchors": ["include/boost/polygon/transform.hpp: axis_transformation::operator+=, invert, transform, get_directions, set_directions"]}
{"id": "C18", "title": "transformation (axis + offset): transform, inverse and composition", "statement": "invert() of a transformation undoes it on every point, and t1 + t2 applies t1 then t2.", "quantifier": "every transformation and point", "why_tests_cant": "All offsets and points; the composition code reads uninitialised variables.", "anchors": ["include/boost/polygon/transform.hpp: transformation::transform, invert, operator+="]}
{"id": "C19", "title": "anisotropic_scale_factor scales each axis by its own factor", "statement": "scale(x,y) multiplies x by the horizontal factor and y by the vertical factor.", "quantifier": "every pair of factors and point", "why_tests_cant": "All factor pairs.", "anchors": ["include/boost/polygon/transform.hpp: anisotropic_scale_factor::scale"]}
{"id": "C20", "title": "Interval predicates and intersection are exact set operations", "statement": "contains, intersects, intersect, abuts, boundaries_intersect and encompass on intervals agree with membership, intersection, adjacency and hull of the closed (or, without touching, open) real intervals they denote; intersect leaves its argument unchanged when it returns false; encompass returns whether it grew.", "quantifier": "all well-formed intervals, all real points, both touch flags", "why_tests_cant": "All coordinates; boundary equality cases.", "anchors": ["include/boost/polygon/interval_concept.hpp: contains, intersects, intersect, abuts, boundaries_intersect, encompass, generalized_intersect"]}
{"id": "C21", "title": "Interval convolution is the Minkowski sum, with deconvolution its inverse; bloat/shrink, flip, move, scale act pointwise", "statement": "convolve(a,b) denotes {x+y}, reflected_convolve {x-y}, deconvolve undoes convolve, bloat/shrink/flip/move/scale_up denote the image sets, join_with and get_half partition.", "quantifier": "all intervals and scalars", "why_tests_cant": "All coordinates.", "anchors": ["include/boost/polygon/interval_concept.hpp: convolve, deconvolve, reflected_convolve, bloat, shrink, flip, move, scale_up, join_with, get_half, center"]}
{"id": "C22", "title": "Rectangle predicates and intersection are exact set operations", "statement": "contains, intersects, intersect, encompass, abuts and set_points on rectangles agree with the closed (open without touch) point sets; intersect(r,b,touch) returns true exactly when it clipped r to the intersection.", "quantifier": "all well-formed rectangles, all points, both touch flags", "why_tests_cant": "All coordinates; the touch flag is used inconsistently on one path.", "anchors": ["include/boost/polygon/rectangle_concept.hpp: contains, intersects, intersect, encompass, abuts, generalized_intersect, set_points"]}
{"id": "C23", "title": "Rectangle distances are the minimum over their points", "statement": "manhattan_distance and square_euclidean_distance between a rectangle and a point, or two rectangles, equal the minimum distance over all pairs of points; zero exactly when they touch.", "quantifier": "all well-formed rectangles and points", "why_tests_cant": "Minimum over infinitely many point pairs.", "anchors": ["include/boost/polygon/rectangle_concept.hpp: euclidean_distance, square_euclidean_distance, manhattan_distance", "include/boost/polygon/interval_concept.hpp: euclidean_distance"]}
{"id": "C24", "title": "Rectangle algebra: area, perimeter, convolve, scale and half are consistent", "statement": "convolve of rectangles is the Minkowski sum of the point sets; area and half_perimeter are the products/sums of side lengths; get_half halves partition; scale_up scales the point set.", "quantifier": "all rectangles", "why_tests_cant": "All coordinates.", "anchors": ["include/boost/polygon/rectangle_concept.hpp: convolve, area, half_perimeter, get_half, join_with, scale_up, scale"]}
{"id": "C25", "title": "Comparators used as ordered-container keys are strict weak orders", "statement": "operator< on points, intervals, property-merge keys and less_rectangle_concept in either orientation are irreflexive, transitive, with transitive incomparability; for rectangles incomparability is equality.", "quantifier": "all triples of keys", "why_tests_cant": "A comparator bug needs particular triples; std::set/std::map then have undefined behaviour.", "anchors": ["include/boost/polygon/point_data.hpp: operator<", "include/boost/polygon/interval_data.hpp: operator<", "include/boost/polygon/rectangle_concept.hpp: less_rectangle_concept", "include/boost/polygon/detail/property_merge.hpp: property_merge_point, less_vertex_data", "include/boost/polygon/detail/max_cover.hpp: lessEdgeAssociation"]}
{"id": "C26", "title": "Segment orientation is exact for every 32-bit input", "statement": "orientation(segment, segment) and orientation(segment, point) return the sign of the exact cross product for all 32-bit integer coordinates, with no signed overflow in any intermediate value.", "quantifier": "all quadruples of 32-bit points", "why_tests_cant": "2^256 inputs; only extreme coordinates overflow.", "anchors": ["include/boost/polygon/segment_concept.hpp: orientation", "include/boost/polygon/isotropy.hpp: coordinate_traits<int>"]}
{"id": "C27", "title": "Segment containment is exact", "statement": "contains(segment, point, touch) holds exactly when the point lies on the closed (touch) or open (no touch) segment; contains(segment, segment) exactly when both endpoints do.", "quantifier": "all integer segments and points", "why_tests_cant": "All coordinates incl. degenerate.", "anchors": ["include/boost/polygon/segment_concept.hpp: contains"]}
{"id": "C28", "title": "intersects(segment, segment) is exact and symmetric", "statement": "intersects(s1,s2,true) holds exactly when the closed segments share a (rational) point, including collinear overlap and degenerate segments, and is symmetric and invariant under reversing either segment.", "quantifier": "all pairs of integer segments", "why_tests_cant": "All coordinates incl. collinear and degenerate configurations.", "anchors": ["include/boost/polygon/segment_concept.hpp: intersects, orientation, contains"]}
{"id": "C29", "title": "Segment distances are true distances", "statement": "euclidean_distance(segment, point) is the minimum distance from the point to the segment's points, also when the segment is degenerate.", "quantifier": "all segments and points", "why_tests_cant": "Minimum over infinitely many points; the degenerate case divides by zero length.", "anchors": ["include/boost/polygon/segment_concept.hpp: euclidean_distance"]}
{"id": "C30", "title": "Polygon area is the shoelace area, independent of start vertex, position and closing convention", "statement": "point_sequence_area of a vertex list equals the signed shoelace sum divided by two (exactly, for Manhattan edges with integer arithmetic); it is unchanged by rotation of the start vertex, by translation and by an explicit repeated closing vertex, and negated by reversal; winding is its sign.", "quantifier": "every vertex list", "why_tests_cant": "Unbounded lists.", "anchors": ["include/boost/polygon/polygon_traits.hpp: point_sequence_area, area, winding"]}
{"id": "C31", "title": "Point-in-polygon for general polygons is boundary + even-odd parity", "statement": "contains(polygon, point, touch) returns touch when the point lies on an edge or vertex, and otherwise returns whether a vertical ray from the point crosses the boundary an odd number of times.", "quantifier": "every polygon vertex list, every point", "why_tests_cant": "Unbounded lists; vertex-grazing and vertical-edge cases.", "anchors": ["include/boost/polygon/polygon_traits.hpp: contains, edge_utils"]}
{"id": "C32", "title": "Point-in-polygon for Manhattan polygons is boundary + even-odd parity", "statement": "contains(polygon_90, point, touch) returns touch on the boundary and otherwise the crossing parity.", "quantifier": "every rectilinear polygon with alternating edges, every point", "why_tests_cant": "Half-edge counting at shared endpoints is only right in total.", "anchors": ["include/boost/polygon/polygon_traits.hpp: contains (polygon_90)"]}
{"id": "C33", "title": "Compact Manhattan polygon encoding round-trips", "statement": "Expanding the alternating coordinate list stored by polygon_90_data gives a closed alternating rectilinear vertex list, and compacting that list returns the stored coordinates.", "quantifier": "every coordinate list", "why_tests_cant": "Unbounded lists.", "anchors": ["include/boost/polygon/detail/iterator_compact_to_points.hpp", "include/boost/polygon/detail/iterator_points_to_compact.hpp", "include/boost/polygon/polygon_90_data.hpp"]}
{"id": "C34", "title": "Slope and above/below predicates are exact for every 32-bit input", "statement": "equal_slope, less_slope and on_above_or_below used by point-in-polygon return the exact comparison for all 32-bit coordinates without overflow.", "quantifier": "all 32-bit points", "why_tests_cant": "Only extreme coordinates overflow.", "anchors": ["include/boost/polygon/polygon_traits.hpp: edge_utils::equal_slope, less_slope, on_above_or_below"]}
{"id": "C35", "title": "extended_int add, subtract and multiply are exact", "statement": "+, - and * of the fixed-capacity big integer return the exact integer result whenever it fits the capacity.", "quantifier": "all operands reachable by arithmetic from machine integers, all sizes", "why_tests_cant": "Carry and borrow chains of unbounded length.", "anchors": ["include/boost/polygon/detail/voronoi_ctypes.hpp: extended_int::add, dif, mul"]}
{"id": "C36", "title": "extended_int comparison, equality and sign are those of the value", "statement": "==, <, is_zero, is_pos and is_neg on big integers agree with the represented value.", "quantifier": "all values reachable by arithmetic", "why_tests_cant": "Needs a representation that is not canonical, produced only by long borrow chains.", "anchors": ["include/boost/polygon/detail/voronoi_ctypes.hpp: extended_int::operator==, operator<, is_zero, dif"]}
{"id": "C37", "title": "ulp_comparison orders doubles by value with an exact tolerance", "statement": "For finite doubles, ulp_comparison(a,b,n) is EQUAL exactly when at most n representable values lie between them (counting the two zeros as one), and otherwise LESS or MORE according to the real order; swapping arguments swaps LESS and MORE.", "quantifier": "all pairs of finite IEEE-754 doubles, all tolerances", "why_tests_cant": "2^128 pairs; sign and zero boundary.", "anchors": ["include/boost/polygon/detail/voronoi_ctypes.hpp: ulp_comparison"]}
{"id": "C38", "title": "Voronoi orientation test is exact for every 32-bit triple", "statement": "orientation_test on three points returns LEFT/RIGHT/COLLINEAR according to the exact determinant for all 32-bit points, with no unsigned wrap-around affecting the result.", "quantifier": "all triples of 32-bit points", "why_tests_cant": "Wrap-around occurs only for special extreme products.", "anchors": ["include/boost/polygon/detail/voronoi_predicates.hpp: robust_cross_product, orientation_test"]}
{"id": "C39", "title": "Site ordering is a strict weak order under which equal sites are adjacent", "statement": "The comparison used to sort Voronoi sites is a strict weak order on sites whose first endpoint precedes the second, and equivalent sites are identical or collinear segments from the same start, so sort+unique removes every duplicate of non-overlapping input.", "quantifier": "all sites with 32-bit coordinates", "why_tests_cant": "A failure needs particular triples.", "anchors": ["include/boost/polygon/detail/voronoi_predicates.hpp: event_comparison_predicate, point_comparison_predicate", "include/boost/polygon/voronoi_builder.hpp: insert_point, insert_segment, init_sites_queue"]}
{"id": "C40", "title": "Voronoi half-edge topology is consistent after any construction sequence", "statement": "In every diagram built by any sequence of site and circle events on the beach line, twin is a fixed-point-free involution pairing edges 2k and 2k+1, next and prev are mutually inverse where set, next stays in the same cell, and an edge starts at the vertex where its predecessor ends.", "quantifier": "every event sequence, whatever the geometric predicates answer", "why_tests_cant": "All event orders, including those produced by inexact floating-point predicates.", "anchors": ["include/boost/polygon/voronoi_diagram.hpp: _insert_new_edge, _build, remove_edge", "include/boost/polygon/voronoi_builder.hpp: process_site_event, process_circle_event, insert_new_arc"]}
{"id": "C41", "title": "robust_dif represents exact differences of non-negative sums", "statement": "Every operator of robust_dif yields a value whose dif() is the corresponding operation on the operands' dif(), while both sums stay non-negative.", "quantifier": "all expression trees over an exact ordered field", "why_tests_cant": "Unbounded expressions.", "anchors": ["include/boost/polygon/detail/voronoi_robust_fpt.hpp: robust_dif"]}
{"id": "C42", "title": "Square-root expressions are evaluated to the right algebraic value", "statement": "In exact arithmetic eval1..eval4 return sum A[i]*sqrt(B[i]) for all non-negative B, never dividing by zero.", "quantifier": "all integer A and non-negative B", "why_tests_cant": "Cancellation branch conditions depend on real values.", "anchors": ["include/boost/polygon/detail/voronoi_robust_fpt.hpp: robust_sqrt_expr"]}
{"id": "C43", "title": "Property merge partitions the plane by property set", "statement": "After merging, a point belongs to the polygon set keyed by P exactly when P is the non-empty set of properties whose inserted geometry covers it.", "quantifier": "every collection of geometry with properties, every point", "why_tests_cant": "All overlaps of unboundedly many layers.", "anchors": ["include/boost/polygon/detail/property_merge.hpp: merge_scanline", "include/boost/polygon/polygon_90_set_data.hpp: property_merge_90"]}
{"id": "C44", "title": "Connectivity extraction links exactly touching geometry", "statement": "Two nodes of connectivity_extraction_90 are linked exactly when their closed regions share a point; the relation is symmetric and irreflexive.", "quantifier": "every collection of regions", "why_tests_cant": "All arrangements, including corner touches across scan events.", "anchors": ["include/boost/polygon/detail/polygon_90_touch.hpp: TouchOp, performTouch", "include/boost/polygon/polygon_90_set_data.hpp: connectivity_extraction_90"]}
{"id": "C45", "title": "Simplification only removes vertices within the tolerance", "statement": "simplify removes a vertex only if it is within the tolerance of the segment joining its current neighbours, and the result has no removable vertex left.", "quantifier": "all vertex lists and tolerances", "why_tests_cant": "All coordinates; the clamping test mixes up the axes.", "anchors": ["include/boost/polygon/detail/polygon_simplify.hpp: simplify"]}
{"id": "C46", "title": "Const observers do not change later results", "statement": "Calling empty(), size(), ==, extents() or get() on a set never changes what any later operation returns.", "quantifier": "every operation history", "why_tests_cant": "Interleavings of observers and mutators.", "anchors": ["include/boost/polygon/polygon_90_set_data.hpp: clean, self_xor, self_intersect, interact"]}
{"id": "C47", "title": "is_45 answers for the holes as well", "statement": "is_45 on a polygon with holes is true exactly when every edge of the outer boundary and of every hole is axis-parallel or at 45 degrees.", "quantifier": "all polygons with holes", "why_tests_cant": "All vertex lists.", "anchors": ["include/boost/polygon/polygon_traits.hpp: is_45, point_sequence_is_45"]}
{"id": "C48", "title": "Voronoi colour and category bit-fields do not interfere", "statement": "Setting the colour of a cell, vertex or edge and reading it back gives the colour (when it fits), and never changes the source category, linear or primary attributes; contains_point/contains_segment agree with how the site was inserted.", "quantifier": "all colours and categories", "why_tests_cant": "All word values.", "anchors": ["include/boost/polygon/voronoi_diagram.hpp: voronoi_cell, voronoi_vertex, voronoi_edge", "include/boost/polygon/voronoi_geometry_type.hpp: belongs", "include/boost/polygon/detail/voronoi_structures.hpp: site_event"]}
{"id": "C49", "title": "Resizing a Manhattan polygon moves every edge outward by its own amount", "statement": "bloat's vertex modification turns a counter-clockwise rectilinear polygon into the one whose west/east/south/north facing edges are displaced by exactly the requested amounts; removing collinear vertices does not change the boundary.", "quantifier": "all rectilinear polygons and amounts", "why_tests_cant": "Unbounded vertex lists.", "anchors": ["include/boost/polygon/polygon_90_set_data.hpp: modify_pt, resize_poly_up, remove_colinear_pts"]}
{"id": "C50", "title": "bloat2 is the Minkowski sum with the sizing rectangle", "statement": "After bloat2(w,e,s,n) a point is covered exactly when the set covers some point within the reflected sizing rectangle around it.", "quantifier": "every set and sizing", "why_tests_cant": "All sets.", "anchors": ["include/boost/polygon/polygon_90_set_data.hpp: bloat2"]}
{"id": "C51", "title": "Point distances are exact for every pair of 32-bit points", "statement": "manhattan_distance, distance_squared and euclidean_distance of two points with int coordinates return the exact value without signed overflow whenever the result type can hold it.", "quantifier": "all pairs of points with 32-bit coordinates", "why_tests_cant": "2^128 pairs; overflow only shows for far-apart points.", "anchors": ["include/boost/polygon/point_concept.hpp: euclidean_distance, manhattan_distance, distance_squared"]}
{"id": "C52", "title": "envelope_segments returns the smallest rectangle around the segments", "statement": "For a non-empty range envelope_segments returns true and the smallest closed rectangle containing every point of every segment; for an empty range it returns false.", "quantifier": "all finite segment ranges", "why_tests_cant": "Unbounded ranges.", "anchors": ["include/boost/polygon/segment_utils.hpp: envelope_segments"]}
{"id": "C53", "title": "Manhattan polygon area does not overflow in 64 bits", "statement": "For a rectilinear polygon whose vertices are int and whose area fits the 64-bit area type, area() computes that area without signed overflow.", "quantifier": "all rectilinear polygons with 32-bit coordinates", "why_tests_cant": "Unbounded vertex lists over a 2^64 plane; the intermediate sums overflow only for extreme coordinates.", "anchors": ["include/boost/polygon/polygon_traits.hpp: point_sequence_area, area (polygon_90_concept)"]}
{"id": "C54", "title": "get_rectangles returns full slices", "statement": "Each rectangle written by get_rectangles is maximal along the scanline orientation: immediately beyond its two ends in that direction no point of the set lies next to it.", "quantifier": "every polygon set", "why_tests_cant": "All sets.", "anchors": ["include/boost/polygon/detail/rectangle_formation.hpp: form_rectangles", "include/boost/polygon/polygon_90_set_data.hpp: get_rectangles"]}
{"id": "C55", "title": "shrink2 is the erosion by the sizing rectangle", "statement": "After shrink2(w,e,s,n) a point is covered exactly when the set covered the whole sizing rectangle around it.", "quantifier": "every polygon set and every sizing that does not overflow", "why_tests_cant": "All sets; the code works on the complement inside a bloated bounding box and relies on cancellation of its outline.", "anchors": ["include/boost/polygon/polygon_90_set_data.hpp: shrink2"]}
{"id": "C56", "title": "Closing and opening with bloat2 and shrink2", "statement": "bloat2 followed by shrink2 with the same amounts covers at least the original set; shrink2 followed by bloat2 covers at most the original set.", "quantifier": "every polygon set and every sizing that does not overflow", "why_tests_cant": "All sets.", "anchors": ["include/boost/polygon/polygon_90_set_data.hpp: bloat2, shrink2"]}
{"id": "C57", "title": "Comparison of two segment directions is exact", "statement": "The orientation of two segment directions used by the Voronoi predicates (parallel, turning left, turning right) is the sign of the exact cross product for all segments with 32-bit end points.", "quantifier": "all pairs of segments with 32-bit end points", "why_tests_cant": "Wrap-around of the sum of two 64-bit products hits zero only for particular coordinates.", "anchors": ["include/boost/polygon/detail/voronoi_predicates.hpp: robust_cross_product, orientation_test, distance_predicate::fast_ps, lazy_circle_formation_functor"]}
{"id": "C58", "title": "Resizing in one direction dilates or erodes exactly along that direction", "statement": "For every Manhattan polygon set, bloat(direction, amount) succeeds and covers a point exactly when going back by some distance in [0, amount] leads into the original set; shrink(direction, amount) covers a point exactly when the whole stretch of length amount from it in that direction lies in the original set. Slivers and small holes vanish accordingly. The same holds polygon-wise for any regular polygon list (counter-clockwise outer boundaries, clockwise holes inside them, no point covered twice, no coincident opposite edges).", "quantifier": "every set a program can build, all four directions, every amount >= 0, every rational point", "why_tests_cant": "Unbounded vertex lists, any number of holes, all relative sizes of holes and amounts.", "anchors": ["include/boost/polygon/polygon_90_set_data.hpp: bloat, shrink, resize_poly_up, resize_poly_down, modify_pt, remove_colinear_pts"]}
{"id": "C59", "title": "The finished Voronoi diagram can be walked", "statement": "After construction every cell that has an edge knows one of its edges, following next from it stays in the cell and returns to it, next and prev are mutually inverse, edges start where their predecessor ends, and no edge refers to a vertex that was removed.", "quantifier": "every finished event sequence and every reflexive vertex equality test", "why_tests_cant": "Zero-length edges are removed and vertices renumbered in place; failures depend on which vertices coincide.", "anchors": ["include/boost/polygon/voronoi_diagram.hpp: _build, remove_edge"]}
{"id": "C60", "title": "The Voronoi sweep ends within its reserved memory", "statement": "For n sites the sweep processes at most 3n events and never creates more than n cells, 2n vertices or 6n half-edges, so the vectors reserved beforehand are never reallocated and pointers stored during the sweep stay valid, whatever the geometric predicates answer.", "quantifier": "every number of sites, every event sequence, every answer of the predicates", "why_tests_cant": "A reallocation needs an input whose rounding errors create more events than exact geometry does.", "anchors": ["include/boost/polygon/voronoi_diagram.hpp: _reserve, _insert_new_edge", "include/boost/polygon/voronoi_builder.hpp: construct, process_site_event, process_circle_event"]}
{"id": "C61", "title": "Reading polygons with holes gives a proper decomposition of the set", "statement": "For every Manhattan polygon set, get into polygons with holes succeeds; each returned boundary has at least four vertices, alternates between horizontal and vertical edges, has no zero-length edge and stays within the coordinate range; outer boundaries are counter-clockwise and holes clockwise, each going round any point at most once; and the winding numbers of all boundaries add up to 1 at every point of the set and to 0 at every other point.", "quantifier": "every set a program can build, either scan orientation, every point of the plane", "why_tests_cant": "The scan keeps open chains, pending holes and an ordered map across columns; corner contacts, nested holes and islands combine in unboundedly many ways.", "anchors": ["include/boost/polygon/detail/polygon_formation.hpp: ScanLineToPolygonItrs::processEdges, joinChains, createActiveTailsAsPair, ActiveTail, PolyLine, get_polygons", "include/boost/polygon/polygon_90_set_data.hpp: get, get_polygons_with_holes"]}
{"id": "C62", "title": "Reading polygons without holes partitions the set", "statement": "For every Manhattan polygon set, get into polygons without holes succeeds; each polygon is a proper Manhattan boundary in range, clockwise, going round any point at most once; no point lies in two of the polygons; and the points lying in the polygons are exactly the points of the set.", "quantifier": "every set a program can build, either scan orientation, every point of the plane", "why_tests_cant": "Holes are cut open by joining chains at run time; whether cuts duplicate or drop area depends on arbitrary nesting and ordering.", "anchors": ["include/boost/polygon/detail/polygon_formation.hpp: processEdges (fractureHoles), ActiveTail::addHole, get_polygons", "include/boost/polygon/polygon_90_set_data.hpp: get, get_polygons"]}
{"id": "C63", "title": "Polygons read from a set rebuild the same set", "statement": "Inserting all polygons read from a set, with or without holes, into an empty set of the same orientation and cleaning gives stored data identical to the cleaned original.", "quantifier": "every set, both forms of output, both orientations", "why_tests_cant": "Requires agreement of two independent algorithms on all inputs.", "anchors": ["include/boost/polygon/polygon_90_set_data.hpp: get, insert, clean", "include/boost/polygon/detail/polygon_formation.hpp: get_polygons", "include/boost/polygon/detail/iterator_geometry_to_set.hpp"]}
{"id": "C64", "title": "Holes read from a set lie inside their own polygon", "statement": "Of the polygons with holes that get returns, every hole lies inside the outer boundary it is attached to, the holes of one polygon do not overlap, no point lies in two of the polygons (inside the outer boundary and in none of its holes), and the points lying in the polygons are exactly the points of the set.", "quantifier": "every set a program can build, either scan orientation, every point of the plane", "why_tests_cant": "A hole is attached to whichever open chain is next above it when it closes; which chain that is depends on all later joins, with unbounded nesting.", "anchors": ["include/boost/polygon/detail/polygon_formation.hpp: processEdges, ActiveTail::addHole, copyHoles, joinChains, get_polygons", "include/boost/polygon/polygon_90_set_data.hpp: get, get_polygons_with_holes"]}
{"id": "C65", "title": "Polygons read from a set use every stretch of its boundary exactly once", "statement": "Cut the plane into unit cells. Of the polygons with holes that get returns, exactly one edge runs along the side shared by two neighbouring cells when one of them is in the set and the other is not, and no edge runs along it otherwise; so returned polygons never abut along an edge, no boundary doubles back on itself, and walking along any edge the set is on the left and its complement on the right.", "quantifier": "every set a program can build, either scan orientation, every unit side of the grid", "why_tests_cant": "Whether a stretch is emitted twice or dropped depends on how chains are joined, closed and attached over the whole sweep.", "anchors": ["include/boost/polygon/detail/polygon_formation.hpp: processEdges, joinChains, ActiveTail::addHole, copyHoles, get_polygons", "include/boost/polygon/polygon_90_set_data.hpp: get"]}
{"id": "C66", "title": "interact keeps exactly the polygons that touch the other set", "statement": "Let s and t be Manhattan polygon sets of any orientations. After s.interact(t), s covers exactly the union of those polygons of s (as get returns them) whose closed region shares a point with the closed region of t, and compares equal to any set covering the same points.", "quantifier": "all pairs of polygon sets reachable through the API, every point of the plane", "why_tests_cant": "The result depends on every pair of a polygon of s and the set t; a test fixes finitely many layouts and one history of lazy flags.", "anchors": ["include/boost/polygon/polygon_90_set_data.hpp: interact", "include/boost/polygon/detail/polygon_90_touch.hpp: touch_90_operation"]}
{"id": "C67", "title": "get_max_rectangles writes exactly the maximal rectangles", "statement": "`get_max_rectangles(out, set)` terminates and appends to `out` exactly the maximal rectangles of the set: those rectangles inside the covered region that are not contained in a larger rectangle inside it. Each is written once, so every rectangle inside the region lies in one of them and their union is the region.", "quantifier": "all Manhattan polygon sets (any history of insertions and operations, either orientation, holes and corner contacts included)", "why_tests_cant": "The traversal keeps an explicit stack and marks intervals as traced per node; whether some maximal rectangle is skipped because its interval was already traced from another start, or written twice, depends on the whole arrangement of the slices, and the number of maximal rectangles grows with it; tests only compare a few shapes", "anchors": ["include/boost/polygon/detail/max_cover.hpp: MaxCover::getMaxCover, MaxCover::computeDag", "include/boost/polygon/polygon_90_set_concept.hpp: get_max_rectangles"]}
{"id": "C68", "title": "Boolean operations on edges at arbitrary angles compute the exact region", "statement": "Take the edges of two operands after they have been cut at their intersections, so that different edges meet only in common end points. The scan of the union, intersection, exclusive or or difference terminates, and the edges it writes enclose exactly the points of the result: the net count of written edges below a point is 1 when the point belongs to the result and 0 when it does not. The order used to sort the edges is a strict weak order.", "quantifier": "all closed planar edge lists with any multiplicities (overlapping, nested, touching, with vertical edges and with several edges at a vertex), the four operations, every sorted order of equal edges, every rational point of the plane", "why_tests_cant": "The scanline is a map whose order changes with the sweep position; a wrong neighbour at one vertex corrupts only particular arrangements.", "anchors": ["include/boost/polygon/detail/scan_arbitrary.hpp: scanline, arbitrary_boolean_op, boolean_output_functor", "include/boost/polygon/detail/polygon_arbitrary_formation.hpp: scanline_base::less_half_edge, less_slope, on_above_or_below"]}
{"id": "C69", "title": "Boolean results at arbitrary angles are closed and clean", "statement": "Every edge written by a Boolean operation is one of the cut edges of the operands, no edge is written twice, all counts are 1 or -1, different edges meet only in common end points, and at every point as much enters as leaves, so the edges form closed polygons and the result can be used as an operand again.", "quantifier": "all closed planar edge lists, the four operations, every point", "why_tests_cant": "A missing or doubled edge appears only for particular local configurations at a vertex.", "anchors": ["include/boost/polygon/detail/scan_arbitrary.hpp: scanline::handle_input_events, boolean_output_functor"]}
{"id": "C70", "title": "equivalence of arbitrary-angle sets means equal regions", "statement": "A Boolean operation writes nothing exactly when its result region is empty. In particular the exclusive or of two sets, used by equivalence, writes nothing exactly when the two sets cover the same points.", "quantifier": "all pairs of closed planar edge lists, every rational point", "why_tests_cant": "Zero-area remains such as vertical spikes would make equal sets compare different only for particular inputs.", "anchors": ["include/boost/polygon/polygon_set_concept.hpp: equivalence", "include/boost/polygon/detail/scan_arbitrary.hpp: arbitrary_boolean_op"]}
{"id": "C71", "title": "Inserting polygons at arbitrary angles adds exactly their winding numbers", "statement": "Inserting a polygon, a polygon with holes or another set into a polygon_set_data adds to the depth of every point of the plane the winding number of the outline taken counter-clockwise minus those of the holes (negated when inserted as a hole). The result does not depend on the first vertex of a list, nor on the direction of a list of non-zero area. The stored edges always form closed curves and run left to right (upwards when vertical). scale_up scales the depth with the plane and scale_down, whatever the rounding, keeps the curves closed.", "quantifier": "All vertex lists, all lists of holes, all histories of insertions, all points of the rational plane, all scale factors and roundings", "why_tests_cant": "Each insertion is a sum over edges and every point of the plane is a test; sign conventions for vertical and reversed edges combine and a test polygon exercises only a few of them", "anchors": ["include/boost/polygon/polygon_set_data.hpp: insert, insert_clean, insert_vertex_sequence, scale_up, scale_down", "include/boost/polygon/polygon_traits.hpp: winding"]}
{"id": "C72", "title": "concept_downcast reports the narrowest concept that fits the contents", "statement": "polygon_set_data::concept_downcast returns the Manhattan set concept when every edge is horizontal or vertical, the 45-degree concept when every edge is axis parallel or diagonal, and the general concept otherwise. (Violated: any axis-parallel edge makes it return the general concept, because the test for a non-Manhattan edge uses or instead of and.)", "quantifier": "All edge lists", "why_tests_cant": "The function is not called by the library or its tests; its wrong answers are safe, so no downstream test shows them", "anchors": ["include/boost/polygon/polygon_set_data.hpp: concept_downcast"]}
{"id": "C73", "title": "Cutting segments at their intersections keeps closed curves closed", "statement": "Before a Boolean operation on arbitrary-angle sets the edges are cut where they meet and moved to lattice points. Whatever the rounding of the intersection points, at every lattice point what enters minus what leaves is unchanged for each operand, so closed curves stay closed; every piece runs left to right (upwards when vertical), belongs to the operand of the edge it comes from and stays in the bounding box of that edge.", "quantifier": "All edge lists, all layers, all lattice points, all roundings that keep an ordinate within the extent of its segment", "why_tests_cant": "The number of arrangements of crossing segments is unbounded and a single miscounted piece makes the later scan emit open curves; tests use a few arrangements and one rounding", "anchors": ["include/boost/polygon/detail/scan_arbitrary.hpp: line_intersection::validate_scan, validate_scan_divide_and_conquer, segment_intersections", "include/boost/polygon/detail/polygon_arbitrary_formation.hpp: compute_intersection_pack, intersects_grid"]}
{"id": "C74", "title": "Arbitrary-angle operations are exact on rectilinear input", "statement": "For sets of polygons (with holes, any winding, any overlaps, any history of insertions) all of whose edges are horizontal or vertical, |, &, ^ and - of polygon_set_data, clean(), equality and expressions of any depth in these operators cover exactly the points they denote, for every result of the floating point unit; the results are closed, planar, without repeated edges and rectilinear, and are empty exactly when the region is.", "quantifier": "All rectilinear sets, all expressions, all points of the plane, all floating point results", "why_tests_cant": "Regions have infinitely many points and expressions unbounded depth; the floating point unit cannot be varied by a test", "anchors": ["include/boost/polygon/polygon_set_data.hpp: polygon_set_data", "include/boost/polygon/detail/polygon_set_view.hpp: execute_boolean_op, polygon_set_view, operator==", "include/boost/polygon/detail/scan_arbitrary.hpp: arbitrary_boolean_op::execute"]}
{"id": "C75", "title": "Arbitrary-angle operations are exact when edges meet in lattice points", "statement": "For sets of polygons at any angle whose edges meet in lattice points, and pass through the unit square of an end point or meeting point only when they pass through the point itself, the operators give exactly the region they denote, in canonical form, and so do expressions of any depth, as long as the arithmetic is exact where the exact result is an integer.", "quantifier": "All closed edge lists that meet in lattice points, all expressions, all points of the plane, all arithmetics exact on integers", "why_tests_cant": "Exactness is a claim about every point of the plane and about results fed back as operands any number of times", "anchors": ["include/boost/polygon/polygon_set_concept.hpp: operators", "include/boost/polygon/detail/polygon_set_view.hpp: execute_boolean_op", "include/boost/polygon/detail/scan_arbitrary.hpp: arbitrary_boolean_op::execute, line_intersection"]}
{"id": "C76", "title": "Rounding of intersections moves boundaries by less than a unit", "statement": "With exact arithmetic rounded down, the Boolean operations on arbitrary sets of polygons at any angle succeed; at every point whose unit square (the point as its lower left corner) no edge of the operands meets, the result is exactly right; every edge of the result joins end points or corners of intersection points and stays less than a unit, in each coordinate, from an edge of an operand; the result is planar, closed and without repeated edges, so it can be used as an operand again.", "quantifier": "All closed sets of edges at any angle, all points of the plane", "why_tests_cant": "Moving one segment can push it across the end point of another; that this never happens is a theorem about all arrangements (Hobby), not a matter of cases", "anchors": ["include/boost/polygon/detail/scan_arbitrary.hpp: arbitrary_boolean_op::execute, line_intersection", "include/boost/polygon/detail/polygon_arbitrary_formation.hpp: compute_intersection_pack::compute_exact_intersection, intersects_grid"]}
{"id": "C77", "title": "Equality and cleaning of arbitrary-angle sets respect the region", "statement": "Two sets compare equal exactly when they cover the same points (so equality is transitive), the union of a set with a part of it covers the same points as the set, and cleaning a clean set does not change it. (Violated, even with exact arithmetic: moving edges to nearby end points loses points of the larger set, makes different sets compare equal, makes equality non-transitive and makes a second cleaning change the result of the first.)", "quantifier": "All pairs and triples of sets, all points", "why_tests_cant": "The properties hold for most inputs; the counterexamples need an end point within a unit of an edge", "anchors": ["include/boost/polygon/detail/polygon_set_view.hpp: operator==, clean", "include/boost/polygon/polygon_set_concept.hpp: equivalence, operator|"]}
{"id": "C78", "title": "Cutting segments at their intersections keeps every segment and leaves no crossing", "statement": "intersect_segments cuts any list of segments into pieces. The pieces with the index of a segment lead from its lower to its upper end without a gap and stay in its bounding box; it does not matter from which end a segment is given. Horizontal and vertical segments are cut exactly: their pieces cover the same points, and two pieces that are not the same meet only in end points. The same holds for segments that meet in lattice points. For arbitrary segments and exact arithmetic pieces still meet only in end points, and pieces and segments stay within a unit of each other.", "quantifier": "every finite list of segments with integer end points, of any size, direction, overlap and angle; every floating point result within the stated assumptions", "why_tests_cant": "Crossings left over after rounding depend on the joint position of many segments; no finite set of examples covers them.", "anchors": ["include/boost/polygon/segment_utils.hpp: intersect_segments", "include/boost/polygon/detail/scan_arbitrary.hpp: line_intersection::validate_scan, segment_intersections"]}
{"id": "C79", "title": "Merging labelled polygons at any angle splits the plane by the exact set of labels", "statement": "Polygons, with holes, at any angle are inserted into the property merge with a label each, possibly as holes and in any order. The merge then succeeds and gives a map from sets of labels to polygon sets such that the entry of a set of labels is exactly the region covered by the polygons with those labels and by no polygon with another label, at depth one, with edges that meet only in end points; there is no entry for the empty set or for a set of labels that covers nothing. This holds exactly for rectilinear polygons whatever the floating point unit computes, and for polygons whose edges meet in lattice points; for other polygons, with exact arithmetic, at every point further than a unit from all edges.", "quantifier": "all histories of insertions of labelled polygons with holes, all label sets, all points", "why_tests_cant": "labels interact with the order of insertion, coincident edges and the depth of every other label; only finitely many arrangements can be tried", "anchors": ["include/boost/polygon/detail/scan_arbitrary.hpp: arbitrary_boolean_op, property_merge::insert, property_merge::merge, merge_output_functor", "include/boost/polygon/polygon_set_data.hpp: insert_clean"]}
{"id": "C80", "title": "Connectivity extraction links exactly the polygon sets that touch", "statement": "Polygon sets at any angle are inserted into the connectivity extraction one after the other and numbered from zero. Extraction succeeds and the resulting graph links two different numbers exactly if the closed regions of the two sets share a point: they overlap, or meet in an edge or a corner; the graph is symmetric and names only inserted sets. Exact for rectilinear sets whatever the floating point unit computes, and for sets whose edges meet in lattice points; with exact arithmetic the graph is that of regions that differ from the inserted ones only within two units of their own outlines. (Violated when no inserted set has an edge: the scan then reads the first element of an empty vector, so interact of two empty sets has undefined behaviour.)", "quantifier": "every finite sequence of polygon sets, each built by any history of insertions of polygons with holes, cleaned before or not", "why_tests_cant": "Touching depends on all edges of all sets at a time: sets may touch in one corner only, or along parts of edges, or sit in a hole of another", "anchors": ["include/boost/polygon/polygon_set_data.hpp: connectivity_extraction::insert, extract, polygon_set_data::interact", "include/boost/polygon/detail/scan_arbitrary.hpp: connectivity_extraction::execute, process_previous_x, connectivity_extraction_output_functor"]}
{"id": "C81", "title": "Polygons taken from a set at any angle cover its region", "statement": "Taking polygons with holes from a polygon set at any angle succeeds. Every outline is closed and has at least three sides, outer outlines and holes together use each boundary edge of the cleaned set exactly once, directed with the region on its left, and nothing else. Each polygon is proper: its outer outline winds once, counterclockwise, around the points it encloses, each of its holes once, clockwise; holes lie inside their own outer outline and apart from each other. Where the set covers a point exactly one polygon contains it, elsewhere none: exactly for rectilinear sets whatever the floating point unit computes and for sets whose edges meet in lattice points; with exact arithmetic in general, at every point whose unit square no edge of the set meets.", "quantifier": "every history of insertions of polygons with holes at any angle, every order in which equal edges are sorted", "why_tests_cant": "Outlines are chained together across the whole sweep, holes are handed upwards from one active chain to another, and several outlines may meet in one vertex in any number and slope", "anchors": ["include/boost/polygon/polygon_set_data.hpp: get, get_dispatch, get_fracture", "include/boost/polygon/detail/polygon_arbitrary_formation.hpp: polygon_arbitrary_formation::scan, processEvent_, processPoint_, active_tail_arbitrary, poly_line_arbitrary"]}
{"id": "C82", "title": "Programs over 45-degree sets compute the exact region", "statement": "Start from empty 45-degree polygon sets; insert polygons whose edges run at multiples of 45 degrees, with holes, and rectangles, as themselves or as holes; combine the sets with |=, &=, -=, ^=, insert sets in each other, clean them or intersect them with themselves, in any order. The set that results covers every point of the plane exactly as often as the operations say. The only other outcome is the exception the scanline raises for crossings off the integer grid.", "quantifier": "all programs of insertions and operations, all rational points of the plane", "why_tests_cant": "Every operation depends on the whole arrangement of edges, and the output of one operation is the input of the next; no finite set of inputs covers the arrangements", "anchors": ["include/boost/polygon/polygon_45_set_data.hpp: insert, operator|=, operator&=, operator-=, operator^=, clean, self_intersect, applyAdaptiveBoolean_, applyAdaptiveUnary_", "include/boost/polygon/detail/boolean_op_45.hpp: boolean_op_45::Scan45"]}
{"id": "C83", "title": "45-degree operations never round on an even grid", "statement": "If the coordinates of each vertex of every inserted polygon with diagonal edges are both even or both odd, no operation of any program raises the precision exception, so every result is exact and no error data is produced; the corners of the diagonals of the result have the same parity again. Programs over rectilinear objects alone never raise it and the set stays marked as Manhattan.", "quantifier": "all programs whose polygons meet the parity condition", "why_tests_cant": "The parity must survive every intersection that later operations build on", "anchors": ["include/boost/polygon/polygon_45_set_data.hpp: applyAdaptiveBoolean_, applyAdaptiveUnary_, is_manhattan", "include/boost/polygon/detail/boolean_op_45.hpp: boolean_op_45::Scan45"]}
{"id": "C84", "title": "Inserting into a 45-degree set adds the depth of the object", "statement": "Inserting a polygon with holes, a rectangle or another set into a 45-degree set adds to the depth at every point the depth of the object, taken as positive whichever way its outline runs, or subtracts it if inserted as a hole, also with repeated points and a repeated first point. (Violated: vertices inserted as holes are not negated; a rectilinear set inserted as a hole has only its horizontal edges negated; set(value) with diagonal edges on a fresh set loses them at the next clean.)", "quantifier": "all sets, all polygons with edges at multiples of 45 degrees, all points", "why_tests_cant": "The counts at a vertex depend on both edges that meet in it and on orientation and repetition; all combinations and positions have to agree", "anchors": ["include/boost/polygon/polygon_45_set_data.hpp: insert, insert_dispatch, insert_vertex_sequence, insert_vertex_half_edge_45_pair_into_vector, characterizeEdge45, set"]}
{"id": "C85", "title": "Cleaning, self-intersection and self-xor of 45-degree sets", "statement": "clean keeps exactly the points of positive depth with depth one, self_intersect those of depth two and more, self_xor those of odd depth, in the Manhattan code and in the general code alike, unless the precision exception is raised. (Violated for self_xor of negative depths: the Manhattan code drops points of depth minus one, the general code keeps them, so that adding a far away triangle changes the result near the origin.)", "quantifier": "all sets the library can build, all points", "why_tests_cant": "Two different sweeps implement the same operation and the data decides at run time which one is used", "anchors": ["include/boost/polygon/polygon_45_set_data.hpp: clean, self_intersect, self_xor, applyAdaptiveUnary_"]}
{"id": "C86", "title": "Equality of 45-degree sets is equality of regions", "statement": "Two 45-degree sets compare equal exactly if they cover the same points, and empty() is true exactly if a set covers nothing. (Proved: equal sets cover the same points, and sets that cover the same points have the same weights at every point once cleaned. Violated: the same two squares touching in a corner, built from rectangles and from triangles, compare unequal; empty() does not clean the set and is false for a square minus itself.)", "quantifier": "all pairs of sets the library can build", "why_tests_cant": "Equality is decided on the vertex data left by two different algorithms after arbitrary histories", "anchors": ["include/boost/polygon/polygon_45_set_data.hpp: operator==, empty, clean"]}
{"id": "C87", "title": "Merging properties of 45-degree layers", "statement": "After any number of 45-degree sets has been inserted into property_merge_45, each under a property, merging yields for every nonempty set of properties exactly the region covered by the layers of these properties and by no others, each point once.", "quantifier": "every list of layers whose cleaning does not meet the precision exception, every set of properties and every point of the plane", "why_tests_cant": "The arrangement of layers is arbitrary: regions are cut by crossing diagonals, counts are maps, and the scanline must be exact in every configuration.", "anchors": ["include/boost/polygon/detail/property_merge_45.hpp: polygon_45_property_merge", "include/boost/polygon/polygon_45_set_data.hpp: property_merge_45"]}
{"id": "C88", "title": "Connectivity of 45-degree sets", "statement": "After any number of 45-degree sets has been inserted into connectivity_extraction_45, extraction links two nodes, in both directions, if and only if they are different and the closed regions of their sets share at least one point, be it a corner that lies inside an edge of the other, and never fails.", "quantifier": "every list of 45-degree sets whose cleaning does not meet the precision exception, and every pair of nodes", "why_tests_cant": "Contact in a single point, at crossings of diagonals or where several edges end, can occur in arbitrarily many configurations of the scanline.", "anchors": ["include/boost/polygon/detail/polygon_45_touch.hpp: polygon_45_touch", "include/boost/polygon/polygon_45_set_data.hpp: connectivity_extraction_45"]}
{"id": "C89", "title": "Polygons of 45-degree sets", "statement": "Asking a 45-degree set, however it was built, for its polygons with holes gives closed outlines of at least three sides, all sides horizontal, vertical or diagonal; each polygon's outer outline winds once around what it encloses and its holes lie inside it and apart from each other; a point inside the region of the set is inside exactly one polygon and a point outside in none; the only other outcome is the precision exception, and it cannot occur if the coordinates of each polygon with diagonal edges are even or odd together.", "quantifier": "every program of insertions, Boolean operations, cleaning and self intersection over 45-degree polygons and rectangles, and every point of the plane", "why_tests_cant": "The formation links edge ends column by column through shared chains of points; corners where several outlines touch, holes that begin or end at any depth, and lines of four directions meeting in a point give an unbounded family of configurations.", "anchors": ["include/boost/polygon/detail/polygon_45_formation.hpp: Polygon45FormationData, polygon_45_formation, ActiveTail45, PolyLine45", "include/boost/polygon/polygon_45_set_data.hpp: get, get_polygons_with_holes, clean"]}
{"id": "C90", "title": "Polygons read from any-angle and 45-degree sets are oriented, rebuild the set and carry its area", "statement": "For polygons with holes read from a set (rectilinear, at any angle, or 45-degree), winding() tells counterclockwise for every outer outline and clockwise for every hole; inserting the polygons into an empty set gives a set that covers exactly the same points, each once (for edges at any angle whose crossings are rounded: away from the edges); and the area of the set, computed from the polygons, equals the signed area of any outlines whatsoever that wind once around the covered points.", "quantifier": "every set a program can build, every point, every other description of the region by outlines", "why_tests_cant": "Orientation, nesting and area are global facts about outputs whose shape depends on the whole input; tests see single shapes.", "anchors": ["include/boost/polygon/polygon_set_concept.hpp: area", "include/boost/polygon/polygon_45_set_concept.hpp: area", "include/boost/polygon/polygon_traits.hpp: winding, area, point_sequence_area", "include/boost/polygon/polygon_set_data.hpp: get, insert", "include/boost/polygon/polygon_45_set_data.hpp: get, insert"]}
{"id": "C91", "title": "Polygons without holes of 45-degree sets", "statement": "Asking a 45-degree set, however it was built, for polygons without holes gives closed counterclockwise outlines of at least three sides, all sides horizontal, vertical or diagonal, also where a hole is cut open; each outline winds at most once around any point; a point the set covers is inside exactly one outline, a point outside in none; the total area is the same as that of the polygons with holes, and inserting the outlines into an empty set covers the same points again; the only other outcome is the precision exception, and it cannot occur if the coordinates of each polygon with diagonal edges are even or odd together.", "quantifier": "every program of insertions, Boolean operations, cleaning and self intersection over 45-degree polygons and rectangles, and every point of the plane", "why_tests_cant": "A hole is joined to its surroundings by a slit whose two sides run over each other; where slits end, how they share points with other holes, and which line takes over which end depends on the whole configuration of the sweep.", "anchors": ["include/boost/polygon/detail/polygon_45_formation.hpp: Polygon45FormationData, processEvent_, processPoint_, ActiveTail45::createActiveTail45sAsPair", "include/boost/polygon/polygon_45_set_data.hpp: get, get_polygons, get_fracture"]}
{"id": "C92", "title": "Moving polygons and polygon sets moves the region", "statement": "Transforming a polygon by any transformation (translation, mirroring, rotation by quarter turns) moves the points it covers and no others, keeps its area and reverses its direction only if the transformation mirrors; the inverse transformation gives the polygon back; transforming a polygon set at any angle or at 45 degrees gives a set that covers the image of a point exactly if the set covers the point, for every point that is on no edge; moving by a distance and scaling up by a positive factor do the same for every point.", "quantifier": "every polygon with holes, every set of edges and every program that builds a 45-degree set, all eight axis transformations with any offset, every point off the edges", "why_tests_cant": "Reflections reverse outlines, and the sets decide from the signed area whether to turn them back; vertical rays become horizontal ones, so that winding numbers before and after the motion are counted by different edges.", "anchors": ["include/boost/polygon/polygon_traits.hpp: transform, convolve, move, scale_up", "include/boost/polygon/polygon_set_data.hpp: transform", "include/boost/polygon/polygon_45_set_data.hpp: transform, scale_up"]}
{"id": "C93", "title": "The extents of polygons and polygon sets are the least rectangle around them", "statement": "For a polygon set made of rectilinear edges or of edges that meet in lattice points, and for every 45-degree set, extents() returns false exactly if the set covers nothing; otherwise it returns the rectangle that contains every covered point and lies inside every other rectangle that does. For any other set it is the least rectangle around the polygons that get() returns and contains every covered point whose unit square no edge meets. extents() of a polygon is the least rectangle around its vertices and contains every point with a winding number other than zero, and center() is the middle of it up to half a unit.", "quantifier": "every set reached by insertions and operations, every polygon, every rectangle", "why_tests_cant": "The least rectangle depends on every vertex that survives merging, so overlap, cancellation and coverage by other figures all matter; a test sees one arrangement.", "anchors": ["include/boost/polygon/polygon_set_data.hpp: polygon_set_data::extents", "include/boost/polygon/polygon_45_set_data.hpp: polygon_45_set_data::extents", "include/boost/polygon/polygon_traits.hpp: extents, center"]}
{"id": "C94", "title": "The circle events of a Voronoi diagram touch their three sites", "statement": "The circle computed for three neighbouring sites touches all three. For three points that turn to the right it passes through them. For two points and a segment (in any order, both points on the right of the line of the segment and one of them off it) it passes through the points, touches the line on its right, and of the two such circles is the one that meets the sites clockwise. For a point and two segments that do not run the same way, with the point on the right of both, it passes through the point, touches both lines on their right and meets the sites clockwise. For three segments no two of which run the same way it is the only circle with the same signed distance from the three lines. The recorded rightmost abscissa is the abscissa of the centre plus the radius, so a Voronoi vertex has the same distance from the sites of the cells around it. No division by zero and no root of a negative number occurs in computing them.", "quantifier": "every three sites with integer coordinates of any size, in each of the eight patterns of points and segments", "why_tests_cant": "The formulas nest square roots and change with the position of the sites (parallel, crossing, degenerate); a test compares a few circles within a tolerance.", "anchors": ["include/boost/polygon/detail/voronoi_predicates.hpp: mp_circle_formation_functor::ppp, pps, pss, sss, sqrt_expr_evaluator_pss3, sqrt_expr_evaluator_pss4, circle_formation_predicate"]}
{"id": "C95", "title": "The fast and the exact computation of a circle event agree", "statement": "For every triple of sites for which a circle event exists (three points that turn right; two points to the right of a segment; a point to the right of two segments that do not run the same way; three segments no two of which run the same way; in any order of the kinds), the fast formulas with square roots and the exact multi-precision formulas give one and the same centre and lower end, so that the event recorded does not depend on which of the three numbers were found too imprecise and computed again, and touches the three sites.", "quantifier": "all integer coordinates, all four kinds of triples in every order, all choices of numbers computed again", "why_tests_cant": "the choice of path depends on error estimates of each triple; tests see only a few triples and compare with tolerance", "anchors": ["include/boost/polygon/detail/voronoi_predicates.hpp: lazy_circle_formation_functor, mp_circle_formation_functor, circle_formation_predicate"]}
{"id": "C96", "title": "The beach line is searched in geometric order", "statement": "While the sweep line stands at a new point, asking whether the new point lies above the place where the beach line passes from one arc to the next is answered by geometry: for two points, a point and a segment in either order, two segments, and the two sides of one segment, if going up the arc of the lower site gives way to that of the upper site at height Y, the answer is yes above Y and no below Y; level with Y it is no, except for a segment below and a point above, where it is yes. For two points there is exactly one such height. Comparing an old breakpoint with a new one gives opposite answers in the two directions, and the breakpoints made for one new site are ordered from below to above.", "quantifier": "all 32-bit points and segments behind the sweep line, all new points, all real heights Y at which the arcs change", "why_tests_cant": "which of the cases and fast paths is taken depends on signs of products of coordinates; a wrong branch shows only for particular shapes and puts a new arc at the wrong place of the beach line", "anchors": ["include/boost/polygon/detail/voronoi_predicates.hpp: distance_predicate, node_comparison_predicate, robust_cross_product", "include/boost/polygon/voronoi_builder.hpp: insert_new_arc"]}
{"id": "C97", "title": "keep retains the polygons of the given sizes", "statement": "For every Manhattan polygon set and all limits, keep(set, min_area, max_area, min_width, max_width, min_height, max_height) succeeds, keeps the orientation of the set, and the set afterwards covers exactly those of its polygons (as get reads them, without holes) whose area, width and height lie between the limits, limits included.", "quantifier": "all polygon sets reachable by insertion and operations, with any orientation, and all six limits", "why_tests_cant": "The size of a polygon depends on all of its vertices and the polygons depend on the whole set; a test fixes a few shapes and limits.", "anchors": ["include/boost/polygon/polygon_90_set_concept.hpp: keep, assign", "include/boost/polygon/polygon_90_set_traits.hpp: polygon_90_set_mutable_traits::set, get_90_dispatch", "include/boost/polygon/polygon_traits.hpp: extents, area"]}
{"id": "C98", "title": "Resizing by different amounts on opposite sides", "statement": "bloat(set, orientation, low, high) covers exactly the points at most high beyond and at most low before a point of the set along that axis; shrink(set, orientation, low, high) covers exactly the points whose whole stretch from low before to high beyond lay in the set; bloat and shrink in one direction do the same with one amount. resize(west, east, south, north) with amounts of any sign grows along an axis when the sum of its two amounts is not negative and shrinks along it otherwise, the axis that shrinks first. All of them keep the scanline orientation of the set, and the free functions do what the members do.", "quantifier": "all sets of rectilinear figures that keep a distance from the limits of the coordinate type, all amounts up to that distance, both orientations", "why_tests_cant": "holes that close, figures that vanish and parts that merge depend on the widths of all gaps against both amounts", "anchors": ["include/boost/polygon/polygon_90_set_data.hpp: bloat, shrink, resize, resize_poly_up, resize_poly_down, modify_pt", "include/boost/polygon/polygon_90_set_concept.hpp: bloat, shrink, resize, assign"]}
{"id": "C99", "title": "Where grown polygons meet", "statement": "grow_and(set, west, east, south, north) leaves exactly the points that at least two different polygons of the set, of those get reads from it, both reach after each has grown by the given amounts; a polygon alone leaves nothing, however often its own parts meet. self_intersect of a set leaves exactly the points covered at least twice. Both keep the scanline orientation.", "quantifier": "all sets of rectilinear figures that keep a distance from the limits of the coordinate type, all amounts up to that distance", "why_tests_cant": "which polygons meet after growing depends on all of them; parts of one polygon that meet must not be counted", "anchors": ["include/boost/polygon/polygon_90_set_concept.hpp: grow_and, self_intersect, assign", "include/boost/polygon/polygon_90_set_data.hpp: bloat, clean, insert, self_intersect"]}
{"id": "C100", "title": "The convolution of two polygon sets is their Minkowski sum", "statement": "Convolving two polygon sets (detail::minkowski_offset::convolve_two_polygon_sets, which resize with rounded corners uses) yields a set that covers the sum a + b of every point a covered by the first and every point b covered by the second, and covers no point that is not the sum of two points covered by the sets or on their outlines; only sums of a vertex of one set and an outline point of the other, which form finitely many segments, may be missing. The edges of the result form closed curves.", "quantifier": "all lists of polygons with holes that are properly nested and closed, and all polygon sets whose edges meet in lattice points; every rational point of the plane", "why_tests_cant": "the result inserts one parallelogram per pair of edges and two moved copies per pair of polygons; that these fill the whole sum, holes included, is a statement about all pairs of points that holds by a winding argument, not something any finite set of sampled points shows", "anchors": ["include/boost/polygon/detail/minkowski.hpp: minkowski_offset::convolve_two_segments, convolve_two_point_sequences, convolve_point_sequence_with_polygons, convolve_two_polygon_sets", "include/boost/polygon/polygon_traits.hpp: convolve(polygon_with_holes, point)"]}
{"id": "C101", "title": "keep on polygons with holes at any angle", "statement": "For every polygon set at any angle and all limits, keep(set, min_area, max_area, min_width, max_width, min_height, max_height) leaves a set that covers exactly those of the polygons with holes the set is read as whose area without the holes, width and height lie between the limits, limits included; the polygons cover the set exactly and overlap nowhere.", "quantifier": "all closed polygon sets whose edges meet in lattice points or are rectilinear, every way of sorting them, and all six limits", "why_tests_cant": "The size of a polygon depends on all of its vertices and holes and the polygons depend on the whole set; a test fixes a few shapes and limits.", "anchors": ["include/boost/polygon/polygon_set_concept.hpp: keep, assign", "include/boost/polygon/polygon_set_traits.hpp: polygon_set_mutable_traits::set", "include/boost/polygon/polygon_set_data.hpp: set, insert, clean, get"]}
{"id": "C102", "title": "snap_to_45 makes polygons of 45-degree edges", "statement": "For every polygon, snap_to_45(polygon) leaves a polygon all of whose edges are horizontal, vertical or at 45 degrees, with no more vertices than before; horizontal and vertical edges stay horizontal or vertical; a polygon that already has only such edges and repeats no vertex is left as it is; holes are treated each on its own. scale_down of a polygon of the 45-degree domain therefore leaves a polygon of the 45-degree domain.", "quantifier": "every list of points of any length with any integer coordinates; every scale factor", "why_tests_cant": "each vertex is moved according to the vertices before and after it and the loop closes on itself, so that the last step can undo the first; whether that happens depends on the parity of differences accumulated around the whole outline", "anchors": ["include/boost/polygon/polygon_traits.hpp: snap_point_vector_to_45, snap_to_45, scale_down"]}
{"id": "C103", "title": "scale_down moves the boundary by at most half a unit", "statement": "For every polygon at any angle, with or without holes, and every polygon set at any angle, scale_down by a positive factor leaves outlines that wind around every point as often as the original outlines wind around the corresponding point of the original scale, except at points within half a unit, in each direction, of the boundary drawn at the smaller scale. The edges of a set remain closed curves whatever becomes of edges that turn vertical, point downwards or shrink to a point, and cleaning the set and operations on it give the corresponding result away from the boundary.", "quantifier": "every polygon and every closed set of edges at any angle with any integer coordinates, every positive factor, every point of the plane", "why_tests_cant": "rounding turns edges vertical, reverses them or makes polygons cross themselves, in combinations that depend on all coordinates; that the error stays local is a statement about every point of the plane", "anchors": ["include/boost/polygon/polygon_set_data.hpp: polygon_set_data::scale_down, clean", "include/boost/polygon/polygon_traits.hpp: scale_down", "include/boost/polygon/point_concept.hpp: scale_down"]}
{"id": "C104", "title": "Resizing 45-degree polygons adds the right pieces", "statement": "For every polygon whose edges are horizontal, vertical or at 45 degrees, resizing it by any amount adds to it, or takes from it, along each edge the band of the points no further from the edge than the distance asked for, and at each corner where the moved edges part the piece up to the exact point where they cross, or a rectangle if orthogonal corners are asked for; corners the moved edges close get nothing. The distance of diagonal edges is rounded as asked for. Resizing never divides by zero, and corners that mirror each other are treated alike.", "quantifier": "every polygon of 45-degree edges of any size with any integer coordinates, every amount, every rounding and corner option, outlines and holes, either direction of winding", "why_tests_cant": "eight directions before and after each corner, two directions of winding, two signs and the options give hundreds of cases, each for all coordinates; some of them are wrong", "anchors": ["include/boost/polygon/polygon_45_set_data.hpp: insert_with_resize, resize"]}
{"id": "C105", "title": "Growing and shrinking polygons at any angle moves every edge by the distance", "statement": "bloat(d) of a polygon set moves every vertex of the outer boundary of a polygon, and shrink(d) every vertex of a hole, to the point at the distance d from the lines of both its edges, to the right of the edges for bloat and to the left for shrink, rounded to the nearest integers; a vertex in the middle of a straight edge moves at a right angle to it; at right angles between horizontal and vertical edges the result is exact, so bloat makes a rectangle larger by d on every side.", "quantifier": "every closed polygon whose consecutive vertices differ and whose edges do not lead back along each other, every distance, both directions", "why_tests_cant": "the crossing of two moved edges is found in one of two ways, depending on the angle and on half the distance, with special cases for vertical, horizontal and parallel edges; tests compare a few polygons", "anchors": ["include/boost/polygon/polygon_set_data.hpp: compute_offset_edge, modify_pt, resize_poly_up, bloat, shrink", "include/boost/polygon/detail/polygon_arbitrary_formation.hpp: compute_lazy_intersection, evalAtXforYlazy"]}
