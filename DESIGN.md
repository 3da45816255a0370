# Formal model of boostorg/polygon in Lean 4

The library source is read as text from `/repo`; nothing is built or executed.
The model is a set of total, computable Lean functions that follow the C++
function by function. Each definition cites the file and lines it models, and
says where it simplifies.

## Layout

* `lean/Verif/Model/*` – the model of the code (definitions only, with citations).
* `lean/Verif/Spec/*` – small independent specifications (point sets, coverage,
  winding numbers, exact determinants, minimum distances …). No model helper is
  used there.
* `lean/Verif/Proofs/*` – helper lemmas.
* `lean/Verif/Properties/*` – the theorems, named `Cnn_...` after their property,
  with `example`s beside them that show a concrete case meeting the hypotheses.
* `seeded/LOG.jsonl` – wrong programs the theorems were tested against.

A theorem whose name contains `violated` proves that the code does not have the
property, on a concrete input. A theorem whose name ends in `_partial` proves the
property under hypotheses that the full statement does not have. `MANIFEST.json`
lists the theorems of each property; its notes say what is missing.

## Trusted base

* Lean 4.33.0's kernel. The axioms the theorems depend on are `propext`,
  `Classical.choice` and `Quot.sound`, no others (see "Axioms").
* Mathlib, as a library of proved theorems; it is checked by the same kernel.
* The reading of the C++ into Lean. Coordinates are unbounded `Int` unless the
  property is about machine arithmetic (C26, C34, C35–C38, C48, C51, C53, C57), in
  which case 32/64-bit ranges and wrap-around are explicit. Undefined behaviour
  (signed overflow, following an end iterator or a null pointer) is a distinct
  outcome, `none`.
* `std::map`, `std::set`, `std::vector`, `std::sort`, `std::unique`,
  `std::lower_bound` are taken to satisfy the C++ standard. Maps and sets are
  lists in order, iterators are keys or indexes. Where the result of a sort is
  not determined by the standard, theorems quantify over every permitted result.
* Templates are taken at their default instantiation (`int` coordinates).
* Floating point. C37 models doubles by their bit patterns. Elsewhere floating
  point is one of: exact real arithmetic (C29, C41, C42, C45), an oracle that may
  answer anything (C40, C59, C60), a parameter with stated assumptions
  (C73–C77: `FP.Sane`, `FP.Accurate`, `FP.Floor`; C74 needs none). A theorem that
  assumes exactness says nothing about rounding errors.

## Per property

| id | title | what is modelled | how it is proved | status |
|----|-------|------------------|------------------|--------|
| C01 | Manhattan Boolean operations compute the set operation on regions | `BooleanOp` map with iterators, `processInterval`, `evaluateInterval_`, `applyBooleanBinaryOp` with the two-stream merge | the map is refined to a step function; invariant over the scan; output coverage = indicator | proved |
| C02 | The Boolean scan never leaves defined behaviour | same, every iterator move returns `Option` | the refinement shows the result is never `none`, also without the closedness hypothesis | proved |
| C03 | Cleaning a set keeps its region and flattens overlaps | `applyBooleanOr` with integer counts | as C01 | proved |
| C04 | Cleaned data is canonical, so == decides geometric equality | `clean`, `operator==` | canonical-form predicate on outputs, and canonical lists with equal coverage are equal | proved |
| C05 | Clean is idempotent and Boolean algebra laws hold on stored data | same | from C01 and C04 | proved |
| C06 | self_xor keeps odd depth and self_intersect keeps depth two or more | `UnaryCount`, `self_xor`, `self_intersect` | instances of the generic scan theorem | proved |
| C07 | Inserting a rectangle covers exactly the rectangle; inserting it as a hole removes it | `iterator_geometry_to_set<rectangle>`, `insert` | coverage computed | proved |
| C08 | Inserting a Manhattan polygon covers points by their winding number, whichever way it is listed | `iterator_geometry_to_set<polygon_90>`, winding | induction over the vertex list against a crossing sum | partial |
| C09 | Transforming a Manhattan set transforms its region and keeps it canonical | `transform` on stored vertices | change of variables in the coverage | proved |
| C10 | move and scale_up translate and scale the region, keep sortedness and cleanness | `move`, `scale_up` | change of variables | proved |
| C11 | scale_down leaves a set whose observers are right | `scale_down` and the flags | negation with witness; partial statement | partial |
| C12 | empty() is exact and extents() is the least bounding box | `empty`, `extents` | from canonical form | proved |
| C13 | get_rectangles tiles the region | `ScanLineToRects`, `form_rectangles` | invariant of the open-rectangle set | proved |
| C14 | area of a Manhattan set counts its unit cells | `area` | from C13 | proved |
| C15 | Scanline orientation is unobservable in the region | range insert, operators, constructor | coverage symmetric under transposition; constructor: negation | partial |
| C16 | Direction algebra is planar rotation | `isotropy.hpp` | the finite tables are the whole domain; pointwise on the plane | proved |
| C17 | axis_transformation composition and inversion are those of the functions they denote | `axis_transformation` | case analysis over the eight values, all points | proved |
| C18 | transformation (axis + offset): transform, inverse and composition | `transformation` | composition reads indeterminate variables: modelled with an arbitrary initial value | partial |
| C19 | anisotropic_scale_factor scales each axis by its own factor | `anisotropic_scale_factor` | negation with witness; partial | partial |
| C20 | Interval predicates and intersection are exact set operations | `interval_concept.hpp` | specification on rational points; linear arithmetic | proved |
| C21 | Interval convolution is the Minkowski sum, with deconvolution its inverse; bloat/shrink, flip, move, scale act pointwise | `interval_concept.hpp` | same | proved |
| C22 | Rectangle predicates and intersection are exact set operations | `rectangle_concept.hpp` | same; one touch-flag path violated | partial |
| C23 | Rectangle distances are the minimum over their points | `rectangle_concept.hpp` distances | minimum over points | partial |
| C24 | Rectangle algebra: area, perimeter, convolve, scale and half are consistent | `rectangle_concept.hpp` | same; `scale` violated | partial |
| C25 | Comparators used as ordered-container keys are strict weak orders | comparators | order axioms | proved |
| C26 | Segment orientation is exact for every 32-bit input | 32-bit cross products, 64-bit wrap-around | bounds and exactness | proved |
| C27 | Segment containment is exact | segment `contains` | parametric rational points | proved |
| C28 | intersects(segment, segment) is exact and symmetric | segment `intersects` | parametric rational points | proved |
| C29 | Segment distances are true distances | segment distance | squared distance over the reals | partial |
| C30 | Polygon area is the shoelace area, independent of start vertex, position and closing convention | `point_sequence_area` | induction on the list | proved |
| C31 | Point-in-polygon for general polygons is boundary + even-odd parity | `contains(polygon, point)` | induction over edges: boundary + crossing parity | partial |
| C32 | Point-in-polygon for Manhattan polygons is boundary + even-odd parity | `contains(polygon_90, point)` | same, and agreement with C31 | partial |
| C33 | Compact Manhattan polygon encoding round-trips | compact iterators | round trip by induction | partial |
| C34 | Slope and above/below predicates are exact for every 32-bit input | slope predicates, 64-bit | bounds and exactness | proved |
| C35 | extended_int add, subtract and multiply are exact | `extended_int` chunks | carry/borrow induction; expressions | partial |
| C36 | extended_int comparison, equality and sign are those of the value | `extended_int` comparison | same | partial |
| C37 | ulp_comparison orders doubles by value with an exact tolerance | `ulp_comparison` on bit patterns | order embedding | proved |
| C38 | Voronoi orientation test is exact for every 32-bit triple | Voronoi orientation | bounds and exactness | proved |
| C39 | Site ordering is a strict weak order under which equal sites are adjacent | site comparison, sort + unique | strict weak order | proved |
| C40 | Voronoi half-edge topology is consistent after any construction sequence | half-edge construction | invariant over every sequence of events, geometric answers arbitrary | proved |
| C41 | robust_dif represents exact differences of non-negative sums | `robust_dif` | field identities; rounding not modelled | proved |
| C42 | Square-root expressions are evaluated to the right algebraic value | `robust_sqrt_expr` | real identities; rounding not modelled | proved |
| C43 | Property merge partitions the plane by property set | `merge_scanline`, `property_merge_90` | scan refinement as in C01 | proved |
| C44 | Connectivity extraction links exactly touching geometry | `TouchOp`, `connectivity_extraction_90` | sweep invariant over both event maps | partial |
| C45 | Simplification only removes vertices within the tolerance | `simplify` | induction over the loop; negations | partial |
| C46 | Const observers do not change later results | lazy flags of `polygon_90_set_data` | negation; proved for the other operations | partial |
| C47 | is_45 answers for the holes as well | `is_45` | negation; partial | partial |
| C48 | Voronoi colour and category bit-fields do not interfere | bit-fields | `Nat` bit arithmetic over all words | proved |
| C49 | Resizing a Manhattan polygon moves every edge outward by its own amount | `modify_pt`, `resize_poly_up` | induction on the vertex list | proved |
| C50 | bloat2 is the Minkowski sum with the sizing rectangle | `bloat2` | Minkowski sum of a tiling | proved |
| C51 | Point distances are exact for every pair of 32-bit points | point distances, 32-bit | negation; partial | partial |
| C52 | envelope_segments returns the smallest rectangle around the segments | `envelope_segments` | fold invariant | proved |
| C53 | Manhattan polygon area does not overflow in 64 bits | `point_sequence_area` in 64 bits | bound; negation | partial |
| C54 | get_rectangles returns full slices | `get_rectangles` | slice maximality from the scan invariant | proved |
| C55 | shrink2 is the erosion by the sizing rectangle | `shrink2` | erosion as complement of a dilation | proved |
| C56 | Closing and opening with bloat2 and shrink2 | `bloat2` then `shrink2` | Galois connection | proved |
| C57 | Comparison of two segment directions is exact | slope comparison of two segments | negation; partial | partial |
| C58 | Resizing in one direction dilates or erodes exactly along that direction | `bloat`/`shrink` in one direction | edge-wise sweep against dilation along a direction | proved |
| C59 | The finished Voronoi diagram can be walked | `voronoi_diagram::_build`, `remove_edge` | half-edge invariant through the clean-up loops; termination by fuel | partial |
| C60 | The Voronoi sweep ends within its reserved memory | the same steps with counters | amortised counts over every run; Euler bound | proved |
| C61 | Reading polygons with holes gives a proper decomposition of the set | `polygon_formation.hpp` `processEdges`, `get_polygons` | invariant: active tails hold exactly the open boundary paths; windings per column | proved |
| C62 | Reading polygons without holes partitions the set | same, fractured | same | proved |
| C63 | Polygons read from a set rebuild the same set | same + insertion | composition with C08 | proved |
| C64 | Holes read from a set lie inside their own polygon | same | hole attachment invariant | proved |
| C65 | Polygons read from a set use every stretch of its boundary exactly once | same | each boundary stretch is added to one path once | proved |
| C66 | interact keeps exactly the polygons that touch the other set | `interact` | C44 over polygons read by C61; negations | partial |
| C67 | get_max_rectangles writes exactly the maximal rectangles | `max_cover.hpp`, `get_max_rectangles` | graph of slices; paths = maximal rectangles | proved |
| C68 | Boolean operations on edges at arbitrary angles compute the exact region | `arbitrary_boolean_op` scanline | invariant: the tree holds the edges over the line with exact left counts | proved |
| C69 | Boolean results at arbitrary angles are closed and clean | same | closedness from the balance at every vertex | proved |
| C70 | equivalence of arbitrary-angle sets means equal regions | same | from C68, C69 | proved |
| C71 | Inserting polygons at arbitrary angles adds exactly their winding numbers | `polygon_set_data::insert`, scaling | winding sums by induction | proved |
| C72 | concept_downcast reports the narrowest concept that fits the contents | `concept_downcast` | negation; characterisation | partial |
| C73 | Cutting segments at their intersections keeps closed curves closed | `line_intersection`: divide and conquer, grid test, cutting | flow of a chain telescopes | proved |
| C74 | Arbitrary-angle operations are exact on rectilinear input | same + `execute`, operators, `operator==`, `clean` | horizontal/vertical intersections need no arithmetic; then C68-C70 | proved |
| C75 | Arbitrary-angle operations are exact when edges meet in lattice points | same | exact cut: pieces are planar and cover the same depth | proved |
| C76 | Rounding of intersections moves boundaries by less than a unit | same | grid test = half-open unit square; Hobby's theorem by a deformation argument over the reals; depth unchanged off the edges | proved |
| C77 | Equality and cleaning of arbitrary-angle sets respect the region | same | four negations with witnesses; lattice case from C75 | partial |
| C78 | Cutting segments at their intersections keeps every segment and leaves no crossing | `intersect_segments` | the cut of C73-C76; invariance under reversing segments; chains cover the segment | proved |
| C79 | Merging labelled polygons at any angle splits the plane by the exact set of labels | `property_merge` at any angle: insertion, `merge`, the output functor | the scan of C68 with a general result functor; one value per set of properties; insertion compared with that of C71 | proved |
| C80 | Connectivity extraction links exactly the polygon sets that touch | `connectivity_extraction` at any angle: node insertion with cleaning, `extract`, the output functor | the functor's graph is incidence at a common point of calls; calls at a point say which layers are near it; cleaning by C74-C76 | partial |
| C81 | Polygons taken from a set at any angle cover its region | `polygon_arbitrary_formation` with holes: tails and lines as a heap, one point, one column, the sweep; `get` | invariant: open chains, closed holes and written polygons account for every edge met so far; colours of slots around a point; cleaning by C74-C76; for the hole assignment a second invariant: the open chains nest like brackets along the sweep line and the windings of what is closed so far follow that nesting | proved |
| C82 | Programs over 45-degree sets compute the exact region | `boolean_op_45` scanline (`Scan45`), the vector operations and the set members | invariant of the scanline: its lines carry the depth just right of the sweep line; events written equal the jumps of the result; induction over programs | proved |
| C83 | 45-degree operations never round on an even grid | the same | crossings of diagonals of even lines are grid points; a diagonal of the result lies on a line of a diagonal of the input | proved |
| C84 | Inserting into a 45-degree set adds the depth of the object | `insert_vertex_sequence`, rectangles, sets | the half lines of the vertices are those of the edges; each edge adds its signed crossing | partial |
| C85 | Cleaning, self-intersection and self-xor of 45-degree sets | `clean`, `self_intersect`, `self_xor` | both branches specified by the depth; the Manhattan branch by C01-C12 | partial |
| C86 | Equality of 45-degree sets is equality of regions | `operator==`, `empty` | the weights at a point are differences of depths around it | partial |
| C87 | Merging properties of 45-degree layers | `populateMergeSetData`, `performMerge`, `merge_45_output_functor`, `CountMerge` | the scan with the functor of one key is the scan of a boolean operation, whose output has the right depth; negation: formation of the unsorted entry is undefined | partial |
| C88 | Connectivity of 45-degree sets | `populateTouchSetData`, `performTouch`, `touch_45_output_functor`, `CountTouch` | every call of the functor names the depths on both sides of an edge at a grid point, and every covered point close to a contact point is named by a call at that point; the graph is the pairs of properties named at one point | proved |
| C89 | Polygons of 45-degree sets | `Polygon45Formation` with holes: chains and tails as a heap, one point, one column, the sweep; `get` | results of operations are noded (a vertex wherever lines meet, no idle vertices); on noded data the formation follows that of C81 step by step, up to points left out on straight lines; entries at one point are added up; outlines wind around some point, hence three sides | proved |
| C90 | Polygons read from any-angle and 45-degree sets are oriented, rebuild the set and carry its area | area of a set (sum over the polygons with holes), winding, the insertion of polygons and the reading of polygons as in C71, C81, C84 and C89 | The sign of the shoelace sum from the winding numbers: the area is a sum over slabs of width one, in a slab it is the alternating sum of heights, and summation by parts gives its sign. So outer outlines of proper polygons are counterclockwise, holes clockwise, and what insertion adds is what the outlines wind. Monotonicity of the area in the windings gives its independence of the description. | proved |
| C91 | Polygons without holes of 45-degree sets | `Polygon45Formation` with `fractureHoles_`: holes closed by linking their line to the next vertex or the edge above; `get` with polygons without holes | the sweep that cuts holes open is compared step by step with the one that keeps holes apart (C89): each of its lines winds like a line there together with the holes it has taken up, slits adding nothing; a polygon with its holes winds around some point, so the cut outline is a ring | proved |
| C92 | Moving polygons and polygon sets moves the region | `transform`, `convolve`, `move`, `scale_up` of polygons with and without holes; `transform` of sets at any angle and at 45 degrees; `scale_up` of 45-degree sets | each edge crosses a mirrored or exchanged ray with the opposite sign up to a difference that telescopes around the outline; signed area under the same maps; sets by C81, C89 and C90 | partial |
| C93 | The extents of polygons and polygon sets are the least rectangle around them | The loops of extents of polygon_set_data, polygon_45_set_data and polygons, and center of a polygon (Model/Extents.lean). | Every end of a cleaned edge is a limit of covered points because the two sides of the edge have different depths; outside the box of the ends the depth is zero because the counts over a stretch cancel; the loops compute the box of the ends. | proved |
| C94 | The circle events of a Voronoi diagram touch their three sites | The four formulas of mp_circle_formation_functor with their nested square-root evaluators, over integers and exact reals where every division is partial, and the dispatch on points and segments (Model/VoronoiCircle.lean). | The value of each nested evaluator from C42 and its extension to the two expressions for a point and two segments; then polynomial identities modulo the squares of the roots: distances, side and orientation of the contact points. Three unit vectors that differ have non-zero area, so three lines determine one circle. | proved |
| C95 | The fast and the exact computation of a circle event agree | `lazy_circle_formation_functor` over exact reals, recomputation flags as inputs | the closed forms of the exact functor (C94) satisfy the equations of the fast one; signs decide the square-root branches | proved |
| C96 | The beach line is searched in geometric order | `distance_predicate`, `node_comparison_predicate`, the nodes of `insert_new_arc` | arcs as functions of the height (parabola or line); sign change of their difference; the fast test of point against segment factorised; box argument bounds the 64-bit cross product | proved |
| C97 | keep retains the polygons of the given sizes | the free function `keep` on Manhattan sets, with `assign` between sets and lists of polygons | the polygons `get` reads are simple, so the area function counts their cells and the extents are their size; canonical forms make the copied set read the same polygons | partial |
| C98 | Resizing by different amounts on opposite sides | `bloat`, `shrink`, `resize` by four amounts and the free functions around them | crossings of each line with the outlines: displacing entering and leaving crossings at once is dilation or erosion on the line; validity of what is inserted; composition of the two axes | partial |
| C99 | Where grown polygons meet | `grow_and` and the free `self_intersect` | induction over the polygons: each adds one to the depth of exactly the points it reaches; depth at least two is two different positions of the list | partial |
| C100 | The convolution of two polygon sets is their Minkowski sum | `minkowski_offset` of `detail/minkowski.hpp` | each figure is a parallelogram whose winding number is computed; if a sum of inside points lies in no figure, the outlines of one polygon and of the other turned around do not meet, so one contains the other and a moved copy covers the point (winding numbers are constant along segments that avoid an outline) | proved |
| C101 | keep on polygons with holes at any angle | the free function `keep` of `polygon_set_concept.hpp`, with `assign` between sets and lists of polygons with holes | the polygons read are proper, so that the area function is the shoelace sum and the extents of the outer outline are the size; their sides are edges of the cleaned set, so that a set built from some of them can again be cleaned exactly | partial |
| C102 | snap_to_45 makes polygons of 45-degree edges | `snap_point_vector_to_45` round by round, `snap_to_45` with and without holes, `scale_down` of the 45-degree domain | a round of the loop always makes its edge one at 45 degrees and keeps axis-parallel edges axis-parallel; an invariant over the rounds says that the edges already passed are right; the first edge is the only one changed afterwards, with concrete polygons where it goes wrong | partial |
| C103 | scale_down moves the boundary by at most half a unit | `scale_down` of points, polygons with and without holes outside the 45-degree domain and sets at any angle, with the correction of counts | an edge, the moved edge and the ways of the ends lie in a convex set within half a unit of the edge; a point outside sees all of it on one side, so what the edge crosses changes by what its ends cross, which cancels around closed curves; cutting does not depend on the direction an edge is stored in, edges that are points are cut into nothing and their points are end points like any other, then C76 | proved |
| C104 | Resizing 45-degree polygons adds the right pieces | the pieces `insert_with_resize` of 45-degree polygon sets inserts into its sizing set: edges, corners, offsets, crossing points, all options | an edge is a positive multiple of one of eight directions; the crossing point is given by a formula and checked for all pairs of directions and both sides; the bands are intersections of half planes; the pieces of a polygon are gathered by induction over its corners | partial |
| C105 | Growing and shrinking polygons at any angle moves every edge by the distance | `compute_offset_edge`, `modify_pt`, `compute_lazy_intersection` with projected lines and `resize_poly_up`, over the real numbers | the crossing of lines that are not parallel is on both; with unit normals both ways of finding the point satisfy the two distance equations, which have one solution; the loop is unrolled into cyclic neighbours | proved |

## What is modelled

| model file | source |
|------------|--------|
| Isotropy, Transform | `isotropy.hpp`, `transform.hpp` |
| Interval, Rectangle | `interval_concept.hpp`, `rectangle_concept.hpp` |
| Machine | integer ranges of the default instantiation |
| Segment, SegmentDist | `segment_concept.hpp`, distances of `point_concept.hpp`, `envelope_segments` |
| Polygon, Contains | `polygon_traits.hpp`: area, winding, `is_45`, `contains`, `edge_utils`; compact iterators; `iterator_geometry_to_set.hpp` |
| BooleanOp, Set90 | `detail/boolean_op.hpp`; `polygon_90_set_data.hpp`, `detail/polygon_90_set_view.hpp` |
| RectForm, MaxCover | `detail/rectangle_formation.hpp`, `detail/max_cover.hpp` |
| PolyForm | `detail/polygon_formation.hpp` without the vertex threshold |
| Resize, ResizePoly, ResizeGet, Interact | sizing and `interact` of `polygon_90_set_data.hpp` |
| PropertyMerge, Touch | `detail/property_merge.hpp` `merge_scanline`; `detail/polygon_90_touch.hpp` |
| Simplify | `detail/polygon_simplify.hpp` |
| ExtInt, Ulp, Robust | `extended_int`, `ulp_comparison` of `detail/voronoi_ctypes.hpp`; `detail/voronoi_robust_fpt.hpp` |
| VoronoiSites, VoronoiExists | orientation, site order and existence predicates of `detail/voronoi_predicates.hpp`; site insertion; bit-fields |
| VoronoiSweep, VoronoiBuild | `voronoi_builder.hpp`; edge insertion and clean-up of `voronoi_diagram.hpp` |
| Arb | slope predicates and scanline of `detail/scan_arbitrary.hpp`, `arbitrary_boolean_op` |
| PolySet | insertion, scaling, `concept_downcast` of `polygon_set_data.hpp` |
| Cut | intersection, grid test of `detail/polygon_arbitrary_formation.hpp`; `line_intersection`, `arbitrary_boolean_op::execute` of `detail/scan_arbitrary.hpp`; operators and `clean` of `detail/polygon_set_view.hpp` |
| SegUtils | `segment_utils.hpp`: both `intersect_segments` |
| ArbMerge | `property_merge` and connectivity extraction of `detail/scan_arbitrary.hpp`; `connectivity_extraction` of `polygon_set_data.hpp` |
| ArbForm, ArbGet | `active_tail_arbitrary`, `poly_line_arbitrary`, `processPoint_`, `processEvent_`, `scan` of `detail/polygon_arbitrary_formation.hpp` with `fractureHoles_` false; `get` for polygons with holes of `polygon_set_data.hpp` |
| Scan45, Set45 | scanline of `detail/boolean_op_45.hpp`; insertion, operators, `clean`, `self_intersect`, `self_xor`, `==` of `polygon_45_set_data.hpp` |
| Form45, Frac45, Merge45 | `Polygon45Formation` of `detail/polygon_45_formation.hpp`, with and without `fractureHoles_`; `property_merge_45.hpp`, `polygon_45_touch.hpp` |
| SetTransform, SetArea | `transform`, `move`, `scale_up` of `polygon_traits.hpp` and of both polygon sets; `area` of polygon sets |
| VoronoiCircle | `mp_circle_formation_functor` and `circle_formation_predicate` of `detail/voronoi_predicates.hpp`, in exact arithmetic |
| VoronoiLazy | `lazy_circle_formation_functor`, in exact arithmetic, with the numbers to compute again given from outside |
| VoronoiBeach | `distance_predicate` and `node_comparison_predicate` of `detail/voronoi_predicates.hpp`, distances in exact arithmetic |
| Concept90 | `assign` between sets and lists of polygons, `keep` of `polygon_90_set_concept.hpp` |
| Resize90 | `bloat`, `shrink`, `resize` by four amounts, members and free functions; `grow_and`, `self_intersect` (free) |
| ArbKeep | `assign` between sets and lists of polygons with holes, `keep` of `polygon_set_concept.hpp` |
| ScaleDown | `scale_down` of polygons and sets at any angle |
| Resize45 | the pieces `insert_with_resize` of `polygon_45_set_data.hpp` adds for edges and corners; the distance of diagonal edges is a parameter |
| Snap45 | `snap_to_45` and the `scale_down` of 45-degree polygons of `polygon_traits.hpp` |
| OffsetArb | moved vertices of `bloat` and `shrink` of `polygon_set_data.hpp`, crossing of projected lines of `detail/polygon_arbitrary_formation.hpp` |
| Minkowski | `minkowski_offset` of `detail/minkowski.hpp`: convolution of two polygon sets |
| Extents | `extents` of polygons and of both polygon sets, `center` of polygons |

## What is not modelled

* 45-degree tiling (`polygon_45_formation.hpp` trapezoids); of 45-degree sizing (`insert_with_resize` of `polygon_45_set_data.hpp`) the pieces are
  modelled (Resize45), uniting and subtracting them is not; of `bloat` and `shrink` at any angle the moved vertices (OffsetArb), not the test for
  polygons that turn inside out, nor `insert_with_resize` of `polygon_set_data.hpp`; the error rectangles of
  `property_merge_45`, and what a 45-degree set does after the precision exception.
* Polygon formation at arbitrary angles with holes cut open (`fractureHoles_` true)
  and trapezoids.
* In the sweep the circle events are an oracle; `VoronoiCircle` and `VoronoiLazy` model the functors that compute them
  apart from the sweep. The error estimates of `robust_fpt` and `extended_exponent_fpt` are not modelled.
* The rounding error analysis of `robust_fpt`.
* `polygon_formation.hpp` with a vertex threshold (sliced output).
* The remaining one-line wrappers of `polygon_90_set_concept.hpp`.
* `gmp_override.hpp`, memory allocation, exceptions, timing, template and overload
  resolution, stream output.

## Violations found

Each is proved as a theorem with a concrete input; the statement in
`properties.jsonl` is what a user would expect.

* C08: a polygon of zero signed area, or with a vertex listed three times, is inserted wrongly.
* C11: `scale_down` on a clean set leaves it marked clean.
* C15: the constructor from orientation and range ignores the orientation.
* C18: composing transformations reads uninitialised variables.
* C19: `anisotropic_scale_factor::scale` uses the horizontal factor for y.
* C22: `intersect` of rectangles without touching accepts rectangles that touch.
* C23: `euclidean_distance` of rectangles truncates to an integer.
* C24: `scale` of a rectangle by a scaling object collapses it to a point.
* C29: distances to degenerate segments are 0.
* C31, C32: `contains` on degenerate or collinear boundaries.
* C33: compact encoding of coordinate lists that end on the first abscissa.
* C35, C36: `extended_int` results are wrong after deep cancellation.
* C44: connectivity extraction ignores the scanline orientation.
* C45: `simplify` removes vertices further away than the tolerance and leaves collinear ones.
* C46: a const observer changes what `self_xor` and `self_intersect` return.
* C47: `is_45` ignores the holes.
* C51, C53: overflow for far-apart points and large polygons.
* C57: segments whose direction determinant is exactly ±2^64 are called collinear.
* C59: the clean-up of the Voronoi diagram, for predicate answers that no exact arithmetic would give.
* C66: `interact` with an argument whose sorted flag is lost, and a result that compares unequal to an equal set.
* C72: `concept_downcast` never reports a Manhattan set.
* C77: with exact arithmetic, rounding of intersections loses points in a union, makes different sets compare
  equal, makes equality non-transitive and cleaning not idempotent.
* C80: connectivity extraction on empty sets only reads the first element of an empty vector.
* C84: vertices and rectilinear sets inserted as holes into a 45-degree set; `set(value)` with diagonal edges.
* C85: `self_xor` of negative depths.
* C86: 45-degree sets with equal regions compare unequal; `empty()` does not clean.
* C87: the entries of `property_merge_45` are flagged sorted but are not; forming their polygons erases an element twice.
* C97, C101: `keep` drops polygons exactly as wide or as high as the lower limit.
* C102: `snap_to_45` makes the edge that closes the polygon fit by moving the first vertex, which can spoil the edge that starts there; `scale_down` of a 45-degree polygon can therefore leave one that is not.
* C104: shrinking a 45-degree polygon with a vertex in the middle of a straight edge divides by zero; with `SQRT1OVER2` a sharp corner is filled and its mirror image is not.
* C92: the mirror image of a figure of eight with signed area zero covers the image of the other loop.

## Axioms

`#print axioms` of every property theorem lists a subset of `propext`, `Classical.choice`, `Quot.sound`. No
axiom is declared in the project; there is no `sorry`, `admit`, `native_decide`, `bv_decide`, `implemented_by` or
`unsafe`. Concrete examples use `decide +kernel`, which the kernel evaluates itself.
