# DESIGN — a Lean 4 model of CavalierContours

## 1. Trusted base

* **Lean 4.33.0's kernel.** Every theorem is checked by it; `vcheck` replays all modules.
* **Axioms.** Every theorem depends on a subset of `propext`, `Quot.sound`, `Classical.choice` (the real numbers and the classical decision of real comparisons need all three). No axiom is added, nothing is admitted, no compiled code (`native_decide`, `bv_decide`) is trusted.
* **Mathlib**, as a library of kernel-checked definitions and lemmas. Its definitions of `ℝ`, `Real.sqrt`, `Real.tan`, `Real.arctan`, `Real.arccos`, `Complex.arg`, `List.Perm` occur in statements and have to mean what they say.
* **The reading of the C++ source.** The code is not executed here. Every definition under `Verif/Model` cites the file and lines it models, function by function, and says what it simplifies.
* **The specifications** under `Verif/Spec`: small definitions (points of a segment, regions, ledgers ...) that the statements use and that do not mention the model's helpers.

### Number model

`Real` (a template parameter, `double` in the C API) is `ℝ`: exact arithmetic, no rounding, no NaN, no infinity. `std::atan2(y, x)` is `Complex.arg (x + iy)`. The thresholds 1e-8, 1e-5, 1e-4 of the code are kept exactly, so the theorems speak of the code's tolerances, but not of rounding errors. Three places leave this scheme:

* the spatial index is modelled over an arbitrary linear order with arbitrary "infinity" elements, so its theorems also hold for IEEE doubles without NaN;
* the number of nodes per level, `ceil(float(n) / NodeSize)`, is computed in IEEE binary32 by the code, and in the model by an explicit round-to-nearest-even function; this is what decides memory safety;
* `hilbertXYToIndex` is modelled on `UInt32`, the C API's counts modulo 2^32, stitching indexes modulo 2^64 where the code can wrap around.

Operations whose IEEE result would be NaN or infinite (division by zero, square root of a negative number, cast of an unrepresentable number) are faults of the model where the code can reach them, never silently a real number.

### Undefined behaviour is a value

A function that can go wrong returns `Except Fault α`. The faults are: a false `CAVC_ASSERT`, an index out of range, `back()`/`pop_back()` of an empty vector, an undefined cast, a division by zero, an uncaught exception, a loop whose fuel is used up, use of an invalid pointer. "Never faults" is always a theorem or a stated exclusion. A theorem about runs that return says so in its statement (`… = .ok r → …`) and the note in MANIFEST.json repeats it.

`CAVC_ASSERT` is modelled as in a debug build: a false condition stops. Release builds go on with the same code if the condition is true, so theorems that exclude `assertFailed` hold for both. The C API model has a switch for the assertions of its own file.

### What C++ leaves open is a parameter

* `std::sort`: any function that returns a sorted permutation for a strict weak order (`StdSort`); the order of equivalent elements is free, nothing is assumed for comparisons that are not strict weak orders.
* range-`for` over `std::unordered_map`: any permutation (`HashOrder`).
* `operator new`: any allocator that returns an unused non-null address or throws (`Allocator`); freed addresses may come back.
* capacity growth of `std::vector`: any growth that the standard allows (`Growth`).
* the infinities and the Hilbert value used by the index inside polyline algorithms: a `Platform`; `codePlatform` is the one of the code.

All theorems are quantified over all of these.

## 2. What is modelled

| Header | Model | Complete? |
| --- | --- | --- |
| `mathutils.hpp`, `vector.hpp` (N = 2), `vector2.hpp` | `Model/Geom.lean` | all functions used by the library |
| `intrlineseg2lineseg2.hpp`, `intrlineseg2circle2.hpp`, `intrcircle2circle2.hpp`, `plinesegment.hpp` | `Model/Segment.lean` | all functions |
| `staticspatialindex.hpp` | `Model/SpatialIndex.lean`, `Model/Hilbert.lean` | all functions; any node size ≥ 2 |
| `polyline.hpp` | `Model/Polyline.lean` | all functions |
| `polylineintersects.hpp` | `Model/Intersects.lean` | all functions |
| `polylineoffset.hpp` | `Model/Offset.lean` | all functions |
| `polylinecombine.hpp` | `Model/Combine.lean` | all functions |
| `polylineoffsetislands.hpp` | `Model/Islands.lean` | all functions |
| `cavaliercontours.h/.cpp` | `Model/CApi.lean` | all functions |

## 3. What is not modelled

* rounding of `double`; comparison results that depend on it;
* `internal/diagnostics.hpp`, `std::cerr` output;
* failure to allocate the storage of a vector (failure of `new` for handles is modelled);
* the reuse of buffers that the code clears before each use (`queryStack`, `m_queryResults`, ...);
* `noSliceAfterForIndex1` of `polylineoffsetislands.hpp`, which is written and never read;
* time and space, the tests, CMake, concurrency (the library has no shared state).

## 4. Layout

`lean/Verif/Model` – the model, one file per header. `lean/Verif/Spec` – specifications. `lean/Verif/Proofs` – lemmas. `lean/Verif/Props` – the property theorems `Cxx_…` and beside them examples in which the hypotheses are met by a concrete case. Theorems `…_witness` prove that a claim a user might expect is false of the code, by a concrete counterexample; they delimit the hypotheses of the general theorems. `seeded/LOG.jsonl` – the wrong programs the theorems were tested against.

## 5. Per property: what is modelled, how it is proved

* **C01–C05** (spatial index): constructor, add, finish, sort, queries as array programs with faults. Invariant: every parent box encloses its block of children, levels tile the array; the explicit-stack loops equal a denotational depth first search; results are a permutation of the filter. Float level counts are exact up to 2^24 items by arithmetic on binary32; above it a heap overflow is proved. The quicksort is proved by loop invariants of the partition.
* **C06**: floor arithmetic; zero width is an undefined cast.
* **C07–C09**: real analysis of floor and of Vieta's formula.
* **C10–C17**: the arc of a bulge is specified as the rotation of the start about a centre by 4·atan(bulge); complex algebra and half-angle identities.
* **C18–C20, C50**: algebra per branch with the tolerances; witnesses where a claim fails.
* **C21–C24**: signed area specified by Green's formula on the segments; extents by attained bounds; induction over the segment list.
* **C25, C26**: winding number specified by a continuous lift of the angle along the path; each segment's contribution is its lift change plus a telescoping boundary term; the code's case distinction is shown equal.
* **C27–C32**: loop invariants over segments; C32 composes C01 and C12.
* **C33–C36**: composition of C32 and C50 with the tolerances; invariants of the sort-and-join loop.
* **C37–C41, C51, C52**: algebra for the raw segments; bounds and fault freedom for joins; loop invariants of slicing and stitching, including that `maxLoopCount` is never exceeded; distance of every result vertex; exact run on rectangles, inwards and (`C52_outward`, with rounded corners) outwards, and on segments; the decision tables of the joins (`C38_*`).
* **C42–C45, C57**: decision table without intersects, exact on rectangles; no fault and closed results for every pair; provenance and side of every slice; selectors; termination of stitching.
* **C58**: winding numbers of polygons: constant along lines that do not meet the polygon and changing by one at a crossing (continuity of the argument); the product of two winding numbers is the sum of what the pieces of both polygons add, each weighted with the side it is on; the kept slices follow each other one to one, so that all chains close; arithmetic by mode.
* **C59**: the two tests of the slicing functions are what the specification says (C39 and the query of the spatial index); the lookup is the list of cuts in order; one lemma per loop says when it returns a piece; every cut leads to the piece to the next one; then C40.
* **C60**: winding numbers on the two sides of an edge are constant along it and around its ends, so there is one value for the left sides of all edges and one for the right sides, which differ by one; every point off the polygon is joined to its closest point on the polygon without meeting it; far above all vertexes the number is zero. The direction follows from C61: the integral of the number has the sign of the number beside an edge. The same argument for any function that is constant along segments off the polygon gives the Jordan theorem (C60_jordan).
* **C61**: what an edge counts, minus what it counts when pressed onto the vertical axis, is a bounded function with bounded support whose integral (Fubini) is the trapezoid under the edge; pressed edges count zero together. An arc counts what its chord counts plus the indicator of the circular segment, whose measure is found by moving it (rotations preserve the measure) and integrating its width.
* **C62**: the joins are unrolled (C38 for each corner, no vertex is merged); a point of the true offset has its closest point inside an edge, and then lies on the moved edge between the two cuts because beyond a cut the moved edge is too close to the neighbouring edge, or in a corner, and then the corner bends away and the point is on the arc. Conversely a raw point that is not too close has a closest point at distance exactly |offset|, and the winding number along the way there (C60) says on which side it is.
* **C63**: around a point x of the raw offset that is passed once and not too close, no edge that is exactly |offset| away can come closer along a part of the raw offset through x (own edge: constant distance; neighbour at a cut corner: farther on the kept side of the cut; at a rounded corner: the wedge). The parts and edges that do come too close somewhere form finitely many closed conditions, which do not hold at such x; so on a connected once-passed set "not too close" is open and closed. The points of a polyline are connected (chain of segments), which gives the uncut case.
* **C64**: the raw offset is traced by one real parameter (segment number plus parameter); exact cuts are then increasing positions, and the pieces of C59 are shown to be exactly the stretches between consecutive positions (splitting a segment twice gives sub segments, no vertex is merged because marks are apart). C63 says that each stretch is on the exact offset as a whole or too close as a whole, the tests of C59 pass in the first case, and stitching only joins ends that are the same cut, so that the points of the result are those of the kept pieces. The exceptions in the statement (too close pieces that pass the tests, short loops) are whole pieces from a cut to the next one (`CutPiece`). That no kept part is reported to meet the polygon (`ClearMeets`) is proved from sizes alone (`C64_clear_meets`): what the line-line and line-arc tests report is within 1e-8 of parameters of both segments (C18, C50), or close to both if they are nearly parallel, so within half an offset of both, while the part keeps the distance |offset|; lengths of the segments of the raw offset come from the corner points.
* **C65**: every assertion and access on the way is shown to hold: splitting and midpoints of segments with bulge at most 1, the tests against the polygon (index queries of C32 with visitors that do not fault because both segments are valid), the lookup (non-empty lists, keys are segments), the slice loops (the number of steps to the segment that was cut first is the measure), path lengths of slices, the circles around the ends, and the domain of the stitching (C40).
* **C66**: the area of a closed polyline on one vertical or horizontal line is 0 (C32_area), so all offset loops and stitched loops can be indexed; every pair of loops is cut like two operands of a boolean operation (C33, C36, C43); cuts are at most 8 N² for N vertexes (each pair of loops once, C56), a loop with k cuts gives slices of at most n + 2k vertexes (C55), so the domain of the stitching (C44) and of the indexes of the results holds.
* **C67, C68**: the edges of all result polygons are, up to order, the kept sub-edges of A and B (planar: two of them meet only end to start), and every crossing point is the start of exactly one kept piece and the end of exactly one, so a result polygon cannot meet itself or another one. Where a part keeps nothing (the wrong side of A or of B) every result polygon has a constant winding number: this region is off all result polygons, each of its two halves is one side of a simple polygon (`SimpleP.separates`, the Jordan theorem), and the halves have a point in common. The sum of the winding numbers is known (C58), and beside an edge of one result polygon only that polygon and one of A, B changes; this gives the direction of each polygon and, for the union, that exactly one of them is an outline. Areas follow by integrating the indicator functions (C60, Lebesgue measure).
* **C69**: bit by bit, the words of `hilbertXYToIndex` hold the effect of 2, 4, 8, 16 steps of a machine with four states (an affine map over GF(2)); the machine read from the top bit is the recursion of `Spec.hilbert` up to the symmetry its state stands for. Bijection, neighbourhood and nesting are inductions on the order of the curve.
* **C70**: the turning of a segment about a point is an integral with the point as a parameter: it is continuous in the point off the segment and tends to 0 far away. Around the whole closed polyline it is 2π times an integer, so it is constant on connected sets off the polyline. At a point inside a segment the turning jumps by 2π from the right to the left, because the turnings of an arc and of its chord differ by 2π times the indicator of the circular segment (C61), and all other segments change it continuously.
* **C71**: as C58 with curves in place of straight edges. A position along a polyline is a number (segment and parameter); cuts at the intersects divide it into stretches, each of which has its own turning about a point (an integral) and adds up over stretches. The crossing rule (C70) says on which side of B a stretch of A is, and the product of two winding numbers is the sum over the stretches (`curves_mul`: two closed curves, the winding number of each being a step function along the other). Slices, reversed slices and stitched polylines are lists of edges with bulges whose turning is the turning of the stretches (`slice_arc`, `loop_arcs`). That the intersects found are exactly the common points is `C50_exact`. `CombineDisc` meets the hypotheses with a disc and a rectangle.
* **C72**: beside an inner point of a segment there are coordinates (parameter, distance) in which the two sides are open strips, so every function that is constant on connected sets off the curve has one value on each side of a segment; around a vertex a small circle meets the curve in exactly two points, one on each of the two segments, so the sides go on around the vertex; every point is joined to its closest point on the curve without meeting it. With the winding number as the function the two values differ by one (C70) and one of them is the value far away; with the joined points as the function the two sides are the two classes. The direction follows from C61 as in C60.
* **C73**: the same as C67, C68 for arcs: the segments of all result polylines are, up to order, the kept stretches of A and B, described by intervals of the parameter along A and B (`Ranged`); stretches of the same polyline meet only at common ends because a simple curve is injective in the parameter, stretches of A and of B only at crossing points. The winding number of a result polyline is constant where the part keeps nothing, by the Jordan curve theorem of C72; the rest (counting, directions, areas, measures) is as for polygons.
* **C74**: C62–C64 say that the segments of the result are exactly the level set (right side, distance exactly |offset|), each covered once and traversed in the direction of the raw offset. The sum of the winding numbers of the result is locally constant off the result; across every segment of it it changes by one, in the same direction in which the indicator of the region does (one side of a level curve is in the region, the other is not: `OffsetNear`, `OffsetJump`). So the difference of the two has no jumps off a finite set of points, is constant in the plane less a finite set, and zero far away. The result segments therefore balance (as many start as end at each point, `EdgeBalance`), which with C40 makes every stitched chain close. Areas: C61 for each result polyline. Single polylines (`OffsetOnce`, `OffsetLoopsOnce`): a result polyline does not meet the points closer than |offset| to the polygon, so it winds the same number of times K around all of them; beside a point that only it passes, the sum of the others is constant, so it itself takes the values K and K ± 1 there, and, by a connectedness argument in the plane less a finite set, everywhere; far away it is 0, so K is 0 or ∓1; the sum over all polylines at a point of the polygon is known, which leaves one polyline with K ≠ 0 (outwards) or none (inwards).
* **C75**: the argument of C74 for all loops together. The offset loops of one input loop are its whole level set (C74); of these, C55/C56 keep what is not closer than |offset| to the other input loops, cut at the points where offset loops of different inputs meet, and on the pieces between cuts being too close is all or nothing (`IslandKept`). So the kept segments are the boundary of the region, each covered once (`IslandLevel`, `IslandAll`), the sum of winding numbers less the indicator of the region has no jumps (`IslandDeep`, `IslandWinds`), the segments balance and the chains close (`SelLoops`). That no offset of a counter clockwise input is clockwise (the code drops these) is C74_inward.
* **C76**: polygons that may meet themselves, offset with `hasSelfIntersects`. The lemmas on levels along a raw offset of C62 and C63 hold for any closed chain of lines (`RawG`), except that without simplicity a point at the offset distance from the polygon may be on the raw offset to the other side (`RawG.either`); so away from the dual raw offset, and where the raw offset passes once, being at the distance is open and closed along it. Then C59 (dual path) and the machinery of C64 for cuts at an arbitrary set of points (`PieceOff`, `CutsAt`) give what is kept, C40 the stitched result.
* **C77**: corollaries of C74, that the result of an offset is the boundary of a region with the right winding numbers: the regions for a smaller and a larger offset are nested, and C60 (Jordan for simple polygons) makes inside and area depend only on the set of points of the polygon.
* **C78**: the segment tests report exactly the whole segment as an overlap for each pair of same segments; `sortAndjoinCoincidentSlices` therefore gives closed slices only, `processForCombine` sets completelyCoincident, and the four modes are evaluated.
* **C79**: corollaries of C73 (region and area of a result): the Jordan theorem for simple curves (C72) makes the inside depend only on the points; CleanMeet is symmetric and does not depend on the starting vertex. Inverting keeps clear crossings (Props/CombineInvert).
* **C80**: at a point where two segments are tangent the line and circle (or the two circles) of the offset segments have only that point in common, so each join of C38 adds the start of the next segment and changes nothing (Props/OffsetSmooth); the raw offset is the parallel curve, it has no self intersects, and the distance test decides about the single slice. Starting at another vertex and inverting renumber the segments and keep all conditions (Props/OffsetStart, Props/OffsetReverse).
* **C81**: per segment, length and area integral of the parallel segment from those of the segment (radius less the offset, same center, same angle); the boundary terms of the area cancel around the closed curve (Props/OffsetSteiner).
* **C82**: when no pair reports an intersect there are no slice points, so nothing is stitched and C55 leaves the far enough offsets; circles: the offset of a circle is a circle (C80), the circle-circle test reports nothing for circles that are clearly apart or nested, and the closest point on a half circle is on the circle (Props/IslandsApart, Props/RoundHoles). For curves without corners C80 and C50 give the same (Props/IslandsSmooth).
* **C83**: the points of a half circle are the points of the circle on one side of the start direction (C50's sector lemma); the angles swept add up to one turn inside (C25) and a line separates points outside (C70); length, area, closest point by C23, C21, C14, C27; combining by C42 and the triangle inequality (Props/RoundCombine); circles that cross meet cleanly (CleanMeet), then C73 (Props/RoundCross).
* **C84**: a segment that does not collapse has the normals of the parallel one (line: same direction; arc: same center, radius less the offset, positive), so `ParallelTo` is symmetric and additive; then C80 on both curves (Props/OffsetTwice).
* **C46–C49**: heap state machine, induction over histories of calls, ledger of ownership.
* **C53–C56**: islands. C53/C54 by invariants of the loops of `compute`; C56 by an invariant of the search over pairs (visited set = pairs met so far, exactness of the index from C01); C55 relates the dissected loops to the cut-and-kept pieces specification shared with the combine operation (`Spec.KeptSlices`) and the stitching of C44. End to end: one rectangle and two rectangles.

## 6. Disagreements between code and expectation found while modelling

Each with the theorem that proves it, if there is one.

1. `getExtents` of an open polyline ignores the last vertex if the final segment is a line (`C24_open_witness`).
2. `StaticSpatialIndex` computes level sizes in `float`: 2^24 + 1 items with node size 16 make `finish` write beyond its array (`C03_overflow_above_range`). No items: assertion (`C03_zero_items`).
3. `finish` with more than `NodeSize` items on a vertical or horizontal line casts NaN to `uint32_t` (`C06_zero_width`).
4. `convertArcsToLines`: an empty open polyline reads `back()` of an empty vector (`C30_empty_witness`); arcs with radius below error + 1e-8 stay arcs; error 0 divides by zero; a closed result starts with the last vertex.
5. `pruneSingularities` of a closed polyline: the new last vertex may still coincide with the first (`C29_closing_witness`).
6. `cavc_pline_remove_range`: the range check wraps around in 32 bits (`C48_wrap_witness`); `cavc_combine_plines` with an invalid mode does a union in release builds though the documentation says the outputs are not filled (`C49_invalid_mode_witness`).
7. `closestPointOnSeg` can return a point off the arc near its sweep ends (`C14_off_arc_witness`).
8. `intrLineSeg2Circle2` misses crossings of short segments and reports false tangents (`C19_*`); `intrCircle2Circle2` for nearly concentric circles reports a point far off (`C20_near_coincident_witness`).
9. `stitchOffsetSlicesTogether`: the single-slice path uses the join threshold 1e-4 where others use 1e-5 and can return a closed polyline of one vertex (`C40_single_vertex_witness`).
10. Slicing validates only the first vertex of a raw offset without self intersects; offsets below 1e-4 invert the query box (`C39_small_offset_witness`).
11. `combinePolylines` with a first polyline of fewer than two vertexes fails an assertion (`C43_too_small`); the midpoint of a degenerate arc piece can fail one (possible only if an intersect is near but not at the end of an arc, `C43_arcs`).
12. `segLength`, `getExtents`, `pointWithinArcSweepAngle` need |bulge| ≤ 1.
13. `intrPlineSegs` of coincident arcs of opposite direction returns points that do not bound the overlap (`C50_opposite_direction_witness`).
14. `angleIsWithinSweep` is false exactly one full turn above the start (`C08_full_turn_exception`).
15. `findIntersects` never reports a touch at the very first vertex of an open polyline (`C33_first_vertex_witness`).
16. `sortAndjoinCoincidentSlices`: a slice that ends inside an arc keeps the bulge of the rest of the arc (`C36_bulge_witness`).
17. `localSelfIntersects`: two vertexes with tiny bulges overlap unreported (`C35_small_witness`); a repeated vertex that starts an arc fails an assertion (`C35_singular_arc_witness`).
18. Repeated vertexes make the offset fail an assertion (`C37_repeat_witness`); nearly collapsed arcs as well (`C38_near_collapse_witness`).
19. Connection arcs are added with the turn fixed by the sign of the offset also at concave corners (part of the decision table in C38).
20. Islands: open leftovers of `parallelOffset` (area 0) go to the counter-clockwise loops; the single-vertex offset of 9 fails an assertion there.
