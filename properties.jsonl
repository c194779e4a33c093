{"id": "C01", "title": "Spatial index query is exact", "statement": "After adding n items and calling finish(), query(box) returns exactly the indexes (in order of add calls) of the items whose box overlaps the query box (closed overlap), each exactly once, with no missing, spurious or duplicated index.", "quantifier": "every item count 1..2^24, every node size >= 2, every list of boxes over any linear order, every query box, every Hilbert key assignment", "why_tests_cant": "the number of tree shapes, sort permutations and query boxes is unbounded; a test samples a few", "anchors": ["include/cavc/staticspatialindex.hpp: StaticSpatialIndex::query, visitQuery, finish, sort"]}
{"id": "C02", "title": "Early-stopping query visits a prefix", "statement": "visitQuery with a visitor that returns false stops right there: the visited indexes are exactly a prefix of the sequence the full query would report, ending with the first index for which the visitor returned false; nothing is visited afterwards even when nodes are still pending on the stack.", "quantifier": "every index as in C01, every query box, every stateful visitor", "why_tests_cant": "visitors and stop points are arbitrary functions of the history", "anchors": ["include/cavc/staticspatialindex.hpp: visitQuery"]}
{"id": "C03", "title": "Spatial index construction is memory safe and terminates", "statement": "Constructing for n items, adding n items, finishing and querying never writes or reads outside the allocated arrays, fills the arrays exactly, and every loop terminates; levels are computed by float division, so this holds only up to the float-exact range, and it fails just above it.", "quantifier": "every item count 1..2^24 and node size 2..65535; a witness above the range", "why_tests_cant": "out-of-bounds depends on float rounding of arbitrarily large counts", "anchors": ["include/cavc/staticspatialindex.hpp: constructor, add, finish, computeNumLevels"]}
{"id": "C04", "title": "Bucket sort permutes items consistently and block-sorts them", "statement": "The internal sort moves (Hilbert value, box, index) triples together, permutes them, terminates without out-of-range access, and afterwards every value in an earlier NodeSize-aligned bucket is <= every value in a later one.", "quantifier": "every array of values of any length with arbitrary ties, every node size >= 1", "why_tests_cant": "quicksort partition errors occur on rare tie patterns", "anchors": ["include/cavc/staticspatialindex.hpp: sort, swap"]}
{"id": "C05", "title": "Index extents and box enumeration are exact", "statement": "minX/minY/maxX/maxY equal the exact min/max over the added boxes; visitItemBoxes visits each item once with the box that was added for it; visitBoundingBoxes visits every stored box exactly once with its tree level and every parent box encloses its children; early stop gives a prefix.", "quantifier": "all counts, boxes, node sizes, visitors", "why_tests_cant": "unbounded inputs and tree shapes", "anchors": ["include/cavc/staticspatialindex.hpp: add, visitItemBoxes, visitBoundingBoxes"]}
{"id": "C06", "title": "Hilbert coordinates stay in 16 bit range", "statement": "If the total extents have positive width and height, each computed Hilbert coordinate is in 0..65535 so the integer cast is defined; if width or height is zero and there are more items than NodeSize the cast operand is 0/0 (undefined behaviour).", "quantifier": "all box lists with minX<=maxX and minY<=maxY", "why_tests_cant": "degenerate extents are measure zero and results happen to be unaffected in practice", "anchors": ["include/cavc/staticspatialindex.hpp: finish"]}
{"id": "C07", "title": "Angle normalisation", "statement": "normalizeRadians returns a value in [0,2pi] equal to its argument modulo 2pi; deltaAngle returns the representative of angle2-angle1 in (-pi,pi].", "quantifier": "all real angles", "why_tests_cant": "continuum of inputs", "anchors": ["include/cavc/mathutils.hpp: normalizeRadians, deltaAngle"]}
{"id": "C08", "title": "Sweep membership tests mean geometric membership", "statement": "angleIsWithinSweep(start,sweep,test) is true exactly when test (mod 2pi) is on the swept arc or less than epsilon past its end, for positive and negative sweeps; the only exception is a test angle exactly one full turn above the start, which is rejected (proved).", "quantifier": "all starts, sweeps with |sweep|<2pi, all test angles, epsilon >= 0", "why_tests_cant": "continuum plus wrap-around", "anchors": ["include/cavc/mathutils.hpp: angleIsBetween, angleIsWithinSweep"]}
{"id": "C09", "title": "Quadratic solver returns the two roots", "statement": "quadraticSolutions returns the two roots (with multiplicity) of a x^2+b x+c given the exact discriminant, without dividing by zero, whenever the discriminant is not negative and 0 is not a double root (for a double root at 0 the division 0/0 is reached: proved).", "quantifier": "all real a != 0, b, c with discr >= 0", "why_tests_cant": "branch on sign of b, division by computed root", "anchors": ["include/cavc/mathutils.hpp: quadraticSolutions"]}
{"id": "C10", "title": "arcRadiusAndCenter describes the arc of the bulge", "statement": "For an arc segment the returned circle passes through both end points and sweeping from start by 4*atan(bulge) about the returned center lands on the end point; the radius is positive.", "quantifier": "all start/end points distinct, all bulges non-zero with |bulge| <= 1 (and beyond where it holds)", "why_tests_cant": "continuum of geometry", "anchors": ["include/cavc/plinesegment.hpp: arcRadiusAndCenter"]}
{"id": "C11", "title": "splitAtPoint preserves the path", "statement": "Splitting a segment at a point on it yields two consecutive segments that together trace exactly the same point set with the same direction, meeting at the split point and keeping the original end point. Splitting an arc never fails; at (within 1e-5 of) one of its ends it yields a piece of zero length and the whole arc.", "quantifier": "all line and arc segments, all points strictly inside", "why_tests_cant": "continuum of geometry", "anchors": ["include/cavc/plinesegment.hpp: splitAtPoint"]}
{"id": "C12", "title": "Fast approximate bounding box contains the segment", "statement": "createFastApproxBoundingBox returns a box that contains every point of the segment.", "quantifier": "all line segments, all arcs with |bulge| <= 1", "why_tests_cant": "extreme points in the interior of arcs; continuum", "anchors": ["include/cavc/plinesegment.hpp: createFastApproxBoundingBox"]}
{"id": "C13", "title": "closestPointOnLineSeg is optimal up to the threshold", "statement": "The returned point lies on the segment, no point of the segment is closer by more than 2e-8 in squared distance, and it is exactly the closest point if the projection is not within 1e-8 of an end.", "quantifier": "all segments (including degenerate) and query points", "why_tests_cant": "continuum", "anchors": ["include/cavc/vector2.hpp: closestPointOnLineSeg"]}
{"id": "C14", "title": "closestPointOnSeg on arcs", "statement": "For an arc segment of at most a half circle closestPointOnSeg never faults; the returned point is on the circle of the arc and no point of the arc is closer to the query (up to 3e-8 if the query is within 1e-8 of the center); it is on the arc itself unless the query is within the 1e-8 tolerance band of the lines from the center to the end points (inside that band the result can be far off the arc: proved by witness).", "quantifier": "all arcs with |bulge| <= 1, query points", "why_tests_cant": "continuum", "anchors": ["include/cavc/plinesegment.hpp: closestPointOnSeg"]}
{"id": "C15", "title": "segLength is the arc length", "statement": "segLength equals the length of the curve the segment describes (integral of its speed); if the end points agree to 1e-8 in both coordinates it returns 0, which is less than 3e-8 off.", "quantifier": "all segments with |bulge| <= 1", "why_tests_cant": "continuum; sign/wrap cases", "anchors": ["include/cavc/plinesegment.hpp: segLength"]}
{"id": "C16", "title": "segMidpoint is the halfway point", "statement": "segMidpoint returns the point of the segment at half its length.", "quantifier": "all segments with |bulge| <= 1", "why_tests_cant": "continuum; wrap cases", "anchors": ["include/cavc/plinesegment.hpp: segMidpoint"]}
{"id": "C17", "title": "segTangentVector points along the path", "statement": "segTangentVector at a point on the segment is a positive multiple of the derivative of the path there.", "quantifier": "all segments, points on them", "why_tests_cant": "continuum", "anchors": ["include/cavc/plinesegment.hpp: segTangentVector"]}
{"id": "C18", "title": "Line/line intersection soundness and completeness", "statement": "intrLineSeg2LineSeg2: two segments with a common point always give a true intersect or an overlap (unless both are points up to 1e-8); every reported point is on both lines within the thresholds and on the second segment extended by 1e-8; a false intersect gives the parameters of the meeting point of the infinite lines and the segments have no common point then; for collinear segments the overlap parameters delimit exactly the common part.", "quantifier": "all pairs of segments including degenerate points and collinear overlaps", "why_tests_cant": "thresholded case split over a continuum", "anchors": ["include/cavc/intrlineseg2lineseg2.hpp: intrLineSeg2LineSeg2"]}
{"id": "C19", "title": "Line/circle intersection soundness", "statement": "intrLineSeg2Circle2 never faults. For a segment of length at least 1e-4: two reported parameters are exactly the points where the infinite line meets the circle; one reported parameter is the nearest point of the line to the center and on the circle within the discriminant threshold (|dist^2 - r^2| * 4 len^2 < 1e-8); no intersect means the line does not meet the circle. For shorter segments only the start point is tested, so crossings can be missed (proved by witness), and the tangent threshold can accept a point a tenth of the radius off (proved by witness).", "quantifier": "all segments and circles", "why_tests_cant": "thresholded continuum", "anchors": ["include/cavc/intrlineseg2circle2.hpp: intrLineSeg2Circle2"]}
{"id": "C20", "title": "Circle/circle intersection soundness", "statement": "intrCircle2Circle2: Coincident exactly when center and radius agree to 1e-8; NoIntersect only if the circles have no common point; TwoIntersects gives exactly the two common points; OneIntersect gives a point within 2e-8 (1 + smaller radius / center distance) of both circles and within 1e-8 of every common point. For nearly coincident circles that bound is large: a reported point 100 units off is proved by witness.", "quantifier": "all pairs of circles with positive radius", "why_tests_cant": "thresholded continuum", "anchors": ["include/cavc/intrcircle2circle2.hpp: intrCircle2Circle2"]}
{"id": "C21", "title": "getArea equals the signed enclosed area", "statement": "getArea of a closed polyline equals the signed area enclosed by its line and arc path (Green line integral), and 0 for open polylines.", "quantifier": "all polylines of any vertex count, any bulge values", "why_tests_cant": "sum over unbounded vertex lists", "anchors": ["include/cavc/polyline.hpp: getArea"]}
{"id": "C22", "title": "Area transforms correctly", "statement": "Inverting direction negates getArea; translation leaves it unchanged; scaling by s multiplies it by s^2.", "quantifier": "all closed polylines, offsets, scale factors", "why_tests_cant": "all vertex lists", "anchors": ["include/cavc/polyline.hpp: getArea, invertDirection, translatePolyline, scalePolyline"]}
{"id": "C23", "title": "Path length", "statement": "getPathLength equals the sum of the lengths of the segments as curves (the closing one only for closed polylines), except that a segment whose end points agree to 1e-8 in both coordinates counts 0 (below 3e-8 off); it is non-negative, unchanged by invertDirection and translatePolyline, and multiplied by |s| by scalePolyline when no segment is below the cut before or after. Arcs of at most a half circle.", "quantifier": "all polylines", "why_tests_cant": "unbounded lists", "anchors": ["include/cavc/polyline.hpp: getPathLength"]}
{"id": "C24", "title": "getExtents bounds the polyline", "statement": "For a closed polyline, or an open one whose last segment is an arc, the extents contain every point of the polyline and each side is touched by it (up to 1e-8 radians past an arc end). For open polylines that end in a line segment the last vertex is ignored: proved by witness.", "quantifier": "all closed polylines with |bulge| <= 1", "why_tests_cant": "arc extrema between vertices; continuum", "anchors": ["include/cavc/polyline.hpp: getExtents"]}
{"id": "C25", "title": "Winding number agrees with topology", "statement": "For every closed polyline of line segments and arcs of at most a half circle, and every point not on it, getWindingNumber never faults and equals the topological winding number: the total turn of the path about the point (integral of the rate of change of the polar angle over every segment) divided by 2 pi.", "quantifier": "all closed polylines with |bulge| <= 1, all points off the path", "why_tests_cant": "quantifies over all curves and points", "anchors": ["include/cavc/polyline.hpp: getWindingNumber"]}
{"id": "C26", "title": "Winding number trivial cases and invariance", "statement": "getWindingNumber is 0 for open polylines or fewer than 2 vertices; inverting direction negates it off the path; translating both the polyline and the point leaves it unchanged.", "quantifier": "all polylines and points", "why_tests_cant": "all vertex lists", "anchors": ["include/cavc/polyline.hpp: getWindingNumber"]}
{"id": "C27", "title": "ClosestPoint finds the nearest segment point", "statement": "For at least two vertexes ClosestPoint never faults; its point is the per segment closest point of a segment attaining the minimum distance over all segments, the first such in visiting order; its distance is the distance to the point; its index is that segment or the next one if the point is within 1e-8 of the common vertex; no point of the polyline is closer up to the tolerances of C13 and C14.", "quantifier": "all non-empty polylines and points", "why_tests_cant": "loop over unbounded lists", "anchors": ["include/cavc/polyline.hpp: ClosestPoint"]}
{"id": "C28", "title": "invertDirection reverses the path", "statement": "invertDirection is an involution and the result traces exactly the same segments reversed (start/end swapped, bulge negated).", "quantifier": "all polylines open and closed", "why_tests_cant": "all vertex lists", "anchors": ["include/cavc/polyline.hpp: invertDirection"]}
{"id": "C29", "title": "pruneSingularities removes fuzzy duplicates only", "statement": "The vertexes split into consecutive runs of vertexes fuzzy-equal to the first of the run; each run becomes one vertex (position of its first, bulge of its last), consecutive results are not fuzzy-equal, for closed polylines the last result is dropped if it is fuzzy-equal to the first; a polyline without fuzzy-equal neighbours is returned unchanged. The closing pair can remain fuzzy-equal after the drop: proved by witness.", "quantifier": "all polylines, epsilon > 0", "why_tests_cant": "unbounded lists and non transitive fuzzy equality", "anchors": ["include/cavc/polyline.hpp: pruneSingularities"]}
{"id": "C30", "title": "convertArcsToLines approximates within error", "statement": "For a positive error the result is one piece per segment: lines keep their start vertex; arcs of radius at least error+1e-8 are replaced by chords whose end points divide the arc evenly and which are within the error of it; smaller arcs are kept as they are. Open/closed flag and order are kept, except that the closing segment of a closed polyline comes first; an open polyline without vertexes reads the back of an empty vector (witness).", "quantifier": "all polylines, error > 0", "why_tests_cant": "unbounded", "anchors": ["include/cavc/polyline.hpp: convertArcsToLines"]}
{"id": "C31", "title": "Segment iteration covers every segment once", "statement": "visitSegIndices visits each consecutive pair exactly once, plus the closing pair exactly when closed, in order, and stops early when the visitor returns false.", "quantifier": "all polylines sizes", "why_tests_cant": "unbounded", "anchors": ["include/cavc/polyline.hpp: visitSegIndices"]}
{"id": "C32", "title": "Polyline spatial index finds all segments", "statement": "createApproxSpatialIndex: for a polyline of 2 or more vertexes, arcs of at most a half circle, at most 2^24 segments, and either at most 16 segments or extents of positive width and height, the index is built without fault; every query reports each index once, only indexes of segments, and every segment that has a point in the query box. A closed polyline whose area is not zero has such extents, so for it the index is always built.", "quantifier": "all polylines with at least 2 vertexes and |bulge| <= 1, all query boxes", "why_tests_cant": "composition over all inputs", "anchors": ["include/cavc/polyline.hpp: createApproxSpatialIndex", "include/cavc/staticspatialindex.hpp"]}
{"id": "C33", "title": "Pairwise intersect search misses no pair", "statement": "findIntersects(p1, p2, index of p1) never faults and reports exactly: as isolated intersects (i1, i2, x) those points x the pairwise segment test reports for two segments with close bounding boxes, that are not at the start of either segment (they are reported by the previous segment) and do not repeat the end of a reported overlap at a segment end; as coincident intersects every overlap the segment test reports. No pair of segments with a common point is hidden by the spatial index.", "quantifier": "all pairs of polylines with 1 to 2^24 segments, arcs of at most a half circle", "why_tests_cant": "pre-filter and index correctness for all inputs", "anchors": ["include/cavc/polylineintersects.hpp: findIntersects"]}
{"id": "C34", "title": "Global self intersects visits each non adjacent pair once", "statement": "globalSelfIntersects(p, index of p) never faults and compares every unordered pair of segments that share no vertex and whose boxes are within 1e-8 of overlapping exactly once, and no other pair; it appends exactly the points the segment test reports that are not at the start of one of the two. A pair with a common point is never left out.", "quantifier": "all polylines with 1 to 2^24 segments, all initial outputs", "why_tests_cant": "hash-set dedup over unbounded pairs", "anchors": ["include/cavc/polylineintersects.hpp: globalSelfIntersects"]}
{"id": "C35", "title": "Local self intersects", "statement": "localSelfIntersects appends, for each pair of consecutive segments in order (for closed polylines also the last and the first), the start of a repeated vertex, or the points the segment test reports away from the common vertex, or the first end of an overlap, and nothing else; for a closed polyline of two vertexes, both vertexes exactly when the bulges are opposite within 1e-8.", "quantifier": "all polylines with arcs of at most a half circle with distinct ends, all initial outputs", "why_tests_cant": "unbounded", "anchors": ["include/cavc/polylineintersects.hpp: localSelfIntersects"]}
{"id": "C36", "title": "Coincident slices are joined maximally", "statement": "sortAndjoinCoincidentSlices never faults; it leaves the list a permutation of the input with each intersect oriented away from its segment's start and sorted along the first polyline; the slices, their start and end points and direction flags are those of the maximal runs of intersects in which each begins where the one before ends, the last run being put before the first if it ends where that begins.", "quantifier": "all lists of coincident intersects, all sort tie breaks", "why_tests_cant": "unbounded lists, unspecified order of ties", "anchors": ["include/cavc/polylineintersects.hpp: sortAndjoinCoincidentSlices"]}
{"id": "C37", "title": "Raw offset segments are parallel at the offset distance", "statement": "createUntrimmedOffsetSegments: each line segment offset is parallel, of the same length, at signed distance offset; each arc offset is concentric with radius changed by the offset, keeping bulge unless collapsed.", "quantifier": "all polylines, all offsets", "why_tests_cant": "continuum and all lists", "anchors": ["include/cavc/polylineoffset.hpp: createUntrimmedRawOffsetSegments"]}
{"id": "C38", "title": "Joins of raw offset segments", "statement": "The connection arc between raw offset segments never exceeds a half circle and has the direction asked for; at a corner of two lines the join is the intersection point when the raw segments cross, otherwise an arc of radius |offset| centred at the original vertex when the corner turns away from the offset side, otherwise a straight line. At a corner with an arc the join is at the point where the line or arc meets the circle of the arc, the one nearer to the original vertex if there are two, provided it is on both segments; the arc is then cut there: the part left keeps its center and its other end and sweeps exactly the corresponding part of the angle. If the point is not on both segments they are connected by an arc about the original vertex or, from a line that does not reach it, by a line. The raw offset is the sequence of these joins of the exact offsets of the segments, the last joined with the first if the polyline is closed. Joining all raw segments of a polyline with |bulge| <= 1 and no repeated vertexes gives |bulge| <= 1 everywhere, no repeated consecutive vertexes, never a single vertex, the same closedness, and no fault other than an assertion when an arc almost collapses.", "quantifier": "all polylines with |bulge| <= 1 and no repeated vertexes, all offsets; all corners of lines and arcs", "why_tests_cant": "continuum of corner angles, lengths and offsets", "anchors": ["include/cavc/polylineoffset.hpp: bulgeForConnection, lineToLineJoin, lineToArcJoin, arcToLineJoin, arcToArcJoin, createRawOffsetPline"]}
{"id": "C39", "title": "pointValidForOffset means far enough away", "statement": "For every polyline without degenerate arcs and every tolerance not above |offset|, pointValidForOffset(p) = true means that every point of every segment is at least |offset| - tolerance away from p; = false means that the library's closest point of some segment is within |offset| - tolerance; the spatial index hides no nearer segment. For |offset| below the tolerance 1e-4 the test accepts points on the polyline itself (witness).", "quantifier": "all polylines, offsets > 1e-4, points", "why_tests_cant": "index filter correctness for all inputs", "anchors": ["include/cavc/polylineoffset.hpp: pointValidForOffset"]}
{"id": "C40", "title": "stitchOffsetSlicesTogether terminates and conserves slices", "statement": "For any slices of at least two vertexes, stitching never exceeds its loop bound and never throws: the result is obtained from chains of slices which use every slice exactly once, each next slice starts where the last one ended (within twice the join threshold) and is the nearest by forward index distance among the unused ones, no chain can be extended, and a result is closed exactly when a closed input was given and its ends meet within 1e-5; with a single slice the threshold is 1e-4, which can give a closed polyline of one vertex (witness).", "quantifier": "all slice lists, index orders, std::sort tie orders", "why_tests_cant": "unbounded histories of joins", "anchors": ["include/cavc/polylineoffset.hpp: stitchOffsetSlicesTogether"]}
{"id": "C41", "title": "parallelOffset: trivial inputs and the shape of results", "statement": "parallelOffset of a polyline with fewer than 2 vertexes is the empty list. Otherwise no result is an empty polyline; results of an open polyline are open; results of a closed polyline are closed except when their two ends do not meet within 1e-5, in which case they have at least two vertexes.", "quantifier": "all polylines, offsets, hash orders and sort tie orders", "why_tests_cant": "ranges over the whole pipeline on every input", "anchors": ["include/cavc/polylineoffset.hpp: parallelOffset, stitchOffsetSlicesTogether"]}
{"id": "C42", "title": "Boolean operations on polylines that do not intersect", "statement": "If the segment tests report no intersect between two closed polylines (lines and arcs of at most a half circle, the first vertex of each off the other), combinePolylines does not fault and returns exactly what the decision table on containment of the first vertexes says for Union, Exclude, Intersect and XOR; when the regions are nested or disjoint accordingly, the result (remaining minus subtracted) is the boolean operation on the regions. Rectangles nested in one another or apart are instances without side conditions.", "quantifier": "all pairs of closed polylines without reported intersects, all modes, all points, all orders of std::sort ties and of hash iteration", "why_tests_cant": "decision table over all winding numbers, positions and modes", "anchors": ["include/cavc/polylinecombine.hpp: combinePolylines", "include/cavc/polyline.hpp: getWindingNumber"]}
{"id": "C43", "title": "Boolean operations: no faults, closed results made of known points", "statement": "combinePolylines on two non-empty closed polylines (lines and arcs of at most a half circle, at most 10^6 segment pairs) never accesses out of bounds and never exceeds a loop bound; for straight segments it never faults, with arcs the only possible fault is a failed assertion on a degenerate arc, and there is none if every vertex and every intersect is exactly at the end of an arc or at least 1e-4 from it in a coordinate. Every polyline in remaining and subtracted is one of the two inputs or is closed, has at least two vertexes, and each vertex is at the position of an input vertex or of a reported intersect; without arcs in the inputs there are none in the result. A first polyline with fewer than two vertexes always fails an assertion.", "quantifier": "all closed inputs, all modes, all orders of std::sort ties and of hash iteration", "why_tests_cant": "whole pipeline on every input and every implementation-defined order", "anchors": ["include/cavc/polylinecombine.hpp: combinePolylines, processForCombine, sliceAtIntersects, collectSlices, stitchOrderedSlicesIntoClosedPolylines"]}
{"id": "C44", "title": "Stitching slices of boolean operations", "statement": "stitchOrderedSlicesIntoClosedPolylines never faults and stays within its loop bound for every list of non-empty slices and every selector that returns an available slice or none. The slices are partitioned into chains; within a chain each next slice starts within the threshold of the end of the one before and is the one the selector chose among all unused such slices (or the first of the chain); chains begin at the first unused slice; exactly the chains that return to their first slice and have at least three stitched vertexes become closed polylines, in order.", "quantifier": "all slice lists, all selectors, all index orders", "why_tests_cant": "unbounded join histories", "anchors": ["include/cavc/polylinecombine.hpp: stitchOrderedSlicesIntoClosedPolylines"]}
{"id": "C45", "title": "Stitch selectors choose by preference", "statement": "Each stitch selector returns an available slice or nothing, following a fixed order of preference: Union and Intersect prefer slices that are not coincident and, after a coincident slice, take nothing else; Exclude and XOR alternate between the two polylines where possible. Hence no chain has two coincident slices in a row, also around its end.", "quantifier": "all current slices, all candidate lists, all chains", "why_tests_cant": "all lists and histories", "anchors": ["include/cavc/polylinecombine.hpp: createUnionAndIntersectStitchSelector, createExcludeAndXORStitchSelector, StitchFirstAvailable"]}
{"id": "C46", "title": "C API handle ownership", "statement": "Using the C API according to its documentation (create/delete/release) never double frees, never uses a freed handle and leaks nothing; released list entries stay valid and are the caller's.", "quantifier": "all histories of API calls", "why_tests_cant": "all call sequences", "anchors": ["src/cavaliercontours.cpp"]}
{"id": "C47", "title": "C API vertex data round trip", "statement": "cavc_pline_set_vertex_data followed by cavc_pline_vertex_data returns the same vertexes; add/remove/clear/set behave like list operations.", "quantifier": "all arrays and handles, all histories", "why_tests_cant": "all sequences", "anchors": ["src/cavaliercontours.cpp: cavc_pline_*"]}
{"id": "C48", "title": "cavc_pline_remove_range bounds check is sound", "statement": "remove_range with a valid range removes exactly that range; its bounds assertion uses 32-bit wrap-around arithmetic and accepts an invalid range (witness).", "quantifier": "all sizes, starts, counts in uint32", "why_tests_cant": "wrap-around corner", "anchors": ["src/cavaliercontours.cpp: cavc_pline_remove_range"]}
{"id": "C49", "title": "cavc_combine_plines mode validation", "statement": "For modes 0..3 the C API performs the documented operation; for other values the documentation says outputs are not filled but the release code falls back to Union (witness).", "quantifier": "all int modes", "why_tests_cant": "finite but documented behaviour mismatch", "anchors": ["src/cavaliercontours.cpp: cavc_combine_plines"]}
{"id": "C50", "title": "intrPlineSegs reports only real common points", "statement": "intrPlineSegs never faults on valid segments. Line/line, line/arc, arc/arc on different circles and arcs of the same circle and direction: every reported point is on both segments (up to the 1e-8 thresholds of the sweep and parameter tests), and a common point of the two segments is reported (for line/arc and arc/arc unless the contact is nearly tangent). For segments that cross clearly or not at all (not nearly tangent, parallel or on the same circle, and not within the tolerance of an end) the reported points are exactly the common points, each once. False for coincident arcs of opposite direction: proved by witness.", "quantifier": "all pairs of line/arc segments with |bulge| <= 1", "why_tests_cant": "case split over a continuum", "anchors": ["include/cavc/plinesegment.hpp: intrPlineSegs"]}
{"id": "C51", "title": "Offset results keep their distance", "statement": "Every vertex of every polyline returned by parallelOffset is at distance at least |offset| - 1e-4 from the whole original polyline, except in the two places where the code does not validate: when the raw offset has no self-intersections (only its first vertex is checked), and one vertex of the first slice of an open polyline. The iteration bounds of the slicing loops are never what stops them.", "quantifier": "all polylines of arcs of at most a half circle, all offsets of absolute value at least 1e-4, all hash orders and sort tie orders", "why_tests_cant": "universal over inputs and over unordered_map iteration orders", "anchors": ["include/cavc/polylineoffset.hpp: slicesFromRawOffset, dualSliceAtIntersectsForOffset, pointValidForOffset, parallelOffset"]}
{"id": "C52", "title": "Offset of a rectangle and of a segment, end to end", "statement": "parallelOffset of a counter clockwise axis-aligned rectangle by d > 0 to the inside runs without fault and is exactly the one smaller rectangle when it has room for it (by 1e-3), and the empty list when the rectangle is thinner than 2 d (but wider than d); to the outside (by d at least 1e-4, sides at least 1e-3, and not both sides longer than 1e8 d), for either direction of the rectangle, it is exactly the one polyline of the four sides moved outwards and four quarter circles of radius d about the corners; parallelOffset of a straight segment (an open polyline of two vertexes) of length at least 1e-3 by d, |d| at least 1e-3, is exactly the segment shifted by d to its left \u2014 whatever the orders of hash tables and sorting ties.", "quantifier": "all rectangles and all d within the stated room; all segments and all d within the stated sizes", "why_tests_cant": "universal over real coordinates and offsets", "anchors": ["include/cavc/polylineoffset.hpp: parallelOffset"]}
{"id": "C53", "title": "Islands offset: orientation, indexes and origin of the loops", "statement": "Whatever set of counter clockwise and clockwise loops is given, if the islands offset returns, then every polyline in its counter clockwise list has non-negative signed area and every one in its clockwise list negative signed area, every returned loop carries the spatial index of its own polyline, and every returned loop is either one of the parallel offsets of the input loop named by its parent index, unchanged, or a closed polyline of at least two vertexes with area at least 1e-4. A single rectangle with room for the offset gives exactly the smaller rectangle, and two rectangles side by side give exactly the two smaller ones.", "quantifier": "all sets of loops, all offsets, all orders of hash tables and ties in sorting", "why_tests_cant": "Tests run a few fixed sets of loops; the lists are filled along several paths (untouched offsets, stitched slices, leftovers of the parallel offset) whose combination depends on the intersections of all pairs of loops.", "anchors": ["include/cavc/polylineoffsetislands.hpp: ParallelOffsetIslands::compute, createOffsetLoops", "include/cavc/polyline.hpp: getArea"]}
{"id": "C54", "title": "Islands offset: distance from the other loops", "statement": "For valid, indexed input loops and an offset of at least 1e-4: every returned loop that is an unchanged parallel offset starts at a point whose distance from every other input loop is at least the offset minus 1e-4, and every other returned loop is put together end to end of open pieces, each with at least two vertexes, cut from parallel offsets of input loops, each of which is at that distance, at the midpoint of its last segment, from all input loops other than the one it is an offset of.", "quantifier": "all sets of valid loops, all offsets of at least 1e-4, all orders of hash tables and ties in sorting", "why_tests_cant": "The distance condition ranges over all pairs of result pieces and input loops and over every way the loops can intersect; tests compare a few results with stored numbers.", "anchors": ["include/cavc/polylineoffsetislands.hpp: pointOnOffsetValid, createSlicesFromLoop, compute", "include/cavc/polylineoffset.hpp: pointValidForOffset"]}
{"id": "C55", "title": "Islands offset: the exact pieces of the result", "statement": "For any set of valid indexed loops, if the islands offset returns, its result is determined as follows: the parallel offsets of all loops are collected (clockwise offsets of counter clockwise loops are dropped); two offset loops whose extents overlap are cut at their isolated intersects and at the ends of their overlaps; an offset loop that meets no other one is returned as it is, in its list, exactly when its first vertex is far enough from all input loops other than its parent; every other offset loop contributes exactly the pieces between consecutive cuts along it whose tested midpoint is far enough from all input loops other than its parent; the kept pieces are stitched, each used exactly once, to closed polylines, of which those of area at least 1e-4 are returned in the list of their orientation. No other loop is returned.", "quantifier": "all sets of valid indexed loops (lines and arcs), all offsets, all orders of hash tables and sorting ties", "why_tests_cant": "Tests compare a few results; which pieces are cut and kept depends on all pairs of loops, the order of cuts along each loop and hash table order, so a misattributed cut (index of the wrong loop) or a dropped piece shows only on particular configurations.", "anchors": ["include/cavc/polylineoffsetislands.hpp: ParallelOffsetIslands::compute, createOffsetLoops, createSlicesFromLoop, pointOnOffsetValid", "include/cavc/polylinecombine.hpp: stitchOrderedSlicesIntoClosedPolylines"]}
{"id": "C56", "title": "Islands offset: every pair of meeting loops is cut exactly once", "statement": "Among the offset loops, every pair of loops whose extents overlap and that have an intersect or an overlap is cut, exactly once (not once from each side), at exactly the isolated intersects and overlap ends of the pair, with the segment indexes attributed to the right loop of the pair; pairs that do not meet are not cut.", "quantifier": "all sets of up to 2^24 offset loops and all built indexes of them", "why_tests_cant": "The pairs are found through a spatial index and a set of visited pairs; a pair missed or handled twice only matters for certain index layouts and orders.", "anchors": ["include/cavc/polylineoffsetislands.hpp: createSlicePoints, createOffsetLoopsIndex, SlicePointSet", "include/cavc/staticspatialindex.hpp: query"]}
{"id": "C57", "title": "Boolean operations put together exactly the right pieces", "statement": "For closed, valid, indexed polylines A and B of any size (product of the vertex counts at most 1e6), in every mode: if combinePolylines returns, then (1) if the overlap goes all the way around the result is A for union and intersection and nothing otherwise; (2) if the polylines do not meet, the result is the one of the containment table, decided by the first vertexes; (3) otherwise both polylines are cut at all isolated intersects and at both ends of all overlaps, in order; between two consecutive cuts there is exactly one piece, equal to the part of the polyline between them, none where an overlap begins; for the union the pieces of each polyline outside the other are kept, for the intersection those inside, for A minus B those of A outside B and of B inside A, for XOR both differences; the pieces of B are inverted exactly if needed for the direction they have to go (same as A for union and intersection, opposite for the differences); kept pieces and the overlaps are stitched, each used exactly once; for the union the loops that go around like A remain and the other ones are holes, otherwise all remain. Off the polyline, the test for inside used is the winding number one.", "quantifier": "all pairs of closed valid indexed polylines, all four modes, all orders of hash tables and of ties in sorting", "why_tests_cant": "Tests compare areas, lengths and extents of results for a few shapes; that every piece between two cuts is taken into account exactly once, on the right side and in the right direction, must hold for every arrangement of intersects, shared vertexes and overlaps.", "anchors": ["include/cavc/polylinecombine.hpp: combinePolylines, sliceAtIntersects, collectSlices, stitchOrderedSlicesIntoClosedPolylines, ProcessForCombineResult", "include/cavc/polyline.hpp: invertDirection, addOrReplaceIfSamePos"]}
{"id": "C58", "title": "Boolean operations on polygons bound exactly the right region", "statement": "For closed polylines A and B of straight segments in general position (any two segments of them either cross away from their ends and not almost parallel, or keep apart by a small margin; crossings are not close to each other; no repeated vertexes), each of which goes once around what is inside it in either direction, combinePolylines returns for every mode, and any behaviour of std::sort ties and of the hash set, closed polylines of straight segments that lie entirely on A and B, and the returned polylines (remaining and subtracted together) bound by the even-odd rule exactly the union, intersection, difference or symmetric difference of the insides of A and B: every point that is not on A or B is inside the result if and only if the boolean operation says so. Every polygon that does not meet itself goes once around (C60), so for two such polygons nothing about their direction or inside has to be assumed.", "quantifier": "all pairs of polygons in general position that go once around (any number of vertexes and crossings, the product of the vertex counts at most a million), all four modes, all points of the plane off the two boundaries, all admissible std::sort and hash orders", "why_tests_cant": "Whether each point of the plane is classified correctly for each pair of polygons is a statement over uncountably many points and shapes with any number of crossings; it rests on winding numbers, not on samples.", "anchors": ["include/cavc/polylinecombine.hpp: combinePolylines, collectSlices, stitchOrderedSlicesIntoClosedPolylines", "include/cavc/plinesegment.hpp: intrPlineSegs", "include/cavc/polyline.hpp: getWindingNumber"]}
{"id": "C59", "title": "What a parallel offset consists of", "statement": "Whenever parallelOffset returns, its result is determined by the original polyline, the raw offset polyline (property C38) and the tests of segments as follows. The raw offset polyline is cut at all its self intersects (both segments at each) and, if the polyline is open or marked as self intersecting, at all intersects with the raw offset polyline to the other side and both ends of each overlap with it, and, if it is open, where it crosses the circles of the offset radius around its two ends (not at the start of a segment). Along the polyline, the piece from each cut to the next one (on a closed polyline also from the last to the first, on an open one from the start to the first and from the last to the end) is kept if and only if: within one segment, it is not degenerate, its ends and its midpoint are far enough from the original polyline and it does not meet it; over vertexes, both cuts, all vertexes passed and the midpoint of the last part are far enough, the segments up to the last vertex do not meet the original and (for the closed case) a closed loop is longer than 0.01. The kept pieces are all stitched, each exactly once, nearest segment first (property C40). Without cuts the result is the raw offset polyline if its first vertex is far enough, otherwise it is empty. If fewer than two vertexes are left of the raw offset polyline the result is empty.", "quantifier": "all open and closed polylines of lines and arcs without repeated vertexes, all offsets, both values of the self-intersect flag, all results the function can return, all orders of the hash map and all std::sort ties; raw offset polylines that are in the domain of the intersect functions", "why_tests_cant": "Which of unboundedly many pieces survive depends on every cut, every vertex and every distance test; tests can compare some offsets with stored ones but cannot show that no piece is ever lost, duplicated or kept wrongly.", "anchors": ["include/cavc/polylineoffset.hpp: parallelOffset, slicesFromRawOffset, dualSliceAtIntersectsForOffset, offsetCircleIntersectsWithPline, stitchOffsetSlicesTogether"]}
{"id": "C60", "title": "A polygon that does not meet itself winds exactly once, and its area is the measure of its inside", "statement": "For every closed polyline of straight segments that does not meet itself (no two different segments have a point in common, except the end of one that is the start of the next) there is a direction, counterclockwise or clockwise, such that getWindingNumber is 0 or exactly 1 (counterclockwise) or -1 (clockwise) at every point that is not on the polyline, getArea is positive for counterclockwise and negative for clockwise, the absolute value of getArea is the measure of the set of points inside, and beside every segment the inside is on the left for counterclockwise and on the right for clockwise polylines. Two points that are not on the polyline can be joined by a path of straight segments that does not meet it if and only if both are inside or both are outside, and there are points of both kinds.", "quantifier": "all closed polylines of straight segments that do not meet themselves, with any number of vertexes, all points of the plane that are not on them, all segments and all points of a segment other than its ends", "why_tests_cant": "It is the Jordan curve theorem for polygons together with the sign of the area: it relates every point of the plane to every shape with any number of vertexes, and a polygon with many turns has no finite list of representative points.", "anchors": ["include/cavc/polyline.hpp: getWindingNumber, getArea", "include/cavc/vector2.hpp: perpDot"]}
{"id": "C61", "title": "getArea is the integral of getWindingNumber over the plane", "statement": "For every closed polyline of lines and arcs (arcs of at most a half circle between distinct points), whether or not it meets itself, getWindingNumber returns without failure at every point of the plane, and getArea equals the integral of getWindingNumber over the plane: regions the polyline goes around several times count several times, regions it goes around clockwise count negatively.", "quantifier": "all closed polylines of lines and arcs of at most a half circle, also self-intersecting ones, with any number of vertexes; all points of the plane", "why_tests_cant": "The two functions are written independently (shoelace formula with circular segments, ray crossing rules with in-circle tests) and must agree in total over uncountably many points for every shape; a test can compare them at some points of some shapes only.", "anchors": ["include/cavc/polyline.hpp: getArea, getWindingNumber"]}
{"id": "C62", "title": "The raw offset of a simple polygon contains exactly the true offset curve, plus points that are too close", "statement": "For every closed polyline of straight segments and every offset distance for which the library's tolerances decide nothing (no corner almost flat, no two neighbouring offset vertexes within 1e-5), createRawOffsetPline returns the closed polyline that has, corner after corner, the common point of the two moved segments if they meet, and otherwise their two ends joined by the arc about the corner (if the corner bends away from the offset side) or by a line. If moreover the polygon does not meet itself, every point of the raw offset is at most |offset| away from the polygon, and the points of the raw offset that are not closer than |offset| are exactly the true offset curve: the points on the offset side (inside or outside, by the sign of the offset and of the area) whose distance from the polygon is exactly |offset|. So nothing of the true offset is missing and nothing of the raw offset is on the wrong side or too far away.", "quantifier": "all simple polygons with any number of vertexes in either direction, all nonzero offsets of either sign that are clear of the tolerances, all points of the plane", "why_tests_cant": "Both inclusions range over all points of two curves and over all polygons; a test compares some vertexes for some polygons and cannot see a missing stretch or a point on the wrong side.", "anchors": ["include/cavc/polylineoffset.hpp: createRawOffsetPline, createUntrimmedOffsetSegments, lineToLineJoin, connectUsingArc, addOrReplaceIfSamePos", "include/cavc/polyline.hpp: getArea"]}
{"id": "C63", "title": "Every stretch of the raw offset of a simple polygon is on the exact offset as a whole or not at all", "statement": "For a closed polygon that does not meet itself and an offset at which the library's tolerances do not matter: take any connected set of points of the raw offset polyline none of which the raw offset passes twice. Either all its points are points of the exact offset (on the right side, at distance exactly |offset| from the polygon) or all its points are closer to the polygon than |offset|. So testing one point of a piece between self intersects decides the whole piece. In particular, if the raw offset does not meet itself and no self intersect is found, parallelOffset returns the raw offset and it is exactly the exact offset curve, or it returns nothing and the exact offset is empty (up to the documented 1e-4 slack of the distance test at the first vertex).", "quantifier": "all simple polygons, all offsets whose corners are clear of the tolerances, all connected once-passed stretches of the raw offset, all sort and hash orders", "why_tests_cant": "a topological statement about every connected part of every raw offset curve", "anchors": ["include/cavc/polylineoffset.hpp: createRawOffsetPline, slicesFromRawOffset, pointValidForOffset, parallelOffset"]}
{"id": "C64", "title": "The parallel offset of a simple polygon is the exact offset curve, also when the raw offset has to be cut", "statement": "For a closed polygon that does not meet itself and an offset at which the tolerances of the joins do not matter, whose raw offset is found to meet itself exactly where it does (every such point is cut on every segment there, cuts are apart by more than the tolerances): parallelOffset returns, and every point of the result is a point of the exact offset curve (on the right side, at distance exactly |offset| from the polygon) - or lies on a whole part of the raw offset from a cut to the next one that is too close but passes the distance tests, which have a slack of 1e-4, at all its vertexes. Conversely every point of the exact offset that the raw offset passes once is on the result, except on whole parts from a cut back to the same cut of length at most 1/100.", "quantifier": "all simple polygons and offsets clear of the tolerances, all raw offsets with exact cuts, all sort and hash orders", "why_tests_cant": "equality of two curves, point by point, for every polygon", "anchors": ["include/cavc/polylineoffset.hpp: parallelOffset, slicesFromRawOffset, stitchOffsetSlicesTogether, pointValidForOffset"]}
{"id": "C65", "title": "parallelOffset does not fault", "statement": "parallelOffset returns - no failed assertion, no access outside of a vector or to an empty vector, no endless loop - for closed and open polylines with arcs, with and without the self intersect flag, if bulges are at most 1, no two consecutive vertexes coincide, no arc shrinks to almost a point by the offset, and the raw offset can be indexed, has no arcs with nearly coinciding ends and not millions of self intersects. For open polylines no cut may be within 1e-5 of the first vertex of the raw offset (the first slice would have one vertex, which the stitching does not expect).", "quantifier": "all such polylines, offsets and flags, all sort and hash orders", "why_tests_cant": "absence of faults and termination for every input, over all loops of the slicing and stitching", "anchors": ["include/cavc/polylineoffset.hpp: parallelOffset, createRawOffsetPline, slicesFromRawOffset, dualSliceAtIntersectsForOffset, offsetCircleIntersectsWithPline, intersectsOrigPline, stitchOffsetSlicesTogether", "include/cavc/plinesegment.hpp: splitAtPoint, segMidpoint, arcRadiusAndCenter", "include/cavc/polylineintersects.hpp: allSelfIntersects, findIntersects"]}
{"id": "C66", "title": "The offset of a set of loops does not fault", "statement": "ParallelOffsetIslands::compute returns - no failed assertion, no access outside of a vector or to an empty vector, no endless loop - for any set of valid indexed loops whose parallel offsets exist (C65) and are lines and arcs of at most a half circle, of non-zero area and with together at most 1000 vertexes, if every vertex of the offset loops and every intersect of two of them is exactly at the end of an arc or at least 1e-4 from it in a coordinate; the result is then the one of C55. Without that condition on arcs the only fault is an assertion on a degenerate arc.", "quantifier": "all sets of loops, offsets, sort and hash orders", "why_tests_cant": "absence of faults and termination for every set of loops and every configuration of their offsets: all pairs, cuts, slices and stitched chains", "anchors": ["include/cavc/polylineoffsetislands.hpp: ParallelOffsetIslands::compute, createOffsetLoops, createOffsetLoopsIndex, createSlicePoints, createSlicesFromLoop, pointOnOffsetValid", "include/cavc/polylinecombine.hpp: stitchOrderedSlicesIntoClosedPolylines", "include/cavc/polyline.hpp: createApproxSpatialIndex, getArea"]}
{"id": "C67", "title": "The areas of boolean operations are right and fit together", "statement": "For two polygons in general position that do not meet themselves and every mode of combinePolylines, the absolute values of getArea of the remaining polylines, less those of the subtracted polylines, add up to the measure of the union, intersection, difference or symmetric difference of what is inside the polygons. So the areas of union and intersection add up to those of the two polygons, difference and intersection to that of the first one, and symmetric difference and intersection to that of the union.", "quantifier": "all pairs of polygons in general position that do not meet themselves (product of the vertex counts at most a million), all four modes, all admissible std::sort and hash orders", "why_tests_cant": "the measure of a region and the sum of the areas of an unknown number of result polygons have to agree for every pair of shapes; a test compares numbers for a few shapes", "anchors": ["include/cavc/polylinecombine.hpp: combinePolylines", "include/cavc/polyline.hpp: getArea"]}
{"id": "C68", "title": "Boolean operations return polygons that do not meet themselves, and remaining and subtracted mean what they say", "statement": "For two polygons in general position that do not meet themselves and every mode, combinePolylines returns polygons that do not meet themselves and lie on the two given ones; except for the symmetric difference no two of them have a point in common. A point that is not on the given polygons is in the union, intersection, difference or symmetric difference if and only if it is inside a remaining polygon and not inside any subtracted polygon; it is never inside two remaining or two subtracted ones, and if it is inside a subtracted one it is inside a remaining one. If the given polygons cross, the remaining polygons go around in the direction of the first one and the subtracted ones in the other direction; for the symmetric difference the ones that are part of the first polygon go around like it and the others in the other direction.", "quantifier": "all pairs of polygons in general position that do not meet themselves (any number of vertexes and crossings, the product of the vertex counts at most a million), all four modes, all points of the plane off the two boundaries, all admissible std::sort and hash orders", "why_tests_cant": "which of the stitched loops are outlines and which are holes depends on the global shape; that this is right for every pair of shapes and every point is a topological statement that no finite set of inputs settles", "anchors": ["include/cavc/polylinecombine.hpp: combinePolylines, collectSlices, stitchOrderedSlicesIntoClosedPolylines", "include/cavc/polyline.hpp: getArea, getWindingNumber"]}
{"id": "C69", "title": "The spatial index arranges its items along the Hilbert curve", "statement": "The value StaticSpatialIndex computes from two 16 bit grid coordinates is the position of that cell along the Hilbert curve of the 65536 x 65536 grid: every 32 bit value belongs to exactly one cell, cells with consecutive values are neighbours, two cells lie in the same aligned square of side 2^k exactly if their values agree up to the last 2k bits, and the curve runs from the lower left to the lower right cell. An index built from boxes with extents of positive size visits its item boxes in runs of node size such that no box of an earlier run comes later along the curve through the centre cells than a box of a later run.", "quantifier": "all 2^32 pairs of 16 bit coordinates and all levels of the grid; all lists of 1 to 2^24 boxes, all node sizes from 2 to 2^24", "why_tests_cant": "the bit tricks act on all 2^32 coordinate pairs; a wrong shift or mask only degrades the curve for some cells and never makes a query fail, so tests of query results cannot see it", "anchors": ["include/cavc/staticspatialindex.hpp: StaticSpatialIndex::hilbertXYToIndex", "include/cavc/staticspatialindex.hpp: StaticSpatialIndex::finish, sort, visitItemBoxes"]}
{"id": "C70", "title": "The winding number of a closed polyline with arcs is a property of the region", "statement": "getWindingNumber of a closed polyline with lines and arcs gives the same value for all points of a connected set that does not meet the polyline; it is 0 for every point that some line separates from the polyline (in particular outside its extents) and on every unbounded connected set off it; and where a line or an arc crosses a segment of the polyline at an inner point that is on no other segment, with a different direction, it changes by exactly one: up when crossing from right to left, down from left to right.", "quantifier": "all closed polylines of valid line and arc segments (any number, self intersecting or not), all connected sets off them, all crossing paths", "why_tests_cant": "the points of a connected set and the ways to cross are infinitely many; the code decides by comparisons of coordinates and distances, which a test samples only at some points", "anchors": ["include/cavc/polyline.hpp: getWindingNumber"]}
{"id": "C71", "title": "Boolean operations on closed polylines with arcs bound exactly the right region", "statement": "For closed polylines A and B of lines and arcs (each arc at most a half circle) that cross clearly (no vertex of one is on the other; segments that come close cross at clear angles, not nearly tangent, parallel or on the same circle; crossings and vertexes are not close to each other), each of which goes once around what is inside it in either direction, combinePolylines returns for every mode, and any behaviour of std::sort ties and of the hash set, closed valid polylines all of whose points are on A or on B, and the returned polylines (remaining and subtracted together) bound by the even-odd rule exactly the union, intersection, difference or symmetric difference of the insides of A and B: every point that is not on A or B is inside the result if and only if the boolean operation says so.", "quantifier": "all pairs of closed polylines of lines and arcs that cross clearly and go once around (any number of vertexes and crossings, the product of the vertex counts at most a million), all four modes, all points of the plane off the two boundaries, all admissible std::sort and hash orders", "why_tests_cant": "Whether each point of the plane is classified correctly for each pair of curves is a statement over uncountably many points and shapes with any number of crossings; arcs add cutting, reversing and joining of bulges, whose errors are visible only in the region between arc and chord.", "anchors": ["include/cavc/polylinecombine.hpp: combinePolylines, collectSlices, stitchOrderedSlicesIntoClosedPolylines", "include/cavc/plinesegment.hpp: intrPlineSegs, splitAtPoint", "include/cavc/polylineintersects.hpp: findIntersects", "include/cavc/polyline.hpp: getWindingNumber"]}
{"id": "C72", "title": "Closed polylines with arcs that do not meet themselves: winding number, direction, area, and the Jordan curve theorem", "statement": "For every closed polyline of lines and arcs (each arc at most a half circle, no segment shorter than the tolerance 1e-8) that does not meet itself there is a direction, counterclockwise or clockwise, such that getArea is positive or negative accordingly and its absolute value is the measure of what is inside; getWindingNumber is 1 (-1 when clockwise) or 0 at every point that is not on the polyline; and beside every segment the inside is on the left of a counterclockwise polyline and on the right of a clockwise one, where left of an arc means inside of its circle when the arc goes counterclockwise. Two points that are not on the polyline can be joined by a path that does not meet it if and only if getWindingNumber calls both inside or both outside; there are points on both sides.", "quantifier": "all closed polylines of lines and arcs that do not meet themselves, with any number of vertexes, and all points (and pairs of points) of the plane off them", "why_tests_cant": "It is a statement about all points of the plane and all shapes: that the sign of one number (the area) tells on which side of each of the segments the inside is, and that the winding number cannot take any other value, is the Jordan curve theorem for these curves.", "anchors": ["include/cavc/polyline.hpp: getWindingNumber", "include/cavc/polyline.hpp: getArea"]}
{"id": "C73", "title": "Boolean operations on closed polylines with arcs: simple results, nothing counted twice, directions, and areas", "statement": "For all closed polylines A and B of lines and arcs (each at most a half circle) that do not meet themselves and cross each other clearly, every mode, and every behaviour of std::sort and of the hash table, combinePolylines returns without fault closed polylines none of which meets itself, whose points are all on A or on B. A point that is not on A or B is in the union, intersection, difference or symmetric difference of what is inside A and what is inside B if and only if it is inside of a remaining polyline and not inside of any subtracted one; no point is inside of two remaining polylines or of two subtracted ones, and subtracted ones are within remaining ones. Except for the symmetric difference no two of the polylines have a common point. If A and B cross, remaining polylines go around like A and subtracted ones the other way. The areas getArea gives for the remaining polylines less those of the subtracted ones, without signs, are the measure of the union, intersection, difference or symmetric difference; in particular union and intersection have together the area of A and B.", "quantifier": "all pairs of closed polylines of lines and arcs that do not meet themselves and cross clearly, with any number of vertexes and crossings, all four modes, all points of the plane off A and B, all std::sort and unordered_map behaviours", "why_tests_cant": "Results for sample shapes cannot show that no result loop ever touches itself or overlaps another, or that the areas are right, for all shapes and all numbers of crossings.", "anchors": ["include/cavc/polylinecombine.hpp: combinePolylines", "include/cavc/polylinecombine.hpp: internal::processForCombine", "include/cavc/polylinecombine.hpp: internal::sliceAtIntersects", "include/cavc/polyline.hpp: getArea"]}
{"id": "C74", "title": "The parallel offset of a simple polygon bounds the offset region", "statement": "For a closed polygon that does not meet itself and a nonzero offset at which the tolerances do not matter (joins clear, self intersects of the raw offset found exactly and apart, no piece that is too close by less than 1e-4, no loop of length at most 1/100), parallelOffset returns closed polylines that are the boundary of the offset region: for an inward offset the points inside of the polygon that are more than |offset| away from it, for an outward offset the points inside together with all points at most |offset| away. At every point off the result, the winding numbers of the result polylines sum to one in the direction of the polygon (+1 counter clockwise, -1 clockwise) if the point is in the region, and to zero otherwise. Consequently the areas getArea gives for the result polylines add up to the measure of the region, with the sign of the polygon's area. The same if the raw offset does not meet itself. Each single polyline goes once around what it encloses: after an inward offset all of them go in the direction of the polygon and no point is inside of two of them; after an outward offset exactly one goes in the direction of the polygon, with the polygon inside, and the others go in the other direction around separate holes inside of it.", "quantifier": "all simple polygons with any number of vertexes, both directions, inward and outward offsets of at least 1e-4 clear of the tolerances, any number of self intersects of the raw offset, all points of the plane off the result, all std::sort and hash table orders", "why_tests_cant": "That a point is inside of the result exactly if it is inside of the eroded or dilated polygon is a statement about all points and all polygons; sample areas cannot show it.", "anchors": ["include/cavc/polylineoffset.hpp: parallelOffset", "include/cavc/polylineoffset.hpp: internal::createRawOffsetPline", "include/cavc/polylineoffset.hpp: internal::slicesFromRawOffset", "include/cavc/polylineoffset.hpp: internal::stitchOffsetSlicesTogether", "include/cavc/polyline.hpp: getWindingNumber, getArea"]}
{"id": "C75", "title": "The offset of loops with islands bounds the region that is left", "statement": "For input loops that are polygons, do not meet themselves or each other and outline a region (all together they wind once or not at all around every point; outer loops counter clockwise, holes clockwise, nested as deep as you like), with the counter clockwise ones given as such, and an offset of at least 1e-4 at which the tolerances do not matter, the loops ParallelOffsetIslands returns, together with closed polylines of an area below 1e-4 that it leaves out, are the boundary of the region that is left when all points at most |offset| away from any input loop are taken away: at every point off them their winding numbers sum to one if the point is in what is left, and to zero otherwise.", "quantifier": "all finite sets of simple polygons that outline a region, any nesting, any number of loops and vertexes, all offsets at least 1e-4 at which the stated tolerances do not matter, all points of the plane off the result, all std::sort and hash table orders", "why_tests_cant": "Which points are left after offsetting is a statement about every point of the plane and every arrangement of loops whose offsets may cross each other; tests compare areas and lengths of a few results.", "anchors": ["include/cavc/polylineoffsetislands.hpp: ParallelOffsetIslands::compute", "include/cavc/polylineoffsetislands.hpp: createOffsetLoops, createOffsetLoopsIndex, createSlicePoints, createSlicesFromLoop", "include/cavc/polylinecombine.hpp: stitchOrderedSlicesIntoClosedPolylines", "include/cavc/polylineoffset.hpp: parallelOffset"]}
{"id": "C76", "title": "The offset of a polygon that may meet itself has the points at the offset distance", "statement": "For a closed polyline of lines that may cross itself, offset with hasSelfIntersects set, at an offset of at least 1e-4 at which the tolerances do not matter: the points at distance |offset| from it are exactly the points of its two raw offsets (to the left and to the right) that are not closer to it; of each stretch of a raw offset between the points where it meets itself or the other one, all points are at that distance or all are closer; so every point of the result is at that distance, except for parts that are too close by at most 1e-4 at their vertexes, and every point of the raw offset that is at that distance is on the result, except where it is cut. The results of the offset to both sides together have all points at that distance.", "quantifier": "all closed polylines of lines, self crossing or not, of any number of vertexes, all offsets at least 1e-4 at which the stated tolerances do not matter, all points of the plane, all std::sort and hash table orders", "why_tests_cant": "Which points are at a distance from a self crossing polygon, and that no part of them is lost, is a statement about every point and every arrangement of the crossings; tests compare a few areas and lengths and none has self crossing input polygons of arbitrary shape.", "anchors": ["include/cavc/polylineoffset.hpp: parallelOffset (hasSelfIntersects)", "include/cavc/polylineoffset.hpp: dualSliceAtIntersectsForOffset", "include/cavc/polylineoffset.hpp: createRawOffsetPline", "include/cavc/polylineoffset.hpp: stitchOffsetSlicesTogether"]}
{"id": "C77", "title": "Offsets are nested and do not depend on how the polygon is written down", "statement": "For a closed polyline of lines that does not meet itself and offsets of at least 1e-4 at which the tolerances do not matter: offsetting further to the inside gives curves whose inside is contained in that of the nearer offset, which is inside of the polygon; offsetting further to the outside gives curves around everything the nearer offset goes around, which goes around the polygon. The sums of the areas are ordered accordingly and have the sign of the area of the polygon. And two polygons that have the same points - starting at another vertex, going in the other direction (with the offset negated), with additional vertexes on the edges - have offsets that go around the same points, as often, with areas that are equal up to the sign of the direction.", "quantifier": "all simple closed polylines of lines of any number of vertexes, all pairs of offsets to the same side, all pairs of polygons with the same points, all points of the plane off the results, all std::sort and hash table orders", "why_tests_cant": "Monotonicity in the offset and independence of the representation are statements about all pairs of inputs and every point of the plane; the tests run each input with a few rotations and compare sums of areas and lengths.", "anchors": ["include/cavc/polylineoffset.hpp: parallelOffset", "include/cavc/polyline.hpp: getArea", "include/cavc/polyline.hpp: getWindingNumber"]}
{"id": "C78", "title": "Combining a curve with the same curve", "statement": "combinePolylines of a closed curve with the same curve - itself, started at another vertex, or going in the other direction - returns the first polyline unchanged as the only result for union and intersection, and nothing at all for exclude and symmetric difference; it does not fail. Nothing is lost or doubled although every segment overlaps.", "quantifier": "all closed polylines of lines and arcs that do not meet themselves and have no two segments reported to overlap, all starting vertexes, both directions (for polygons of lines any order of the same segments), all modes, all std::sort and hash table orders", "why_tests_cant": "Whether all overlaps of a curve with itself are recognised and sorted into one coincident run depends on every segment pair and their order; the tests have a few coincident examples.", "anchors": ["include/cavc/polylinecombine.hpp: combinePolylines", "include/cavc/polylineintersects.hpp: findIntersects, sortAndjoinCoincidentSlices", "include/cavc/polylinecombine.hpp: processForCombine"]}
{"id": "C79", "title": "Combine results satisfy the laws of sets and do not depend on the representation", "statement": "The region (points inside a remaining loop and not in a subtracted one) and the area of a result of combinePolylines depend only on the points of the two polylines: not on the vertex they start at, their directions or additional vertexes. Union, intersection and symmetric difference give the same region and area when the two polylines are swapped. A minus B, A intersected with B and B minus A have no point in common and together are the union, and the areas add up; A minus B and B minus A are the symmetric difference.", "quantifier": "all pairs of closed polylines of lines and arcs that do not meet themselves and cross clearly, all pairs of representations of them, all points of the plane off the two polylines, all std::sort and hash table orders", "why_tests_cant": "The laws relate different calls over all pairs of inputs and every point; the tests compare single calls with recorded lengths and areas.", "anchors": ["include/cavc/polylinecombine.hpp: combinePolylines", "include/cavc/polyline.hpp: getArea", "include/cavc/polyline.hpp: getWindingNumber"]}
{"id": "C80", "title": "The parallel offset of a smooth closed curve is the parallel curve", "statement": "If every point of a closed polyline without corners is moved by the offset along the left normal there and the result is a closed curve that does not meet itself, parallelOffset returns exactly that curve - same number of segments, same bulges, same starting segment - as the only result, provided it keeps its distance from the original; nothing at all if its first vertex is clearly closer than the offset. In particular the offset of a circle is the concentric circle (whatever its direction and start), and offsets of a circle add up; the offset of a rectangle with rounded corners is that rectangle with the corner radii changed by the offset (at most the radius when shrinking). It does not depend on how the curve is written down: started at another vertex, or inverted with the offset negated, the result is the parallel curve started at the corresponding vertex, or inverted, if that vertex keeps its distance.", "quantifier": "all closed polylines of lines and arcs without corners and all offsets (at least 1e-4 in absolute value) for which no arc collapses and the parallel curve has no tiny segments and does not come close to itself; all circles of two half arcs, all std::sort and hash table orders", "why_tests_cant": "Whether the joins of all pairs of tangent segments (line to arc, arc to line, arc to arc, on the same circle) add no vertex, drop none and change no bulge has to hold for every radius and direction; the tests compare offsets of a few curves with recorded lengths and areas.", "anchors": ["include/cavc/polylineoffset.hpp: parallelOffset", "include/cavc/polylineoffset.hpp: createRawOffsetPline", "include/cavc/polylineoffset.hpp: lineToArcJoin, arcToLineJoin, arcToArcJoin", "include/cavc/polylineoffset.hpp: slicesFromRawOffset"]}
{"id": "C81", "title": "Length and area of the offset of a smooth closed curve", "statement": "Where parallelOffset of a closed curve without corners returns the parallel curve, getPathLength of the result is the length of the input less the offset times its total turn, and getArea of the result is the area of the input less the offset times its length plus half the squared offset times the total turn (the total turn is the sum of the angles of the arcs). For a rectangle with rounded corners the length changes by 2 pi times the change of the radius.", "quantifier": "all closed polylines of lines and arcs without corners and all offsets for which no arc collapses and the parallel curve has no tiny segments and does not meet itself", "why_tests_cant": "Three functions (offset, length, area) have to fit together for every radius, sweep and direction of every arc; tests compare single recorded lengths and areas.", "anchors": ["include/cavc/polylineoffset.hpp: parallelOffset", "include/cavc/polyline.hpp: getPathLength, getArea", "include/cavc/plinesegment.hpp: segLength"]}
{"id": "C82", "title": "Offset islands whose offsets do not meet each other", "statement": "If no two of the parallel offsets of the loops meet, ParallelOffsetIslands::compute does not fault and returns exactly the offsets whose first vertex is far enough from all other loops, each once, unchanged, in order, with the index of its loop (clockwise offsets of counter clockwise loops are dropped). For any number of counter clockwise and clockwise circles, every two with room for the offset on both sides between them (a disc with round holes, rings in rings), the result is every counter clockwise circle made smaller and every clockwise circle made larger by the offset. The same holds for any number of closed curves of lines and arcs without corners (for example rectangles with rounded corners) whose parallel curves keep apart from themselves, from each other and from the other curves.", "quantifier": "all sets of loops of lines and arcs whose parallel offsets have an area and pairwise do not intersect; all numbers, positions, radii, start directions of circles with room between them; all offsets; all orders of hash tables and sorting", "why_tests_cant": "The number of loops and their arrangement (beside, inside, nested) is unbounded; tests compare a few recorded island sets.", "anchors": ["include/cavc/polylineoffsetislands.hpp: ParallelOffsetIslands::compute, createOffsetLoops, createSlicePoints, pointOnOffsetValid", "include/cavc/polylineoffset.hpp: parallelOffset"]}
{"id": "C83", "title": "Circles: what they measure, contain and combine to", "statement": "For a circle given as a closed polyline of two half circles (any center, radius, start direction, orientation): its length is 2 pi r, its area plus or minus pi r^2 by the orientation, the winding number plus or minus 1 exactly for points nearer to the center than the radius and 0 beyond, the closest point to a point x is on the circle at distance |distance(x, center) - r|; combinePolylines of two circles that are clearly apart or nested returns, for each of the four operations, exactly the circles that bound the result, decided by which is inside of the other, and the result stands for the operation on the two discs; combinePolylines of two circles that clearly cross returns simple curves made of points of the two circles that stand for the operation on the two discs and whose signed areas add up to the area of that region.", "quantifier": "all centers, radii from 1e-4 up, start directions, orientations; all query points; all pairs of circles with room between them, and all pairs that cross in two points with these and the vertexes apart from each other by a thousandth of the sizes; all four operations; all orders of hash tables and sorting", "why_tests_cant": "Centers, radii and points are continuous; tests compare a few recorded circles with coordinates on a grid.", "anchors": ["include/cavc/polyline.hpp: getPathLength, getArea, getWindingNumber, ClosestPoint", "include/cavc/polylinecombine.hpp: combinePolylines", "include/cavc/intrcircle2circle2.hpp: intrCircle2Circle2"]}
{"id": "C84", "title": "Offsetting twice, and back", "statement": "For closed polylines of lines and arcs without corners: if q is the curve parallel to p at distance d (no arc of p collapses), then p is the curve parallel to q at distance -d, and parallel curves compose, the distances add up. So when the parallel curves keep apart from themselves and from the original, parallelOffset(p, d) = [q] and parallelOffset(q, -d) = [p], and parallelOffset(parallelOffset(p, a), b) = parallelOffset(p, a + b).", "quantifier": "all closed smooth polylines of at least three segments whose parallel curves keep apart, all offsets (to either side) by which no arc collapses; all rectangles with rounded corners, in both directions; all orders of hash tables and sorting", "why_tests_cant": "Curves and offsets are continuous; tests offset a few recorded curves once.", "anchors": ["include/cavc/polylineoffset.hpp: parallelOffset, createUntrimmedOffsetSegments, slicesFromRawOffset"]}
