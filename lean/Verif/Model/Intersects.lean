import Verif.Model.Polyline
import Verif.Model.Std

/-!
Model of include/cavc/polylineintersects.hpp. The `unordered_set`s are lists that are only asked for
membership. `std::sort` is a parameter.
-/
namespace Cavc
open scoped Classical
noncomputable section

/-- `PlineIntersect` (polylineintersects.hpp:14-25). -/
@[ext] structure PlineIntersect where
  sIndex1 : ℕ
  sIndex2 : ℕ
  pos : V2

/-- `PlineCoincidentIntersect` (polylineintersects.hpp:28-41). -/
@[ext] structure CoincidentIntersect where
  sIndex1 : ℕ
  sIndex2 : ℕ
  point1 : V2
  point2 : V2

/-- `PlineIntersectsResult` (polylineintersects.hpp:44-48). -/
@[ext] structure IntersectsResult where
  intersects : List PlineIntersect
  coincidentIntersects : List CoincidentIntersect

/-- `hasIntersects` (polylineintersects.hpp:47). -/
def IntersectsResult.hasIntersects (r : IntersectsResult) : Prop :=
  r.intersects.length ≠ 0 ∨ r.coincidentIntersects.length ≠ 0

/-- `CoincidentSlicesResult` (polylineintersects.hpp:50-55). -/
@[ext] structure CoincidentSlices where
  coincidentSlices : List Polyline
  sliceStartPoints : List PlineIntersect
  sliceEndPoints : List PlineIntersect
  coincidentIsOpposingDirection : List Bool

/-! ### sortAndjoinCoincidentSlices -/

/-- Body of the loop that orders the two points of an intersect (polylineintersects.hpp:67-75). -/
def orderPoints (pline1 : Polyline) (intr : CoincidentIntersect) : M CoincidentIntersect := do
  let sp ← pline1.at intr.sIndex1
  let dist1 := distSquared sp.pos intr.point1
  let dist2 := distSquared sp.pos intr.point2
  return if dist1 > dist2 then { intr with point1 := intr.point2, point2 := intr.point1 } else intr

/-- The comparison given to `std::sort` (polylineintersects.hpp:78-87). `pline1[sIndex1]` was
accessed for every element by the loop before, so it is in range. -/
def coincidentLess (pline1 : Polyline) (a b : CoincidentIntersect) : Prop :=
  if a.sIndex1 ≠ b.sIndex1 then a.sIndex1 < b.sIndex1
  else
    let sp := (pline1.vertexes.getD a.sIndex1 ⟨⟨0, 0⟩, 0⟩).pos
    distSquared sp a.point1 < distSquared sp b.point1

/-- The two vertexes of segment `i` as the code reads them: `pline[i]`,
`pline[nextWrappingIndex(i, pline)]` (e.g. polylineintersects.hpp:396-402). -/
def segVertexes (p : Polyline) (i : ℕ) : M (Vertex × Vertex) := do
  let v1 ← p.at i
  let v2 ← p.at (nextWrappingIndex i p.size)
  return (v1, v2)

/-- State of the joining loop: the slice being built and the result so far
(polylineintersects.hpp:88-95). -/
structure JoinState where
  curr : Polyline
  result : CoincidentSlices

/-- `startCoincidentSliceAt` (polylineintersects.hpp:96-132), for the intersect at that index. -/
def startCoincidentSlice (pline1 pline2 : Polyline) (intr : CoincidentIntersect) (st : JoinState) :
    M JoinState := do
  let v1 ← pline1.at intr.sIndex1
  let v2 ← pline1.at (nextWrappingIndex intr.sIndex1 pline1.size)
  let u1 ← pline2.at intr.sIndex2
  let u2 ← pline2.at (nextWrappingIndex intr.sIndex2 pline2.size)
  let t1 ← segTangentVector v1 v2 v1.pos
  let t2 ← segTangentVector u1 u2 u1.pos
  let sameDirection := decide (dot t1 t2 > 0)
  let split1 ← splitAtPoint v1 v2 intr.point1
  let split2 ← splitAtPoint v1 v2 intr.point2
  let curr := (st.curr.addVertex split1.splitVertex).addVertex split2.splitVertex
  let sliceStart : PlineIntersect :=
    { pos := split1.splitVertex.pos
      sIndex1 := if fuzzyEqualV v1.pos intr.point1 realPrecision
        then prevWrappingIndex intr.sIndex1 pline1.size else intr.sIndex1
      sIndex2 := if fuzzyEqualV u1.pos split1.splitVertex.pos realPrecision
        then prevWrappingIndex intr.sIndex2 pline2.size else intr.sIndex2 }
  return { curr := curr
           result := { st.result with
             coincidentIsOpposingDirection :=
               st.result.coincidentIsOpposingDirection ++ [!sameDirection]
             sliceStartPoints := st.result.sliceStartPoints ++ [sliceStart] } }

/-- `endCoincidentSliceAt` (polylineintersects.hpp:134-151): the built slice moves to the result and
a default constructed polyline takes its place. -/
def endCoincidentSlice (pline2 : Polyline) (intr : CoincidentIntersect) (st : JoinState) :
    M JoinState := do
  let u1 ← pline2.at intr.sIndex2
  let sliceEnd : PlineIntersect :=
    { pos := intr.point2
      sIndex1 := intr.sIndex1
      sIndex2 := if fuzzyEqualV u1.pos intr.point2 realPrecision
        then prevWrappingIndex intr.sIndex2 pline2.size else intr.sIndex2 }
  return { curr := Polyline.empty
           result := { st.result with
             coincidentSlices := st.result.coincidentSlices ++ [st.curr]
             sliceEndPoints := st.result.sliceEndPoints ++ [sliceEnd] } }

/-- The `for` that joins (polylineintersects.hpp:154-173), over the remaining intersects; `prev` is
`coincidentIntrs[i - 1]`. Returns the last intersect too. -/
def joinLoop (pline1 pline2 : Polyline) : CoincidentIntersect → List CoincidentIntersect → JoinState →
    M (CoincidentIntersect × JoinState)
  | prev, [], st => .ok (prev, st)
  | prev, intr :: rest, st => do
    let v1 ← pline1.at intr.sIndex1
    let v2 ← pline1.at (nextWrappingIndex intr.sIndex1 pline1.size)
    let last ← st.curr.lastVertex
    if fuzzyEqualV intr.point1 last.pos realPrecision then do
      let curr ← st.curr.popBack
      let split1 ← splitAtPoint v1 v2 intr.point1
      let split2 ← splitAtPoint v1 v2 intr.point2
      joinLoop pline1 pline2 intr rest
        { st with curr := (curr.addVertex split1.splitVertex).addVertex split2.splitVertex }
    else do
      let st ← endCoincidentSlice pline2 prev st
      let st ← startCoincidentSlice pline1 pline2 intr st
      joinLoop pline1 pline2 intr rest st

/-- Joining the last slice with the first (polylineintersects.hpp:178-197). -/
def joinLastWithFirst (r : CoincidentSlices) : M CoincidentSlices :=
  match r.coincidentSlices, r.coincidentSlices.getLast? with
  | first :: _, some lastSlice =>
    if r.coincidentSlices.length > 1 then do
      let lastV ← lastSlice.lastVertex
      let firstV ← first.at 0
      if fuzzyEqualV lastV.pos firstV.pos realPrecision then do
        let popped ← lastSlice.popBack
        let joined : Polyline := ⟨popped.isClosed, popped.vertexes ++ first.vertexes⟩
        let end0 ← getM r.sliceEndPoints 0
        return { coincidentSlices := (r.coincidentSlices.dropLast ++ [joined]).tail
                 sliceStartPoints := r.sliceStartPoints.tail
                 sliceEndPoints := (r.sliceEndPoints.dropLast ++ [end0]).tail
                 coincidentIsOpposingDirection := r.coincidentIsOpposingDirection.tail }
      else return r
    else return r
  | _, _ => .ok r

/-- `sortAndjoinCoincidentSlices` (polylineintersects.hpp:57-200). The sorted list is returned too:
the parameter is a non const reference. -/
def sortAndjoinCoincidentSlices (std : StdSort) (coincidentIntrs : List CoincidentIntersect)
    (pline1 pline2 : Polyline) : M (CoincidentSlices × List CoincidentIntersect) :=
  if coincidentIntrs.length = 0 then .ok (⟨[], [], [], []⟩, coincidentIntrs)
  else do
    let intrs ← coincidentIntrs.mapM (orderPoints pline1)
    let intrs := std.sort (coincidentLess pline1) intrs
    match intrs with
    | [] => .error .outOfBounds
    | first :: rest => do
      let st ← startCoincidentSlice pline1 pline2 first ⟨Polyline.empty, ⟨[], [], [], []⟩⟩
      let (last, st) ← joinLoop pline1 pline2 first rest st
      let st ← endCoincidentSlice pline2 last st
      let r ← joinLastWithFirst st.result
      return (r, intrs)

/-! ### localSelfIntersects -/

/-- `output.emplace_back(i, j, p)` unless `p` is fuzzy equal to `v` (polylineintersects.hpp:240-250). -/
def addUnlessAt (i j : ℕ) (v p : V2) (output : List PlineIntersect) : List PlineIntersect :=
  if ¬ fuzzyEqualV p v realPrecision then output ++ [⟨i, j, p⟩] else output

/-- `testAndAddIntersect` (polylineintersects.hpp:223-259). -/
def testAndAddIntersect (pline : Polyline) (i j k : ℕ) (output : List PlineIntersect) :
    M (List PlineIntersect) := do
  let v1 ← pline.at i
  let v2 ← pline.at j
  let v3 ← pline.at k
  if fuzzyEqualV v1.pos v2.pos realPrecision then return output ++ [⟨i, j, v1.pos⟩]
  else do
    let intrResult ← intrPlineSegs v1 v2 v2 v3
    match intrResult with
    | .noIntersect => return output
    | .oneIntersect p => return addUnlessAt i j v2.pos p output
    | .twoIntersects p q => return addUnlessAt i j v2.pos q (addUnlessAt i j v2.pos p output)
    | .segmentOverlap p _ => return output ++ [⟨i, j, p⟩]
    | .arcOverlap p _ => return output ++ [⟨i, j, p⟩]

/-- The `for` of `localSelfIntersects` (polylineintersects.hpp:261-263), `k` iterations left. -/
def localLoop (pline : Polyline) : ℕ → ℕ → List PlineIntersect → M (List PlineIntersect)
  | 0, _, output => .ok output
  | k + 1, i, output => do
    let output ← testAndAddIntersect pline (i - 2) (i - 1) i output
    localLoop pline k (i + 1) output

/-- `localSelfIntersects` (polylineintersects.hpp:205-272). -/
def localSelfIntersects (pline : Polyline) (output : List PlineIntersect) :
    M (List PlineIntersect) :=
  if pline.size < 2 then .ok output
  else if pline.size = 2 then
    if pline.isClosed then do
      let v0 ← pline.at 0
      let v1 ← pline.at 1
      if fuzzyEqual v0.bulge (-v1.bulge) then return output ++ [⟨0, 1, v1.pos⟩] ++ [⟨1, 0, v0.pos⟩]
      else return output
    else .ok output
  else do
    let output ← localLoop pline (pline.size - 2) 2 output
    if pline.isClosed then do
      let output ← testAndAddIntersect pline (pline.size - 2) (pline.size - 1) 0 output
      testAndAddIntersect pline (pline.size - 1) 0 1 output
    else return output

/-! ### globalSelfIntersects -/

/-- `intrAtStartPt` (polylineintersects.hpp:319-321 and 406-408). -/
def intrAtStartPt (v1 u1 : Vertex) (intr : V2) : Prop :=
  fuzzyEqualV v1.pos intr ∨ fuzzyEqualV u1.pos intr

/-- `emplace_back(i, j, p)` unless `p` is at a start point (polylineintersects.hpp:329-348). -/
def addUnlessStart (v1 u1 : Vertex) (i j : ℕ) (p : V2) (output : List PlineIntersect) :
    List PlineIntersect :=
  if ¬ intrAtStartPt v1 u1 p then output ++ [⟨i, j, p⟩] else output

/-- The visited pairs and the output (polylineintersects.hpp:287-293). -/
structure GlobalState where
  visited : List (ℕ × ℕ)
  output : List PlineIntersect

/-- `indexVisitor` of `globalSelfIntersects` (polylineintersects.hpp:301-354). -/
def globalIndexVisitor (pline : Polyline) (i j : ℕ) (v1 v2 : Vertex) (st : GlobalState)
    (hitIndexStart : ℕ) : M (GlobalState × Bool) :=
  let hitIndexEnd := nextWrappingIndex hitIndexStart pline.size
  if i = hitIndexStart ∨ i = hitIndexEnd ∨ j = hitIndexStart ∨ j = hitIndexEnd then .ok (st, true)
  else if (hitIndexStart, i) ∈ st.visited then .ok (st, true)
  else do
    let visited := (i, hitIndexStart) :: st.visited
    let u1 ← pline.at hitIndexStart
    let u2 ← pline.at hitIndexEnd
    let intrResult ← intrPlineSegs v1 v2 u1 u2
    match intrResult with
    | .noIntersect => return (⟨visited, st.output⟩, true)
    | .oneIntersect p => return (⟨visited, addUnlessStart v1 u1 i hitIndexStart p st.output⟩, true)
    | .twoIntersects p q =>
      return (⟨visited, addUnlessStart v1 u1 i hitIndexStart q
        (addUnlessStart v1 u1 i hitIndexStart p st.output)⟩, true)
    | .segmentOverlap p q =>
      return (⟨visited, addUnlessStart v1 u1 i hitIndexStart q
        (addUnlessStart v1 u1 i hitIndexStart p st.output)⟩, true)
    | .arcOverlap p q =>
      return (⟨visited, addUnlessStart v1 u1 i hitIndexStart q
        (addUnlessStart v1 u1 i hitIndexStart p st.output)⟩, true)

/-- `visitor` of `globalSelfIntersects` (polylineintersects.hpp:295-361). -/
def globalVisitor (pline : Polyline) (spatialIndex : SIndex ℝ) (st : GlobalState) (i : ℕ)
    (b : Box ℝ) : M (GlobalState × Bool) := do
  let j := nextWrappingIndex i pline.size
  let v1 ← pline.at i
  let v2 ← pline.at j
  let envelope := (⟨b.minX, b.minY, b.maxX, b.maxY⟩ : AABB).expand realThreshold
  let st ← spatialIndex.visitQueryM envelope.toBox (globalIndexVisitor pline i j v1 v2) st
  return (st, true)

/-- `globalSelfIntersects` (polylineintersects.hpp:281-364). -/
def globalSelfIntersects (pline : Polyline) (output : List PlineIntersect)
    (spatialIndex : SIndex ℝ) : M (List PlineIntersect) :=
  if pline.size < 3 then .ok output
  else do
    let st ← spatialIndex.visitItemBoxesM (globalVisitor pline spatialIndex) ⟨[], output⟩
    return st.output

/-- `allSelfIntersects` (polylineintersects.hpp:368-373). -/
def allSelfIntersects (pline : Polyline) (output : List PlineIntersect)
    (spatialIndex : SIndex ℝ) : M (List PlineIntersect) := do
  let output ← localSelfIntersects pline output
  globalSelfIntersects pline output spatialIndex

/-! ### findIntersects -/

/-- The output and `possibleDuplicates` (polylineintersects.hpp:380-384). -/
structure FindState where
  intrs : List PlineIntersect
  coincidentIntrs : List CoincidentIntersect
  possibleDuplicates : List (ℕ × ℕ)

/-- The overlap case (polylineintersects.hpp:430-438). -/
def addCoincident (pline1 pline2 : Polyline) (i1 i2 : ℕ) (p1v1 p2v1 : Vertex) (p q : V2)
    (st : FindState) : FindState :=
  let dups := st.possibleDuplicates
  let dups := if fuzzyEqualV p1v1.pos p ∨ fuzzyEqualV p1v1.pos q
    then (prevWrappingIndex i1 pline1.size, i2) :: dups else dups
  let dups := if fuzzyEqualV p2v1.pos p ∨ fuzzyEqualV p2v1.pos q
    then (i1, prevWrappingIndex i2 pline2.size) :: dups else dups
  { st with coincidentIntrs := st.coincidentIntrs ++ [⟨i1, i2, p, q⟩], possibleDuplicates := dups }

/-- Body of the `for` over the query results (polylineintersects.hpp:401-441). -/
def findStep (pline1 pline2 : Polyline) (p2v1 p2v2 : Vertex) (i2 : ℕ) (st : FindState) (i1 : ℕ) :
    M FindState := do
  let j1 := nextWrappingIndex i1 pline1.size
  let p1v1 ← pline1.at i1
  let p1v2 ← pline1.at j1
  let intrResult ← intrPlineSegs p1v1 p1v2 p2v1 p2v2
  match intrResult with
  | .noIntersect => return st
  | .oneIntersect p => return { st with intrs := addUnlessStart p1v1 p2v1 i1 i2 p st.intrs }
  | .twoIntersects p q =>
    let intrs := addUnlessStart p1v1 p2v1 i1 i2 p st.intrs
    return { st with intrs := addUnlessStart p1v1 p2v1 i1 i2 q intrs }
  | .segmentOverlap p q => return addCoincident pline1 pline2 i1 i2 p1v1 p2v1 p q st
  | .arcOverlap p q => return addCoincident pline1 pline2 i1 i2 p1v1 p2v1 p q st

/-- `pline2SegVisitor` (polylineintersects.hpp:389-445). -/
def findSegVisitor (pline1 pline2 : Polyline) (index1 : SIndex ℝ) (st : FindState)
    (p2v1 p2v2 : Vertex) (i2 : ℕ) : M FindState := do
  let bb := createFastApproxBoundingBox p2v1 p2v2
  let fuzz := realPrecision
  let queryResults ← index1.query
    ⟨bb.xMin - fuzz, bb.yMin - fuzz, bb.xMax + fuzz, bb.yMax + fuzz⟩
  queryResults.foldlM (findStep pline1 pline2 p2v1 p2v2 i2) st

/-- The predicate given to `std::remove_if` (polylineintersects.hpp:451-466). -/
def isDuplicate (pline1 pline2 : Polyline) (possibleDuplicates : List (ℕ × ℕ))
    (intr : PlineIntersect) : M Bool :=
  if (intr.sIndex1, intr.sIndex2) ∉ possibleDuplicates then .ok false
  else do
    let endPt1 ← pline1.at (nextWrappingIndex intr.sIndex1 pline1.size)
    if fuzzyEqualV intr.pos endPt1.pos then return true
    else do
      let endPt2 ← pline2.at (nextWrappingIndex intr.sIndex2 pline2.size)
      return decide (fuzzyEqualV intr.pos endPt2.pos)

/-- `erase(remove_if(...), end())` (polylineintersects.hpp:450-466, polylinecombine.hpp:359-361): the
elements that do not satisfy the predicate, in order. -/
def removeIfM {α : Type} (pred : α → M Bool) : List α → M (List α)
  | [] => .ok []
  | a :: l => do
    let b ← pred a
    let rest ← removeIfM pred l
    return if b then rest else a :: rest

/-- `findIntersects` (polylineintersects.hpp:376-468). -/
def findIntersects (pline1 pline2 : Polyline) (pline1SpatialIndex : SIndex ℝ)
    (output : IntersectsResult) : M IntersectsResult := do
  let st ← pline2.visitSegIndices (allSegs pline2 (findSegVisitor pline1 pline2 pline1SpatialIndex))
    ⟨output.intersects, output.coincidentIntersects, []⟩
  let intrs ← removeIfM (isDuplicate pline1 pline2 st.possibleDuplicates) st.intrs
  return ⟨intrs, st.coincidentIntrs⟩

end
end Cavc
