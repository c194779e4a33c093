import Verif.Model.Intersects

/-!
Model of include/cavc/polylineoffset.hpp. A function that mutates a `Polyline &result` takes it and
returns the new one. `queryStack` arguments only reuse memory and are left out.
-/
namespace Cavc
open scoped Classical
noncomputable section

/-- `PlineOffsetSegment` (polylineoffset.hpp:14-19). -/
structure OffsetSegment where
  v1 : Vertex
  v2 : Vertex
  origV2Pos : V2
  collapsedArc : Bool

/-- `lineVisitor` of `createUntrimmedOffsetSegments` (polylineoffset.hpp:30-41). -/
def offsetLineSeg (offset : ℝ) (v1 v2 : Vertex) : M OffsetSegment := do
  let edge := v2.pos - v1.pos
  let n ← unitPerp edge
  let offsetV := offset • n
  return { v1 := ⟨v1.pos + offsetV, v1.bulge⟩
           v2 := ⟨v2.pos + offsetV, v2.bulge⟩
           origV2Pos := v2.pos
           collapsedArc := false }

/-- `arcVisitor` of `createUntrimmedOffsetSegments` (polylineoffset.hpp:43-68). -/
def offsetArcSeg (offset : ℝ) (v1 v2 : Vertex) : M OffsetSegment := do
  let arc ← arcRadiusAndCenter v1 v2
  let offs := if v1.bulgeIsNeg then offset else -offset
  let radiusAfterOffset := arc.radius + offs
  let v1ToCenter ← normalizeV (v1.pos - arc.center)
  let v2ToCenter ← normalizeV (v2.pos - arc.center)
  let p1 := offs • v1ToCenter + v1.pos
  let p2 := offs • v2ToCenter + v2.pos
  if radiusAfterOffset < realThreshold then
    return { v1 := ⟨p1, 0⟩, v2 := ⟨p2, v2.bulge⟩, origV2Pos := v2.pos, collapsedArc := true }
  else
    return { v1 := ⟨p1, v1.bulge⟩, v2 := ⟨p2, v2.bulge⟩, origV2Pos := v2.pos
             collapsedArc := false }

/-- `offsetVisitor` (polylineoffset.hpp:70-76), the segment it appends. -/
def offsetSeg (offset : ℝ) (v1 v2 : Vertex) : M OffsetSegment :=
  if v1.bulgeIsZero then offsetLineSeg offset v1 v2 else offsetArcSeg offset v1 v2

/-- The `for` of `createUntrimmedOffsetSegments` (polylineoffset.hpp:78-80), `k` iterations left. -/
def offsetSegsLoop (pline : Polyline) (offset : ℝ) :
    ℕ → ℕ → List OffsetSegment → M (List OffsetSegment)
  | 0, _, result => .ok result
  | k + 1, i, result => do
    let v1 ← pline.at (i - 1)
    let v2 ← pline.at i
    let s ← offsetSeg offset v1 v2
    offsetSegsLoop pline offset k (i + 1) (result ++ [s])

/-- `createUntrimmedOffsetSegments` (polylineoffset.hpp:22-87). For an open polyline without
vertexes `pline.size() - 1` wraps around and `reserve` throws. -/
def createUntrimmedOffsetSegments (pline : Polyline) (offset : ℝ) : M (List OffsetSegment) :=
  if ¬ pline.isClosed ∧ pline.size = 0 then .error .thrown
  else do
    let result ← offsetSegsLoop pline offset (pline.size - 1) 1 []
    if pline.isClosed then do
      let last ← pline.lastVertex
      let first ← pline.at 0
      let s ← offsetSeg offset last first
      return result ++ [s]
    else return result

/-- `falseIntersect` (polylineoffset.hpp:89). -/
def falseIntersect (t : ℝ) : Prop := t < 0 ∨ t > 1

/-- `bulgeForConnection` (polylineoffset.hpp:93-105). -/
def bulgeForConnection (arcCenter sp ep : V2) (isCCW : Prop) : ℝ :=
  let a1 := angle arcCenter sp
  let a2 := angle arcCenter ep
  let absSweepAngle := |deltaAngle a1 a2|
  let absBulge := Real.tan (absSweepAngle / 4)
  if isCCW then absBulge else -absBulge

/-- `connectUsingArc` of the join functions (polylineoffset.hpp:116-123, 167-174, 238-245, 311-318);
`endVertex` is `PlineVertex(u1.pos(), 0)` in `lineToLineJoin` and `u1` in the others. -/
def connectUsingArc (s1 : OffsetSegment) (endVertex : Vertex) (ccw : Prop) (result : Polyline) :
    Polyline :=
  let bulge := bulgeForConnection s1.origV2Pos s1.v2.pos endVertex.pos ccw
  addOrReplaceIfSamePos (addOrReplaceIfSamePos result ⟨s1.v2.pos, bulge⟩) endVertex

/-- Join with a straight line: the two `addOrReplaceIfSamePos` of polylineoffset.hpp:134-135,
148-149 and 201-202. -/
def connectUsingLine (s1 s2 : OffsetSegment) (result : Polyline) : Polyline :=
  addOrReplaceIfSamePos (addOrReplaceIfSamePos result ⟨s1.v2.pos, 0⟩) s2.v1

/-- `lineToLineJoin` (polylineoffset.hpp:107-154). -/
def lineToLineJoin (s1 s2 : OffsetSegment) (ccw : Prop) (result : Polyline) : M Polyline := do
  assertP (s1.v1.bulgeIsZero ∧ s2.v1.bulgeIsZero)
  if s1.collapsedArc ∨ s2.collapsedArc then
    return connectUsingArc s1 ⟨s2.v1.pos, 0⟩ ccw result
  else
    match intrLineSeg2LineSeg2 s1.v1.pos s1.v2.pos s2.v1.pos s2.v2.pos with
    | .none => return connectUsingLine s1 s2 result
    | .trueIntr point => return addOrReplaceIfSamePos result ⟨point, 0⟩
    | .coincident _ _ => return addOrReplaceIfSamePos result ⟨s1.v2.pos, 0⟩
    | .falseIntr t0 t1 _ =>
      if t0 > 1 ∧ falseIntersect t1 then return connectUsingArc s1 ⟨s2.v1.pos, 0⟩ ccw result
      else return connectUsingLine s1 s2 result

/-- The vertex where the second segment, an arc, starts after trimming at `intersect`
(polylineoffset.hpp:184-193 and 343-353). -/
def trimmedArcStart (arc : Arc) (u1 u2 : Vertex) (intersect : V2) : Vertex :=
  let a := angle arc.center intersect
  let arcEndAngle := angle arc.center u2.pos
  let theta := deltaAngle a arcEndAngle
  if theta > 0 ↔ u1.bulgeIsPos then ⟨intersect, Real.tan (theta / 4)⟩ else ⟨intersect, u1.bulge⟩

/-- `processIntersect` of `lineToArcJoin` (polylineoffset.hpp:178-204). -/
def lineToArcProcess (s1 s2 : OffsetSegment) (ccw : Prop) (arc : Arc) (result : Polyline) (t : ℝ)
    (intersect : V2) : M Polyline := do
  let u1 := s2.v1
  let u2 := s2.v2
  let trueArcIntersect ← pointWithinArcSweepAngle arc.center u1.pos u2.pos u1.bulge intersect
  if ¬ falseIntersect t ∧ trueArcIntersect = true then
    return addOrReplaceIfSamePos result (trimmedArcStart arc u1 u2 intersect)
  else if t > 1 ∧ ¬ trueArcIntersect = true then return connectUsingArc s1 u1 ccw result
  else if s1.collapsedArc then return connectUsingArc s1 u1 ccw result
  else return connectUsingLine s1 s2 result

/-- `lineToArcJoin` (polylineoffset.hpp:156-225). -/
def lineToArcJoin (s1 s2 : OffsetSegment) (ccw : Prop) (result : Polyline) : M Polyline := do
  let v1 := s1.v1
  let v2 := s1.v2
  assertP (v1.bulgeIsZero ∧ ¬ s2.v1.bulgeIsZero)
  let arc ← arcRadiusAndCenter s2.v1 s2.v2
  let intrResult ← intrLineSeg2Circle2 v1.pos v2.pos arc.radius arc.center
  match intrResult with
  | .none => return connectUsingArc s1 s2.v1 ccw result
  | .one t0 => lineToArcProcess s1 s2 ccw arc result t0 (pointFromParametric v1.pos v2.pos t0)
  | .two t0 t1 =>
    let i1 := pointFromParametric v1.pos v2.pos t0
    let dist1 := distSquared i1 s1.origV2Pos
    let i2 := pointFromParametric v1.pos v2.pos t1
    let dist2 := distSquared i2 s1.origV2Pos
    if dist1 < dist2 then lineToArcProcess s1 s2 ccw arc result t0 i1
    else lineToArcProcess s1 s2 ccw arc result t1 i2

/-- Modification of the previous bulge when an arc is trimmed at its end
(polylineoffset.hpp:254-268 and 327-340). -/
def trimPrevArc (arc : Arc) (v2 : Vertex) (intersect : V2) (result : Polyline) : M Polyline := do
  let prevVertex ← result.lastVertex
  if ¬ prevVertex.bulgeIsZero ∧ ¬ fuzzyEqualV prevVertex.pos v2.pos then do
    let a := angle arc.center intersect
    let prevArc ← arcRadiusAndCenter prevVertex v2
    let prevArcStartAngle := angle prevArc.center prevVertex.pos
    let updatedPrevTheta := deltaAngle prevArcStartAngle a
    if updatedPrevTheta > 0 ↔ prevVertex.bulgeIsPos then
      result.setLast ⟨prevVertex.pos, Real.tan (updatedPrevTheta / 4)⟩
    else return result
  else return result

/-- `processIntersect` of `arcToLineJoin` (polylineoffset.hpp:249-275). -/
def arcToLineProcess (s1 s2 : OffsetSegment) (ccw : Prop) (arc : Arc) (result : Polyline) (t : ℝ)
    (intersect : V2) : M Polyline := do
  let v1 := s1.v1
  let v2 := s1.v2
  let trueArcIntersect ← pointWithinArcSweepAngle arc.center v1.pos v2.pos v1.bulge intersect
  if ¬ falseIntersect t ∧ trueArcIntersect = true then do
    let result ← trimPrevArc arc v2 intersect result
    return addOrReplaceIfSamePos result ⟨intersect, 0⟩
  else return connectUsingArc s1 s2.v1 ccw result

/-- `arcToLineJoin` (polylineoffset.hpp:227-296). -/
def arcToLineJoin (s1 s2 : OffsetSegment) (ccw : Prop) (result : Polyline) : M Polyline := do
  let u1 := s2.v1
  let u2 := s2.v2
  assertP (¬ s1.v1.bulgeIsZero ∧ u1.bulgeIsZero)
  let arc ← arcRadiusAndCenter s1.v1 s1.v2
  let intrResult ← intrLineSeg2Circle2 u1.pos u2.pos arc.radius arc.center
  match intrResult with
  | .none => return connectUsingArc s1 u1 ccw result
  | .one t0 => arcToLineProcess s1 s2 ccw arc result t0 (pointFromParametric u1.pos u2.pos t0)
  | .two t0 t1 =>
    let origPoint := if s2.collapsedArc then u1.pos else s1.origV2Pos
    let i1 := pointFromParametric u1.pos u2.pos t0
    let dist1 := distSquared i1 origPoint
    let i2 := pointFromParametric u1.pos u2.pos t1
    let dist2 := distSquared i2 origPoint
    if dist1 < dist2 then arcToLineProcess s1 s2 ccw arc result t0 i1
    else arcToLineProcess s1 s2 ccw arc result t1 i2

/-- `processIntersect` of `arcToArcJoin` (polylineoffset.hpp:320-358). -/
def arcToArcProcess (s1 s2 : OffsetSegment) (ccw : Prop) (arc1 arc2 : Arc) (result : Polyline)
    (intersect : V2) : M Polyline := do
  let v1 := s1.v1
  let v2 := s1.v2
  let u1 := s2.v1
  let u2 := s2.v2
  let trueArcIntersect1 ← pointWithinArcSweepAngle arc1.center v1.pos v2.pos v1.bulge intersect
  let trueArcIntersect2 ← pointWithinArcSweepAngle arc2.center u1.pos u2.pos u1.bulge intersect
  if trueArcIntersect1 = true ∧ trueArcIntersect2 = true then do
    let result ← trimPrevArc arc1 v2 intersect result
    return addOrReplaceIfSamePos result (trimmedArcStart arc2 u1 u2 intersect)
  else return connectUsingArc s1 u1 ccw result

/-- `arcToArcJoin` (polylineoffset.hpp:298-382). -/
def arcToArcJoin (s1 s2 : OffsetSegment) (ccw : Prop) (result : Polyline) : M Polyline := do
  assertP (¬ s1.v1.bulgeIsZero ∧ ¬ s2.v1.bulgeIsZero)
  let arc1 ← arcRadiusAndCenter s1.v1 s1.v2
  let arc2 ← arcRadiusAndCenter s2.v1 s2.v2
  match intrCircle2Circle2 arc1.radius arc1.center arc2.radius arc2.center with
  | .noIntersect => return connectUsingArc s1 s2.v1 ccw result
  | .one p => arcToArcProcess s1 s2 ccw arc1 arc2 result p
  | .two p q =>
    let dist1 := distSquared p s1.origV2Pos
    let dist2 := distSquared q s1.origV2Pos
    if dist1 < dist2 then arcToArcProcess s1 s2 ccw arc1 arc2 result p
    else arcToArcProcess s1 s2 ccw arc1 arc2 result q
  | .coincident => return addOrReplaceIfSamePos result s2.v1

/-! ### offsetCircleIntersectsWithPline, pointValidForOffset -/

/-- `validLineSegIntersect` (polylineoffset.hpp:398-400). -/
def validLineSegIntersect (t : ℝ) : Prop := ¬ falseIntersect t ∧ |t| > realPrecision

/-- `validArcSegIntersect` (polylineoffset.hpp:402-407). -/
def validArcSegIntersect (arcCenter arcStart arcEnd : V2) (bulge : ℝ) (intrPoint : V2) : M Bool :=
  if fuzzyEqualV arcStart intrPoint realPrecision then .ok false
  else pointWithinArcSweepAngle arcCenter arcStart arcEnd bulge intrPoint

/-- `if (validLineSegIntersect(t)) output.emplace_back(...)` (polylineoffset.hpp:418-428). -/
def addLineCircleIntr (sIndex : ℕ) (v1 v2 : Vertex) (t : ℝ) (output : List (ℕ × V2)) :
    List (ℕ × V2) :=
  if validLineSegIntersect t then output ++ [(sIndex, pointFromParametric v1.pos v2.pos t)]
  else output

/-- `if (validArcSegIntersect(..)) output.emplace_back(...)` (polylineoffset.hpp:438-448). -/
def addArcCircleIntr (sIndex : ℕ) (arc : Arc) (v1 v2 : Vertex) (p : V2) (output : List (ℕ × V2)) :
    M (List (ℕ × V2)) := do
  let valid ← validArcSegIntersect arc.center v1.pos v2.pos v1.bulge p
  return if valid then output ++ [(sIndex, p)] else output

/-- Body of the `for` over the query results (polylineoffset.hpp:409-454). -/
def circleIntrStep (pline : Polyline) (circleRadius : ℝ) (circleCenter : V2)
    (output : List (ℕ × V2)) (sIndex : ℕ) : M (List (ℕ × V2)) := do
  let v1 ← pline.at sIndex
  let v2 ← pline.at (sIndex + 1)
  if v1.bulgeIsZero then do
    match ← intrLineSeg2Circle2 v1.pos v2.pos circleRadius circleCenter with
    | .none => return output
    | .one t0 => return addLineCircleIntr sIndex v1 v2 t0 output
    | .two t0 t1 =>
      return addLineCircleIntr sIndex v1 v2 t1 (addLineCircleIntr sIndex v1 v2 t0 output)
  else do
    let arc ← arcRadiusAndCenter v1 v2
    match intrCircle2Circle2 arc.radius arc.center circleRadius circleCenter with
    | .noIntersect => return output
    | .one p => addArcCircleIntr sIndex arc v1 v2 p output
    | .two p q => do
      let output ← addArcCircleIntr sIndex arc v1 v2 p output
      addArcCircleIntr sIndex arc v1 v2 q output
    | .coincident => return output

/-- `offsetCircleIntersectsWithPline` (polylineoffset.hpp:384-455). -/
def offsetCircleIntersectsWithPline (pline : Polyline) (offset : ℝ) (circleCenter : V2)
    (spatialIndex : SIndex ℝ) (output : List (ℕ × V2)) : M (List (ℕ × V2)) := do
  let circleRadius := |offset|
  let queryResults ← spatialIndex.query
    ⟨circleCenter.x - circleRadius, circleCenter.y - circleRadius,
      circleCenter.x + circleRadius, circleCenter.y + circleRadius⟩
  queryResults.foldlM (circleIntrStep pline circleRadius circleCenter) output

/-- The visitor of `pointValidForOffset` (polylineoffset.hpp:468-474). -/
def pointValidVisitor (pline : Polyline) (point : V2) (minDist : ℝ) (_pointValid : Bool) (i : ℕ) :
    M (Bool × Bool) := do
  let j := nextWrappingIndex i pline.size
  let v1 ← pline.at i
  let v2 ← pline.at j
  let closestPoint ← closestPointOnSeg v1 v2 point
  let dist := distSquared closestPoint point
  let pointValid := decide (dist > minDist)
  return (pointValid, pointValid)

/-- `pointValidForOffset` (polylineoffset.hpp:457-479). -/
def pointValidForOffset (pline : Polyline) (offset : ℝ) (spatialIndex : SIndex ℝ) (point : V2)
    (offsetTol : ℝ := offsetThreshold) : M Bool :=
  let absOffset := |offset| - offsetTol
  let minDist := absOffset * absOffset
  spatialIndex.visitQueryM
    ⟨point.x - absOffset, point.y - absOffset, point.x + absOffset, point.y + absOffset⟩
    (pointValidVisitor pline point minDist) true

/-! ### createRawOffsetPline -/

/-- `joinResultVisitor` (polylineoffset.hpp:506-520). -/
def joinSegs (ccw : Prop) (s1 s2 : OffsetSegment) (result : Polyline) : M Polyline :=
  if s1.v1.bulgeIsZero ∧ s2.v1.bulgeIsZero then lineToLineJoin s1 s2 ccw result
  else if s1.v1.bulgeIsZero then lineToArcJoin s1 s2 ccw result
  else if s2.v1.bulgeIsZero then arcToLineJoin s1 s2 ccw result
  else arcToArcJoin s1 s2 ccw result

/-- The `for` over the segments from the third (polylineoffset.hpp:534-538): `s1` is
`rawOffsets[i - 1]`, the list holds the segments from `i`. -/
def joinSegsLoop (ccw : Prop) : OffsetSegment → List OffsetSegment → Polyline → M Polyline
  | _, [], result => .ok result
  | s1, s2 :: rest, result => do
    let result ← joinSegs ccw s1 s2 result
    joinSegsLoop ccw s2 rest result

/-- Update of the first vertex of a closed raw offset (polylineoffset.hpp:557-579). -/
def updateFirstVertex (updatedFirstPos : V2) (result : Polyline) : M Polyline := do
  let r0 ← result.at 0
  if r0.bulgeIsZero then do
    let vs ← setM result.vertexes 0 ⟨updatedFirstPos, r0.bulge⟩
    return ⟨result.isClosed, vs⟩
  else if result.size > 1 then do
    let r1 ← result.at 1
    let arc ← arcRadiusAndCenter r0 r1
    let a1 := angle arc.center updatedFirstPos
    let a2 := angle arc.center r1.pos
    let updatedTheta := deltaAngle a1 a2
    if (updatedTheta < 0 ∧ r0.bulgeIsPos) ∨ (updatedTheta > 0 ∧ r0.bulgeIsNeg) then do
      let vs ← setM result.vertexes 0 ⟨updatedFirstPos, r0.bulge⟩
      return ⟨result.isClosed, vs⟩
    else do
      let vs ← setM result.vertexes 0 ⟨updatedFirstPos, Real.tan (updatedTheta / 4)⟩
      return ⟨result.isClosed, vs⟩
  else return result

/-- The final prune between the first and the second vertex (polylineoffset.hpp:581-587). -/
def pruneFirstVertex (result : Polyline) : M Polyline :=
  if result.size > 1 then do
    let r0 ← result.at 0
    let r1 ← result.at 1
    if fuzzyEqualV r0.pos r1.pos realPrecision then return ⟨result.isClosed, result.vertexes.tail⟩
    else return result
  else .ok result

/-- Joining the last segment with the first of a closed polyline (polylineoffset.hpp:540-587). -/
def joinClosing (ccw : Prop) (s1 s2 : OffsetSegment) (firstVertexReplaced : Prop)
    (result : Polyline) : M Polyline := do
  let last ← result.lastVertex
  let closing ← joinSegs ccw s1 s2 (Polyline.empty.addVertex last)
  let c0 ← closing.at 0
  let result ← result.setLast c0
  let result : Polyline := ⟨result.isClosed, result.vertexes ++ closing.vertexes.tail⟩
  let result ← result.popBack
  let cl ← closing.lastVertex
  let result ← if ¬ firstVertexReplaced then updateFirstVertex cl.pos result else .ok result
  pruneFirstVertex result

/-- Joining the first two segments (polylineoffset.hpp:522-532). -/
def joinFirst (ccw : Prop) (s0 : OffsetSegment) (rest : List OffsetSegment) (result : Polyline) :
    M Polyline :=
  match rest with
  | [] => .ok result
  | s :: _ => joinSegs ccw s0 s result

/-- Joining all other segments (polylineoffset.hpp:534-538). -/
def joinOthers (ccw : Prop) (rest : List OffsetSegment) (result : Polyline) : M Polyline :=
  match rest with
  | [] => .ok result
  | s :: rest' => joinSegsLoop ccw s rest' result

/-- Joining the last segment with the first, or the end of an open polyline
(polylineoffset.hpp:540-590). -/
def joinEnd (isClosed : Bool) (ccw : Prop) (back s0 : OffsetSegment) (firstVertexReplaced : Prop)
    (result : Polyline) : M Polyline :=
  if isClosed ∧ result.size > 1 then joinClosing ccw back s0 firstVertexReplaced result
  else .ok (addOrReplaceIfSamePos result back.v2)

/-- `createRawOffsetPline` from the point where there is at least one raw segment
(polylineoffset.hpp:495-598). -/
def joinRawSegs (pline : Polyline) (offset : ℝ) (s0 : OffsetSegment) (rest : List OffsetSegment) :
    M Polyline :=
  if rest = [] ∧ s0.collapsedArc then .ok Polyline.empty
  else do
    let ccw : Prop := offset < 0
    let result ← joinFirst ccw s0 rest ⟨pline.isClosed, [s0.v1]⟩
    let firstVertexReplaced : Prop := result.size = 1
    let result ← joinOthers ccw rest result
    let back := rest.getLast?.getD s0
    let result ← joinEnd pline.isClosed ccw back s0 firstVertexReplaced result
    if result.size = 1 then return ⟨result.isClosed, []⟩ else return result

/-- `createRawOffsetPline` (polylineoffset.hpp:481-599). -/
def createRawOffsetPline (pline : Polyline) (offset : ℝ) : M Polyline :=
  if pline.size < 2 then .ok Polyline.empty
  else do
    match ← createUntrimmedOffsetSegments pline offset with
    | [] => return Polyline.empty
    | s0 :: rest => joinRawSegs pline offset s0 rest

/-! ### Slicing -/

/-- `OpenPolylineSlice` (polylineoffset.hpp:601-608). -/
structure OpenSlice where
  intrStartIndex : ℕ
  pline : Polyline

/-- `std::numeric_limits<std::size_t>::max()` (polylineoffset.hpp:636). -/
def sizeMax : ℕ := 2 ^ 64 - 1

/-- `std::unordered_map<std::size_t, std::vector<Vector2>>` (polylineoffset.hpp:647) and `std::map`
(polylineoffset.hpp:852): the pairs, in order of the keys. -/
abbrev Lookup := List (ℕ × List V2)

/-- `lookup[key].push_back(p)` (polylineoffset.hpp:651-652). -/
def Lookup.push (key : ℕ) (p : V2) : Lookup → Lookup
  | [] => [(key, [p])]
  | (k, ps) :: rest =>
    if key < k then (key, [p]) :: (k, ps) :: rest
    else if key = k then (k, ps ++ [p]) :: rest
    else (k, ps) :: Lookup.push key p rest

/-- `lookup.find(key)` (polylineoffset.hpp:777). -/
def Lookup.find? (l : Lookup) (key : ℕ) : Option (List V2) :=
  (List.find? (fun kv => kv.1 = key) l).map Prod.snd

/-- In which order a range-`for` goes over an `unordered_map`: any order, the theorems hold for all
of them (polylineoffset.hpp:682, polylinecombine.hpp:125, polylineoffsetislands.hpp:262). -/
structure HashOrder where
  iter : {α : Type} → List α → List α
  perm : ∀ {α : Type} (l : List α), (iter l).Perm l

/-- Sorting every list of the lookup by the distance from the start vertex
(polylineoffset.hpp:655-662 and 899-906). -/
def sortLookup (std : StdSort) (rawOffsetPline : Polyline) (lookup : Lookup) : M Lookup :=
  lookup.mapM fun kv => do
    let v ← rawOffsetPline.at kv.1
    return (kv.1, std.sort (fun si1 si2 => distSquared si1 v.pos < distSquared si2 v.pos) kv.2)

/-- The visitor in `intersectsOrigPline` (polylineoffset.hpp:667-674 and 911-918). -/
def intersectsOrigVisitor (originalPline : Polyline) (v1 v2 : Vertex) (_hasIntersect : Bool)
    (i : ℕ) : M (Bool × Bool) := do
  let j := nextWrappingIndex i originalPline.size
  let u1 ← originalPline.at i
  let u2 ← originalPline.at j
  let intrResult ← intrPlineSegs v1 v2 u1 u2
  let hasIntersect := match intrResult with
    | .noIntersect => false
    | _ => true
  return (hasIntersect, !hasIntersect)

/-- `intersectsOrigPline` (polylineoffset.hpp:664-680 and 908-924). -/
def intersectsOrigPline (originalPline : Polyline) (index : SIndex ℝ) (v1 v2 : Vertex) : M Bool :=
  let approxBB := createFastApproxBoundingBox v1 v2
  index.visitQueryM approxBB.toBox (intersectsOrigVisitor originalPline v1 v2) false

/-- The original polyline, its spatial index, the offset and the raw offset polyline: what the
lambdas and loops of the two slicing functions capture (polylineoffset.hpp:610-616, 828-833). -/
structure SliceEnv where
  original : Polyline
  index : SIndex ℝ
  offset : ℝ
  raw : Polyline

/-- `pointValidForOffset(originalPline, offset, origPlineSpatialIndex, p, queryStack)`
(polylineoffset.hpp:708, 714, 721). -/
def SliceEnv.valid (e : SliceEnv) (p : V2) : M Bool :=
  pointValidForOffset e.original e.offset e.index p

/-- The `for` over the intersects of one segment (polylineoffset.hpp:697-735 and 1000-1038), over the
rest of `siList`. -/
def betweenSlices (e : SliceEnv) (sIndex : ℕ) (endVertex : Vertex) :
    List V2 → Vertex → List OpenSlice → M (List OpenSlice)
  | [], _, result => .ok result
  | si :: rest, prevVertex, result => do
    let split ← splitAtPoint prevVertex endVertex si
    let prevVertex := split.splitVertex
    if fuzzyEqualV split.updatedStart.pos split.splitVertex.pos realPrecision then
      betweenSlices e sIndex endVertex rest prevVertex result
    else do
      let ok1 ← e.valid split.updatedStart.pos
      if ¬ ok1 = true then betweenSlices e sIndex endVertex rest prevVertex result
      else do
        let ok2 ← e.valid split.splitVertex.pos
        if ¬ ok2 = true then betweenSlices e sIndex endVertex rest prevVertex result
        else do
          let midpoint ← segMidpoint split.updatedStart split.splitVertex
          let ok3 ← e.valid midpoint
          if ¬ ok3 = true then betweenSlices e sIndex endVertex rest prevVertex result
          else do
            let hit ← intersectsOrigPline e.original e.index split.updatedStart split.splitVertex
            let slice : OpenSlice := ⟨sIndex, ⟨false, [split.updatedStart, split.splitVertex]⟩⟩
            if hit then betweenSlices e sIndex endVertex rest prevVertex result
            else betweenSlices e sIndex endVertex rest prevVertex (result ++ [slice])

/-- End of a slice at the first intersect of the segment (polylineoffset.hpp:779-806 and 1082-1109):
`none` for `isValidPline = false`. -/
def finishSlice (e : SliceEnv) (index : ℕ) (intersectPos : V2) (currSlice : Polyline) :
    M (Option Polyline) := do
  let ok1 ← e.valid intersectPos
  if ¬ ok1 = true then return none
  else do
    let last ← currSlice.lastVertex
    let next ← e.raw.at (nextWrappingIndex index e.raw.size)
    let split ← splitAtPoint last next intersectPos
    let sliceEndVertex : Vertex := ⟨intersectPos, 0⟩
    let mp ← segMidpoint split.updatedStart sliceEndVertex
    let ok2 ← e.valid mp
    if ¬ ok2 = true then return none
    else do
      let currSlice ← currSlice.setLast split.updatedStart
      return some (addOrReplaceIfSamePos currSlice sliceEndVertex)

/-- The `while (true)` that builds a slice from the last intersect of one segment to the first
intersect of the next segment that has one (polylineoffset.hpp:754-810 and 1057-1123). The first
argument is the number of iterations the loop count allows; `advance` is the next index, `none` for
the `break` at the end of an open polyline; the result is `none` for `isValidPline = false`. -/
def sliceLoop (e : SliceEnv) (lookup : Lookup) (advance : ℕ → Option ℕ) :
    ℕ → ℕ → Polyline → M (Option Polyline)
  | 0, _, _ => .error .assertFailed
  | fuel + 1, index, currSlice => do
    let v ← e.raw.at index
    let ok ← e.valid v.pos
    if ¬ ok = true then return none
    else do
      let last ← currSlice.lastVertex
      let hit ← intersectsOrigPline e.original e.index last v
      if hit then return none
      else do
        let currSlice := addOrReplaceIfSamePos currSlice v
        match lookup.find? index with
        | some (intersectPos :: _) => finishSlice e index intersectPos currSlice
        | some [] => .error .outOfBounds
        | none =>
          match advance index with
          | none => return some currSlice
          | some index => sliceLoop e lookup advance fuel index currSlice

/-- The segments between the intersects of one segment (polylineoffset.hpp:692-736 and
995-1039). -/
def innerSlices (e : SliceEnv) (sIndex : ℕ) (startVertex endVertex : Vertex) (siList : List V2)
    (result : List OpenSlice) : M (List OpenSlice) :=
  if siList.length ≠ 1 then
    match siList with
    | [] => .error .outOfBounds
    | si0 :: rest => do
      let firstSplit ← splitAtPoint startVertex endVertex si0
      betweenSlices e sIndex endVertex rest firstSplit.splitVertex result
  else .ok result

/-- The slice that starts at the last intersect of one segment, up to the end of the `while`
(polylineoffset.hpp:740-810 and 1043-1123); `none` if it is not valid. -/
def outerSlice (e : SliceEnv) (lookup : Lookup) (advance : ℕ → Option ℕ) (sIndex : ℕ)
    (startVertex endVertex : Vertex) (siList : List V2) : M (Option Polyline) :=
  match siList.getLast? with
  | none => .error .emptyVector
  | some back => do
    let ok ← e.valid back
    if ¬ ok = true then return none
    else do
      let split ← splitAtPoint startVertex endVertex back
      sliceLoop e lookup advance (e.raw.size + 1) (nextWrappingIndex sIndex e.raw.size)
        (Polyline.empty.addVertex split.splitVertex)

/-- Discarding a very short loop (polylineoffset.hpp:812-818). -/
def keepClosedSlice (currSlice : Polyline) : M Bool :=
  if currSlice.size > 1 then do
    let first ← currSlice.at 0
    let last ← currSlice.lastVertex
    if fuzzyEqualV first.pos last.pos then do
      let len ← getPathLength currSlice
      return decide (len > 1 / 10 ^ 2)
    else return true
  else .ok false

/-- Body of the `for` over the lookup in `slicesFromRawOffset` (polylineoffset.hpp:682-823). -/
def rawSliceStep (e : SliceEnv) (lookup : Lookup) (result : List OpenSlice) (kvp : ℕ × List V2) :
    M (List OpenSlice) := do
  let startVertex ← e.raw.at kvp.1
  let endVertex ← e.raw.at (nextWrappingIndex kvp.1 e.raw.size)
  let result ← innerSlices e kvp.1 startVertex endVertex kvp.2 result
  let slice ← outerSlice e lookup (fun i => some (nextWrappingIndex i e.raw.size)) kvp.1
    startVertex endVertex kvp.2
  match slice with
  | none => return result
  | some currSlice => do
    let keep ← keepClosedSlice currSlice
    return if keep then result ++ [⟨kvp.1, currSlice⟩] else result

/-- The whole raw offset as one open slice (polylineoffset.hpp:636-639 and 890-895); `close` for
adding the first vertex at the end. -/
def wholeSlice (raw : Polyline) (first : Vertex) (close : Bool) : OpenSlice :=
  ⟨sizeMax, ⟨false, if close then raw.vertexes ++ [⟨first.pos, 0⟩] else raw.vertexes⟩⟩

/-- `slicesFromRawOffset` (polylineoffset.hpp:610-826). -/
def slicesFromRawOffset (pf : Platform) (std : StdSort) (hash : HashOrder)
    (originalPline rawOffsetPline : Polyline) (offset : ℝ) : M (List OpenSlice) := do
  assertP (originalPline.isClosed = true)
  if rawOffsetPline.size < 2 then return []
  else do
    let origIndex ← createApproxSpatialIndex pf originalPline
    let rawIndex ← createApproxSpatialIndex pf rawOffsetPline
    let selfIntersects ← allSelfIntersects rawOffsetPline [] rawIndex
    let e : SliceEnv := ⟨originalPline, origIndex, offset, rawOffsetPline⟩
    if selfIntersects.length = 0 then do
      let first ← rawOffsetPline.at 0
      let ok ← e.valid first.pos
      if ¬ ok = true then return []
      else return [wholeSlice rawOffsetPline first true]
    else do
      let lookup := selfIntersects.foldl
        (fun (l : Lookup) si => (l.push si.sIndex1 si.pos).push si.sIndex2 si.pos) []
      let lookup ← sortLookup std rawOffsetPline lookup
      (hash.iter lookup).foldlM (rawSliceStep e lookup) []

/-- Next index in `dualSliceAtIntersectsForOffset` (polylineoffset.hpp:1112-1122). -/
def dualAdvance (closed : Bool) (size index : ℕ) : Option ℕ :=
  if index = size - 1 then (if closed then some 0 else none) else some (index + 1)

/-- The `while (true)` that builds the first slice of an open polyline
(polylineoffset.hpp:933-982). -/
def firstSliceLoop (e : SliceEnv) (lookup : Lookup) : ℕ → ℕ → Polyline → M (List OpenSlice)
  | 0, _, _ => .error .assertFailed
  | fuel + 1, index, firstSlice =>
    match lookup.find? index with
    | none => do
      let v ← e.raw.at index
      let ok ← e.valid v.pos
      if ¬ ok = true then return []
      else do
        let hit ← if index ≠ 0 then do
            let last ← firstSlice.lastVertex
            intersectsOrigPline e.original e.index last v
          else Except.ok false
        if hit then return []
        else firstSliceLoop e lookup fuel (index + 1) (addOrReplaceIfSamePos firstSlice v)
    | some [] => .error .outOfBounds
    | some (intersectPos :: _) => do
      let ok1 ← e.valid intersectPos
      if ¬ ok1 = true then return []
      else do
        let v1 ← e.raw.at index
        let v2 ← e.raw.at (index + 1)
        let split ← splitAtPoint v1 v2 intersectPos
        let sliceEndVertex : Vertex := ⟨intersectPos, 0⟩
        let midpoint ← segMidpoint split.updatedStart sliceEndVertex
        let ok2 ← e.valid midpoint
        if ¬ ok2 = true then return []
        else do
          let hit ← intersectsOrigPline e.original e.index split.updatedStart sliceEndVertex
          if hit then return []
          else return [⟨0, addOrReplaceIfSamePos
            (addOrReplaceIfSamePos firstSlice split.updatedStart) sliceEndVertex⟩]

/-- Body of the `for` over the lookup in `dualSliceAtIntersectsForOffset`
(polylineoffset.hpp:985-1128). -/
def dualSliceStep (e : SliceEnv) (lookup : Lookup) (result : List OpenSlice) (kvp : ℕ × List V2) :
    M (List OpenSlice) := do
  let startVertex ← e.raw.at kvp.1
  let endVertex ← e.raw.at (nextWrappingIndex kvp.1 e.raw.size)
  let result ← innerSlices e kvp.1 startVertex endVertex kvp.2 result
  let slice ← outerSlice e lookup (dualAdvance e.original.isClosed e.raw.size) kvp.1
    startVertex endVertex kvp.2
  match slice with
  | none => return result
  | some currSlice => return if currSlice.size > 1 then result ++ [⟨kvp.1, currSlice⟩] else result

/-- Filling of the lookup in `dualSliceAtIntersectsForOffset` (polylineoffset.hpp:852-880). -/
def dualLookup (circles : List (ℕ × V2)) (selfIntersects : List PlineIntersect)
    (dual : IntersectsResult) : Lookup :=
  let l := circles.foldl (fun (l : Lookup) pair => l.push pair.1 pair.2) []
  let l := selfIntersects.foldl
    (fun (l : Lookup) si => (l.push si.sIndex1 si.pos).push si.sIndex2 si.pos) l
  let l := dual.intersects.foldl (fun (l : Lookup) intr => l.push intr.sIndex1 intr.pos) l
  dual.coincidentIntersects.foldl
    (fun (l : Lookup) intr => (l.push intr.sIndex1 intr.point1).push intr.sIndex1 intr.point2) l

/-- The intersects with the circles around the ends of an open original polyline
(polylineoffset.hpp:854-866). -/
def dualCircles (originalPline rawOffsetPline : Polyline) (offset : ℝ) (rawIndex : SIndex ℝ) :
    M (List (ℕ × V2)) :=
  if originalPline.isClosed = true then .ok []
  else do
    let o0 ← originalPline.at 0
    let ol ← originalPline.lastVertex
    let intersects ← offsetCircleIntersectsWithPline rawOffsetPline offset o0.pos rawIndex []
    offsetCircleIntersectsWithPline rawOffsetPline offset ol.pos rawIndex intersects

/-- The first slice of an open polyline (polylineoffset.hpp:926-983). -/
def dualFirst (e : SliceEnv) (lookup : Lookup) : M (List OpenSlice) :=
  if e.original.isClosed = true then .ok []
  else firstSliceLoop e lookup (e.raw.size + 1) 0 Polyline.empty

/-- `dualSliceAtIntersectsForOffset` (polylineoffset.hpp:828-1131). -/
def dualSliceAtIntersectsForOffset (pf : Platform) (std : StdSort)
    (originalPline rawOffsetPline dualRawOffsetPline : Polyline) (offset : ℝ) :
    M (List OpenSlice) :=
  if rawOffsetPline.size < 2 then .ok []
  else do
    let origIndex ← createApproxSpatialIndex pf originalPline
    let rawIndex ← createApproxSpatialIndex pf rawOffsetPline
    let selfIntersects ← allSelfIntersects rawOffsetPline [] rawIndex
    let dual ← findIntersects rawOffsetPline dualRawOffsetPline rawIndex ⟨[], []⟩
    let circles ← dualCircles originalPline rawOffsetPline offset rawIndex
    let lookup := dualLookup circles selfIntersects dual
    let e : SliceEnv := ⟨originalPline, origIndex, offset, rawOffsetPline⟩
    if lookup.length = 0 then do
      let first ← rawOffsetPline.at 0
      let ok ← e.valid first.pos
      if ¬ ok = true then return []
      else return [wholeSlice rawOffsetPline first originalPline.isClosed]
    else do
      let lookup ← sortLookup std rawOffsetPline lookup
      let result ← dualFirst e lookup
      lookup.foldlM (dualSliceStep e lookup) result

/-! ### Stitching -/

/-- `slices[index]` where the index is known to be in range (polylineoffset.hpp:1204-1213). -/
def sliceAt (slices : List OpenSlice) (i : ℕ) : OpenSlice := slices.getD i ⟨0, Polyline.empty⟩

/-- `indexDist` of `indexDistAndEqualInitial` (polylineoffset.hpp:1204-1210), in `size_t`
arithmetic. -/
def indexDist (origMaxIndex currLoopStartIndex intrStartIndex : ℕ) : ℕ :=
  if currLoopStartIndex ≤ intrStartIndex then intrStartIndex - currLoopStartIndex
  else (origMaxIndex + 2 ^ 64 - currLoopStartIndex + intrStartIndex) % 2 ^ 64

/-- `equalToInitial` (polylineoffset.hpp:1212-1213); the slices are not empty: their first vertex
was read before. -/
def equalToInitial (slices : List OpenSlice) (initialStartPoint : V2) (i : ℕ) : Prop :=
  fuzzyEqualV ((sliceAt slices i).pline.vertexes.getLast?.getD ⟨⟨0, 0⟩, 0⟩).pos initialStartPoint
    realPrecision

/-- The comparison given to `std::sort` (polylineoffset.hpp:1218-1229). -/
def stitchLess (slices : List OpenSlice) (origMaxIndex currLoopStartIndex : ℕ)
    (initialStartPoint : V2) (index1 index2 : ℕ) : Prop :=
  let d1 := indexDist origMaxIndex currLoopStartIndex (sliceAt slices index1).intrStartIndex
  let d2 := indexDist origMaxIndex currLoopStartIndex (sliceAt slices index2).intrStartIndex
  if d1 = d2 then ¬ equalToInitial slices initialStartPoint index1 ∧
    equalToInitial slices initialStartPoint index2
  else d1 < d2

/-- What `stitchOffsetSlicesTogether` does when nothing more can be stitched
(polylineoffset.hpp:1231-1242). -/
def finishStitch (closedPolyline : Bool) (currPline : Polyline) (result : List Polyline) :
    M (List Polyline) :=
  if currPline.size > 1 then do
    let first ← currPline.at 0
    let last ← currPline.lastVertex
    if closedPolyline = true ∧ fuzzyEqualV first.pos last.pos realPrecision then do
      let popped ← currPline.popBack
      return result ++ [⟨true, popped.vertexes⟩]
    else return result ++ [currPline]
  else .ok result

/-- The `while (true)` of `stitchOffsetSlicesTogether` (polylineoffset.hpp:1182-1248). -/
def stitchLoop (std : StdSort) (slices : List OpenSlice) (index : SIndex ℝ) (closedPolyline : Bool)
    (origMaxIndex : ℕ) (joinThreshold : ℝ) (initialStartPoint : V2) :
    ℕ → ℕ → Polyline → List Bool → List Polyline → M (List Bool × List Polyline)
  | 0, _, _, _, _ => .error .assertFailed
  | fuel + 1, currIndex, currPline, visited, result => do
    let curr ← getM slices currIndex
    let currEnd ← curr.pline.lastVertex
    let currPline : Polyline := ⟨currPline.isClosed, currPline.vertexes ++ curr.pline.vertexes⟩
    let queryResults ← index.query
      ⟨currEnd.pos.x - joinThreshold, currEnd.pos.y - joinThreshold,
        currEnd.pos.x + joinThreshold, currEnd.pos.y + joinThreshold⟩
    let queryResults ← removeIfM (fun i => getM visited i) queryResults
    let queryResults := std.sort
      (stitchLess slices origMaxIndex curr.intrStartIndex initialStartPoint) queryResults
    match queryResults with
    | [] => do
      let result ← finishStitch closedPolyline currPline result
      return (visited, result)
    | next :: _ => do
      let visited ← setM visited next true
      let currPline ← currPline.popBack
      stitchLoop std slices index closedPolyline origMaxIndex joinThreshold initialStartPoint
        fuel next currPline visited result

/-- The `for` over the slices (polylineoffset.hpp:1170-1249), `k` iterations left. -/
def stitchOuter (std : StdSort) (slices : List OpenSlice) (index : SIndex ℝ) (closedPolyline : Bool)
    (origMaxIndex : ℕ) (joinThreshold : ℝ) :
    ℕ → ℕ → List Bool → List Polyline → M (List Polyline)
  | 0, _, _, result => .ok result
  | k + 1, i, visited, result => do
    if ← getM visited i then
      stitchOuter std slices index closedPolyline origMaxIndex joinThreshold k (i + 1) visited result
    else do
      let visited ← setM visited i true
      let s ← getM slices i
      let first ← s.pline.at 0
      let (visited, result) ← stitchLoop std slices index closedPolyline origMaxIndex joinThreshold
        first.pos (slices.length + 1) i Polyline.empty visited result
      stitchOuter std slices index closedPolyline origMaxIndex joinThreshold k (i + 1) visited result

/-- Start of the box of a slice in the spatial index (polylineoffset.hpp:1158-1162). -/
def startBox (joinThreshold : ℝ) (s : OpenSlice) : M (Box ℝ) := do
  let v ← s.pline.at 0
  return ⟨v.pos.x - joinThreshold, v.pos.y - joinThreshold,
    v.pos.x + joinThreshold, v.pos.y + joinThreshold⟩

/-- `stitchOffsetSlicesTogether` (polylineoffset.hpp:1133-1252). -/
def stitchOffsetSlicesTogether (pf : Platform) (std : StdSort) (slices : List OpenSlice)
    (closedPolyline : Bool) (origMaxIndex : ℕ) (joinThreshold : ℝ := sliceJoinThreshold) :
    M (List Polyline) :=
  match slices with
  | [] => .ok []
  | [s] => do
    if closedPolyline then do
      let first ← s.pline.at 0
      let last ← s.pline.lastVertex
      if fuzzyEqualV first.pos last.pos joinThreshold then do
        let popped ← s.pline.popBack
        return [⟨true, popped.vertexes⟩]
      else return [s.pline]
    else return [s.pline]
  | _ => do
    let boxes ← slices.mapM (startBox joinThreshold)
    let index ← SIndex.build 16 pf.inf pf.ninf pf.hilbert boxes
    stitchOuter std slices index closedPolyline origMaxIndex joinThreshold slices.length 0
      (List.replicate slices.length false) []

/-- `parallelOffset` (polylineoffset.hpp:1255-1273). `rawOffset.size() - 1` wraps around in
`size_t`. -/
def parallelOffset (pf : Platform) (std : StdSort) (hash : HashOrder) (pline : Polyline)
    (offset : ℝ) (hasSelfIntersects : Bool := false) : M (List Polyline) :=
  if pline.size < 2 then .ok []
  else do
    let rawOffset ← createRawOffsetPline pline offset
    let origMaxIndex := (rawOffset.size + sizeMax) % 2 ^ 64
    if pline.isClosed = true ∧ ¬ hasSelfIntersects = true then do
      let slices ← slicesFromRawOffset pf std hash pline rawOffset offset
      stitchOffsetSlicesTogether pf std slices pline.isClosed origMaxIndex
    else do
      let dualRawOffset ← createRawOffsetPline pline (-offset)
      let slices ← dualSliceAtIntersectsForOffset pf std pline rawOffset dualRawOffset offset
      stitchOffsetSlicesTogether pf std slices pline.isClosed origMaxIndex

end
end Cavc
