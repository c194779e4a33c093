import Verif.Model.Segment
import Verif.Model.SpatialIndex
import Mathlib.Analysis.SpecialFunctions.Trigonometric.Inverse

/-!
Model of include/cavc/polyline.hpp. `Real` is ℝ; every element access is bounds checked by `getM`.
-/
namespace Cavc
open scoped Classical
noncomputable section

/-- `class Polyline` (polyline.hpp:16-65). -/
@[ext] structure Polyline where
  isClosed : Bool
  vertexes : List Vertex

/-- `Polyline()` (polyline.hpp:19). -/
def Polyline.empty : Polyline := ⟨false, []⟩

/-- `size` (polyline.hpp:31). -/
def Polyline.size (p : Polyline) : ℕ := p.vertexes.length

/-- `operator[]` (polyline.hpp:22-23). -/
def Polyline.at (p : Polyline) (i : ℕ) : M Vertex := getM p.vertexes i

/-- `addVertex` (polyline.hpp:28-29). -/
def Polyline.addVertex (p : Polyline) (v : Vertex) : Polyline := ⟨p.isClosed, p.vertexes ++ [v]⟩

/-- `lastVertex` (polyline.hpp:33-34): `back()` of an empty vector is a fault. -/
def Polyline.lastVertex (p : Polyline) : M Vertex :=
  match p.vertexes.getLast? with
  | some v => .ok v
  | none => .error .emptyVector

/-- `lastVertex() = v` through the reference (polyline.hpp:34). -/
def Polyline.setLast (p : Polyline) (v : Vertex) : M Polyline :=
  if p.vertexes = [] then .error .emptyVector
  else .ok ⟨p.isClosed, p.vertexes.dropLast ++ [v]⟩

/-- `vertexes().pop_back()` (polyline.hpp:352). -/
def Polyline.popBack (p : Polyline) : M Polyline :=
  if p.vertexes = [] then .error .emptyVector else .ok ⟨p.isClosed, p.vertexes.dropLast⟩

variable {σ : Type}

/-- The `while` of `visitSegIndices` (polyline.hpp:56-59). -/
def segLoop (n : ℕ) (visitor : σ → ℕ → ℕ → M (σ × Bool)) : ℕ → ℕ → ℕ → σ → M σ
  | 0, _, _, _ => .error .nonTermination
  | fuel + 1, j, i, st =>
    if i < n then do
      let r ← visitor st j i
      if r.2 then segLoop n visitor fuel i (i + 1) r.1 else .ok r.1
    else .ok st

/-- `visitSegIndices` (polyline.hpp:42-60). The visitor transforms a state, may fault, and says
whether to go on. -/
def Polyline.visitSegIndices (p : Polyline) (visitor : σ → ℕ → ℕ → M (σ × Bool)) (st : σ) : M σ :=
  if p.size < 2 then .ok st
  else if p.isClosed then segLoop p.size visitor (p.size + 1) (p.size - 1) 0 st
  else segLoop p.size visitor (p.size + 1) 0 1 st

/-- A visitor that handles every segment and returns true (as in polyline.hpp:92-158). -/
def allSegs (p : Polyline) (f : σ → Vertex → Vertex → ℕ → M σ) (st : σ) (i j : ℕ) :
    M (σ × Bool) := do
  let v1 ← p.at i
  let v2 ← p.at j
  let st ← f st v1 v2 i
  return (st, true)

/-- `scalePolyline` (polyline.hpp:68-72). -/
def scalePolyline (p : Polyline) (scaleFactor : ℝ) : Polyline :=
  ⟨p.isClosed, p.vertexes.map fun v => ⟨scaleFactor • v.pos, v.bulge⟩⟩

/-- `translatePolyline` (polyline.hpp:75-80). -/
def translatePolyline (p : Polyline) (offset : V2) : Polyline :=
  ⟨p.isClosed, p.vertexes.map fun v => ⟨⟨offset.x + v.pos.x, offset.y + v.pos.y⟩, v.bulge⟩⟩

/-- The four `if`s that grow the extents (polyline.hpp:95-102 and 146-153). -/
def AABB.include (r : AABB) (xMin yMin xMax yMax : ℝ) : AABB :=
  { xMin := if xMin < r.xMin then xMin else r.xMin
    yMin := if yMin < r.yMin then yMin else r.yMin
    xMax := if xMax > r.xMax then xMax else r.xMax
    yMax := if yMax > r.yMax then yMax else r.yMax }

/-- The sweep angle used by `getExtents` (polyline.hpp:107-114). -/
def extentsSweep (center : V2) (v1 v2 : Vertex) : ℝ :=
  let startAngle := angle center v1.pos
  let endAngle := angle center v2.pos
  let sweepAngle := deltaAngle startAngle endAngle
  if sweepAngle > 0 ∧ v1.bulge < 0 then sweepAngle - 2 * Real.pi else sweepAngle

/-- The visitor of `getExtents` (polyline.hpp:92-158). -/
def extentsVisitor (result : AABB) (v1 v2 : Vertex) (_ : ℕ) : M AABB :=
  if v1.bulgeIsZero then .ok (result.include v1.pos.x v1.pos.y v1.pos.x v1.pos.y)
  else do
    let arc ← arcRadiusAndCenter v1 v2
    let startAngle := angle arc.center v1.pos
    let sweepAngle := extentsSweep arc.center v1 v2
    let arcYMax := if angleIsWithinSweep startAngle sweepAngle (1 / 2 * Real.pi)
      then arc.center.y + arc.radius else max v1.pos.y v2.pos.y
    let arcXMin := if angleIsWithinSweep startAngle sweepAngle Real.pi
      then arc.center.x - arc.radius else min v1.pos.x v2.pos.x
    let arcYMin := if angleIsWithinSweep startAngle sweepAngle (3 / 2 * Real.pi)
      then arc.center.y - arc.radius else min v1.pos.y v2.pos.y
    let arcXMax := if angleIsWithinSweep startAngle sweepAngle (2 * Real.pi)
      then arc.center.x + arc.radius else max v1.pos.x v2.pos.x
    return result.include arcXMin arcYMin arcXMax arcYMax

/-- `getExtents` (polyline.hpp:84-163); `none` for the box of infinities of an empty polyline. -/
def getExtents (p : Polyline) : M (Option AABB) :=
  match p.vertexes with
  | [] => .ok none
  | v :: _ => do
    let r ← p.visitSegIndices (allSegs p extentsVisitor) ⟨v.pos.x, v.pos.y, v.pos.x, v.pos.y⟩
    return some r

/-- The visitor of `getArea` (polyline.hpp:182-206). -/
def areaVisitor (doubleAreaTotal : ℝ) (v1 v2 : Vertex) (_ : ℕ) : M ℝ :=
  let doubleArea := v1.pos.x * v2.pos.y - v1.pos.y * v2.pos.x
  if ¬ v1.bulgeIsZero then
    let b := |v1.bulge|
    let sweepAngle := 4 * Real.arctan b
    let triangleBase := (v2.pos - v1.pos).length
    let radius := triangleBase * (b * b + 1) / (4 * b)
    let sagitta := b * triangleBase / 2
    let triangleHeight := radius - sagitta
    let doubleSectorArea := sweepAngle * radius * radius
    let doubleTriangleArea := triangleBase * triangleHeight
    let doubleArcSegArea := doubleSectorArea - doubleTriangleArea
    let doubleArcSegArea := if v1.bulgeIsNeg then -doubleArcSegArea else doubleArcSegArea
    .ok (doubleAreaTotal + (doubleArea + doubleArcSegArea))
  else .ok (doubleAreaTotal + doubleArea)

/-- `getArea` (polyline.hpp:167-211). -/
def getArea (p : Polyline) : M ℝ :=
  if ¬ p.isClosed ∨ p.size < 2 then .ok 0
  else do
    let total ← p.visitSegIndices (allSegs p areaVisitor) 0
    return total / 2

/-- Members of `class ClosestPoint` (polyline.hpp:266-269). -/
structure ClosestPoint where
  index : ℕ
  point : V2
  distance : ℝ

/-- The visitor of `ClosestPoint::compute` (polyline.hpp:232-244); the state is `none` while
`m_distance` is infinite. -/
def closestVisitor (point : V2) (best : Option ClosestPoint) (v1 v2 : Vertex) (i : ℕ) :
    M (Option ClosestPoint) := do
  let cp ← closestPointOnSeg v1 v2 point
  let diffVec := point - cp
  let dist2 := dot diffVec diffVec
  match best with
  | none => return some ⟨i, cp, dist2⟩
  | some b => return if dist2 < b.distance then some ⟨i, cp, dist2⟩ else some b

/-- `ClosestPoint::compute` (polyline.hpp:221-257). -/
def closestPoint (p : Polyline) (point : V2) : M ClosestPoint := do
  assertP (p.size > 0)
  if p.size = 1 then do
    let v ← p.at 0
    return ⟨0, v.pos, (point - v.pos).length⟩
  else do
    let best ← p.visitSegIndices (allSegs p (closestVisitor point)) none
    match best with
    | none => .error .badCast
    | some b => do
      let nextIndex := nextWrappingIndex b.index p.size
      let next ← p.at nextIndex
      let index := if fuzzyEqualV b.point next.pos then nextIndex else b.index
      let index := if ¬ p.isClosed ∧ p.size > 1 ∧ index = p.size - 1 then index - 1 else index
      return ⟨index, b.point, Real.sqrt b.distance⟩

/-- The points added for one arc by `convertArcsToLines` (polyline.hpp:291-312). A division by zero
or the conversion of a negative or huge number to `size_t` is a fault. -/
def arcToLines (v1 v2 : Vertex) (arc : Arc) (error : ℝ) : M (List Vertex) :=
  let startAngle := angle arc.center v1.pos
  let endAngle := angle arc.center v2.pos
  let delta := |deltaAngle startAngle endAngle|
  let error := |error|
  if arc.radius = 0 then .error .divByZero
  else
    let segmentSubAngle := |2 * Real.arccos (1 - error / arc.radius)|
    if segmentSubAngle = 0 then .error .divByZero
    else
      let segmentCount := ⌈delta / segmentSubAngle⌉₊
      if segmentCount = 0 then .error .divByZero
      else
        let segmentSubAngle := delta / segmentCount
        let segmentSubAngle := if v1.bulgeIsNeg then -segmentSubAngle else segmentSubAngle
        .ok (⟨v1.pos, 0⟩ :: (List.range (segmentCount - 1)).map fun (k : ℕ) =>
          let angle := ((k + 1 : ℕ) : ℝ) * segmentSubAngle + startAngle
          ⟨⟨arc.radius * Real.cos angle + arc.center.x,
            arc.radius * Real.sin angle + arc.center.y⟩, 0⟩)

/-- The visitor of `convertArcsToLines` (polyline.hpp:279-315). The state is the result so far and
the captured `error`, which the first arc that is split makes absolute. -/
def linesVisitor (st : Polyline × ℝ) (v1 v2 : Vertex) (_ : ℕ) : M (Polyline × ℝ) :=
  let result := st.1
  let error := st.2
  if v1.bulgeIsZero then .ok (result.addVertex v1, error)
  else do
    let arc ← arcRadiusAndCenter v1 v2
    if arc.radius < error + realThreshold then return (result.addVertex v1, error)
    else do
      let added ← arcToLines v1 v2 arc error
      return (⟨result.isClosed, result.vertexes ++ added⟩, |error|)

/-- `convertArcsToLines` (polyline.hpp:275-323). -/
def convertArcsToLines (p : Polyline) (error : ℝ) : M Polyline := do
  let st ← p.visitSegIndices (allSegs p linesVisitor) (⟨p.isClosed, []⟩, error)
  let result := st.1
  if ¬ p.isClosed then do
    let v ← p.lastVertex
    return result.addVertex v
  else return result

/-- The `for` of `pruneSingularities` (polyline.hpp:342-348), over the remaining vertexes. -/
def pruneLoop (epsilon : ℝ) : List Vertex → Polyline → M Polyline
  | [], result => .ok result
  | v :: rest, result => do
    let last ← result.lastVertex
    if fuzzyEqualV last.pos v.pos epsilon then do
      let result ← result.setLast ⟨last.pos, v.bulge⟩
      pruneLoop epsilon rest result
    else pruneLoop epsilon rest (result.addVertex v)

/-- `pruneSingularities` (polyline.hpp:327-357). -/
def pruneSingularities (p : Polyline) (epsilon : ℝ) : M Polyline :=
  match p.vertexes with
  | [] => .ok ⟨p.isClosed, []⟩
  | v :: rest => do
    let result ← pruneLoop epsilon rest ⟨p.isClosed, [v]⟩
    if result.isClosed ∧ result.size > 1 then do
      let last ← result.lastVertex
      let first ← result.at 0
      if fuzzyEqualV last.pos first.pos epsilon then result.popBack else return result
    else return result

/-- The `for` of `invertDirection` (polyline.hpp:371-373): `k` iterations are left, `i` is the loop
variable. -/
def shiftBulges : ℕ → ℕ → List Vertex → M (List Vertex)
  | 0, _, l => .ok l
  | k + 1, i, l => do
    let v ← getM l i
    let w ← getM l (i - 1)
    let l ← setM l (i - 1) ⟨w.pos, -v.bulge⟩
    shiftBulges k (i + 1) l

/-- `invertDirection` (polyline.hpp:362-376). -/
def invertDirection (p : Polyline) : M Polyline :=
  if p.size < 2 then .ok p
  else do
    let l := p.vertexes.reverse
    let first ← getM l 0
    let l ← shiftBulges (p.size - 1) 1 l
    let last ← (⟨p.isClosed, l⟩ : Polyline).lastVertex
    (⟨p.isClosed, l⟩ : Polyline).setLast ⟨last.pos, -first.bulge⟩

/-- What the spatial index needs of its environment: the two infinities and the Hilbert value of a
box (Verif/Model/Hilbert.lean is the one of the code; the value only orders the items):
staticspatialindex.hpp:39-42 and 84-107. -/
structure Platform where
  inf : ℝ
  ninf : ℝ
  hilbert : Box ℝ → Box ℝ → M ℕ

/-- An `AABB` as arguments of `add`/`visitQuery` (polyline.hpp:384-405). -/
def AABB.toBox (b : AABB) : Box ℝ := ⟨b.xMin, b.yMin, b.xMax, b.yMax⟩

/-- The `for` that adds the boxes of the segments (polyline.hpp:387-390). -/
def addSegBoxes (p : Polyline) : ℕ → ℕ → SIndex ℝ → M (SIndex ℝ)
  | 0, _, s => .ok s
  | k + 1, i, s => do
    let v1 ← p.at i
    let v2 ← p.at (i + 1)
    let s ← s.add (createFastApproxBoundingBox v1 v2).toBox
    addSegBoxes p k (i + 1) s

/-- `createApproxSpatialIndex` (polyline.hpp:381-401), default node size 16. -/
def createApproxSpatialIndex (pf : Platform) (p : Polyline) : M (SIndex ℝ) := do
  assertP (p.size > 1)
  let segmentCount := if p.isClosed then p.size else p.size - 1
  let s ← SIndex.create 16 pf.inf pf.ninf segmentCount
  let s ← addSegBoxes p (p.size - 1) 0 s
  if p.isClosed then do
    let last ← p.lastVertex
    let first ← p.at 0
    let s ← s.add (createFastApproxBoundingBox last first).toBox
    s.finish pf.inf pf.ninf pf.hilbert
  else s.finish pf.inf pf.ninf pf.hilbert

/-- `getPathLength` (polyline.hpp:404-417). -/
def getPathLength (p : Polyline) : M ℝ :=
  if p.size < 2 then .ok 0
  else p.visitSegIndices
    (allSegs p fun result v1 v2 _ => do
      let l ← segLength v1 v2
      return result + l) 0

/-- `lineVisitor` of `getWindingNumber` (polyline.hpp:431-440): the change of the number. -/
def lineWinding (v1 v2 : Vertex) (point : V2) : ℤ :=
  if v1.pos.y ≤ point.y then
    if v2.pos.y > point.y ∧ isLeft v1.pos v2.pos point then 1 else 0
  else if v2.pos.y ≤ point.y ∧ ¬ isLeft v1.pos v2.pos point then -1 else 0

/-- `distToArcCenterLessThanRadius` (polyline.hpp:443-447). -/
def distToArcCenterLessThanRadius (v1 v2 : Vertex) (pt : V2) : M Bool := do
  let arc ← arcRadiusAndCenter v1 v2
  let dist2 := distSquared arc.center pt
  return decide (dist2 < arc.radius * arc.radius)

/-- `arcVisitor` of `getWindingNumber` (polyline.hpp:449-530): the change of the number. -/
def arcWinding (v1 v2 : Vertex) (point : V2) : M ℤ := do
  let isCCW := v1.bulgeIsPos
  let pointIsLeft := if isCCW then isLeft v1.pos v2.pos point else isLeftOrEqual v1.pos v2.pos point
  if v1.pos.y ≤ point.y then
    if v2.pos.y > point.y then
      if isCCW then
        if pointIsLeft then return 1
        else if ← distToArcCenterLessThanRadius v1 v2 point then return 1 else return 0
      else if pointIsLeft then
        if ← distToArcCenterLessThanRadius v1 v2 point then return 0 else return 1
      else return 0
    else if isCCW ∧ ¬ pointIsLeft then
      if v2.pos.x < point.x ∧ point.x < v1.pos.x then
        if ← distToArcCenterLessThanRadius v1 v2 point then return 1 else return 0
      else return 0
    else if ¬ isCCW ∧ pointIsLeft then
      if v1.pos.x < point.x ∧ point.x < v2.pos.x then
        if ← distToArcCenterLessThanRadius v1 v2 point then return -1 else return 0
      else return 0
    else return 0
  else if v2.pos.y ≤ point.y then
    if isCCW then
      if ¬ pointIsLeft then
        if ← distToArcCenterLessThanRadius v1 v2 point then return 0 else return -1
      else return 0
    else if pointIsLeft then
      if ← distToArcCenterLessThanRadius v1 v2 point then return -1 else return 0
    else return -1
  else if isCCW ∧ ¬ pointIsLeft then
    if v1.pos.x < point.x ∧ point.x < v2.pos.x then
      if ← distToArcCenterLessThanRadius v1 v2 point then return 1 else return 0
    else return 0
  else if ¬ isCCW ∧ pointIsLeft then
    if v2.pos.x < point.x ∧ point.x < v1.pos.x then
      if ← distToArcCenterLessThanRadius v1 v2 point then return -1 else return 0
    else return 0
  else return 0

/-- `visitor` of `getWindingNumber` (polyline.hpp:532-542). -/
def windingVisitor (point : V2) (windingNumber : ℤ) (v1 v2 : Vertex) (_ : ℕ) : M ℤ :=
  if v1.bulgeIsZero then .ok (windingNumber + lineWinding v1 v2 point)
  else do
    let d ← arcWinding v1 v2 point
    return windingNumber + d

/-- `getWindingNumber` (polyline.hpp:423-547). -/
def getWindingNumber (p : Polyline) (point : V2) : M ℤ :=
  if ¬ p.isClosed ∨ p.size < 2 then .ok 0
  else p.visitSegIndices (allSegs p (windingVisitor point)) 0

/-- `internal::addOrReplaceIfSamePos` (polyline.hpp:550-564). -/
def addOrReplaceIfSamePos (p : Polyline) (vertex : Vertex) (epsilon : ℝ := realPrecision) :
    Polyline :=
  match p.vertexes.getLast? with
  | none => p.addVertex vertex
  | some last =>
    if fuzzyEqualV last.pos vertex.pos epsilon then
      ⟨p.isClosed, p.vertexes.dropLast ++ [⟨last.pos, vertex.bulge⟩]⟩
    else p.addVertex vertex

end
end Cavc
