import Verif.Model.Geom

/-!
Model of include/cavc/intrlineseg2lineseg2.hpp, intrlineseg2circle2.hpp, intrcircle2circle2.hpp and
plinesegment.hpp. Result structs whose fields are documented as undefined for some result kinds are
modelled by inductive types that carry only the defined fields.
-/
namespace Cavc
open scoped Classical
noncomputable section

/-! ### intrlineseg2lineseg2.hpp -/

/-- `LineSeg2LineSeg2IntrType` with `IntrLineSeg2LineSeg2Result`
(intrlineseg2lineseg2.hpp:7-28). -/
inductive LineLineResult where
  | none
  | trueIntr (point : V2)
  | coincident (t0 t1 : ℝ)
  | falseIntr (t0 t1 : ℝ) (point : V2)

/-- The lambda `isInSegment` (intrlineseg2lineseg2.hpp:47-58). -/
def isInSegment (pt segStart segEnd : V2) : Prop :=
  if fuzzyEqual segStart.x segEnd.x then
    fuzzyInRange (min segStart.y segEnd.y) pt.y (max segStart.y segEnd.y)
  else fuzzyInRange (min segStart.x segEnd.x) pt.x (max segStart.x segEnd.x)

/-- The overlap part of `intrLineSeg2LineSeg2`, neither segment a point
(intrlineseg2lineseg2.hpp:113-144). The divisors are at least 1e-8 in absolute value there. -/
def collinearOverlap (v1 v w w2 : V2) : LineLineResult :=
  let t0 := if |v.x| < realThreshold then w.y / v.y else w.x / v.x
  let t1 := if |v.x| < realThreshold then w2.y / v.y else w2.x / v.x
  let s0 := if t0 > t1 then t1 else t0
  let s1 := if t0 > t1 then t0 else t1
  if s0 > 1 + realThreshold ∨ s1 + realThreshold < 0 then .none
  else
    let s0 := max s0 0
    let s1 := min s1 1
    if |s1 - s0| < realThreshold then .trueIntr (v1 + s0 • v) else .coincident s0 s1

/-- `intrLineSeg2LineSeg2` (intrlineseg2lineseg2.hpp:30-150). -/
def intrLineSeg2LineSeg2 (u1 u2 v1 v2 : V2) : LineLineResult :=
  let u := u2 - u1
  let v := v2 - v1
  let d := perpDot u v
  let w := u1 - v1
  if |d| > realThreshold then
    let t0 := perpDot v w / d
    let t1 := perpDot u w / d
    let point := v1 + t1 • v
    if t0 + realThreshold < 0 ∨ t0 > 1 + realThreshold ∨
        t1 + realThreshold < 0 ∨ t1 > 1 + realThreshold then .falseIntr t0 t1 point
    else .trueIntr point
  else
    let a := perpDot u w
    let b := perpDot v w
    if |a| > realThreshold ∨ |b| > realThreshold then .none
    else if fuzzyEqualV u1 u2 ∧ fuzzyEqualV v1 v2 then
      if fuzzyEqualV u1 v1 then .trueIntr u1 else .none
    else if fuzzyEqualV u1 u2 then
      if isInSegment u1 v1 v2 then .trueIntr u1 else .none
    else if fuzzyEqualV v1 v2 then
      if isInSegment v1 u1 u2 then .trueIntr v1 else .none
    else collinearOverlap v1 v w (u2 - v1)

/-! ### intrlineseg2circle2.hpp -/

/-- `IntrLineSeg2Circle2Result` (intrlineseg2circle2.hpp:5-12). -/
inductive LineCircleResult where
  | none
  | one (t0 : ℝ)
  | two (t0 t1 : ℝ)

/-- `intrLineSeg2Circle2` (intrlineseg2circle2.hpp:19-66). -/
def intrLineSeg2Circle2 (p0 p1 : V2) (radius : ℝ) (circleCenter : V2) : M LineCircleResult :=
  let dx := p1.x - p0.x
  let dy := p1.y - p0.y
  let h := circleCenter.x
  let k := circleCenter.y
  let a := dx * dx + dy * dy
  if |a| < realThreshold then
    let xh := p0.x - h
    let yk := p0.y - k
    if fuzzyEqual (xh * xh + yk * yk) (radius * radius) then .ok (.one 0) else .ok .none
  else
    let b := 2 * (dx * (p0.x - h) + dy * (p0.y - k))
    let c := (p0.x * p0.x - 2 * h * p0.x + h * h) + (p0.y * p0.y - 2 * k * p0.y + k * k)
      - radius * radius
    let discr := b * b - 4 * a * c
    if |discr| < realThreshold then .ok (.one (-b / (2 * a)))
    else if discr < 0 then .ok .none
    else do
      let sols ← quadraticSolutions a b c discr
      .ok (.two sols.1 sols.2)

/-! ### intrcircle2circle2.hpp -/

/-- `Circle2Circle2IntrType` with `IntrCircle2Circle2Result` (intrcircle2circle2.hpp:5-23). -/
inductive CircleCircleResult where
  | noIntersect
  | one (point1 : V2)
  | two (point1 point2 : V2)
  | coincident

/-- `intrCircle2Circle2` (intrcircle2circle2.hpp:26-76). -/
def intrCircle2Circle2 (radius1 : ℝ) (center1 : V2) (radius2 : ℝ) (center2 : V2) :
    CircleCircleResult :=
  let cv := center2 - center1
  let d2 := dot cv cv
  let d := Real.sqrt d2
  if d < realThreshold then
    if fuzzyEqual radius1 radius2 then .coincident else .noIntersect
  else if d > radius1 + radius2 + realThreshold ∨ d + realThreshold < |radius1 - radius2| then
    .noIntersect
  else
    let rad1Sq := radius1 * radius1
    let a := (rad1Sq - radius2 * radius2 + d2) / (2 * d)
    let midPoint : V2 := ⟨center1.x + a * cv.x / d, center1.y + a * cv.y / d⟩
    let diff := rad1Sq - a * a
    if diff < 0 then .one midPoint
    else
      let h := Real.sqrt diff
      let hOverD := h / d
      let xTerm := hOverD * cv.y
      let yTerm := hOverD * cv.x
      let point1 : V2 := ⟨midPoint.x + xTerm, midPoint.y - yTerm⟩
      let point2 : V2 := ⟨midPoint.x - xTerm, midPoint.y + yTerm⟩
      if fuzzyEqualV point1 point2 then .one point1 else .two point1 point2

/-! ### plinesegment.hpp -/

/-- `PlineVertex` (plinesegment.hpp:13-42). -/
@[ext] structure Vertex where
  pos : V2
  bulge : ℝ

/-- `PlineVertex::bulgeIsZero` (plinesegment.hpp:29-31). -/
def Vertex.bulgeIsZero (v : Vertex) (epsilon : ℝ := realPrecision) : Prop := |v.bulge| < epsilon
/-- `PlineVertex::bulgeIsNeg` (plinesegment.hpp:33). -/
def Vertex.bulgeIsNeg (v : Vertex) : Prop := v.bulge < 0
/-- `PlineVertex::bulgeIsPos` (plinesegment.hpp:34). -/
def Vertex.bulgeIsPos (v : Vertex) : Prop := v.bulge > 0

/-- `AABB` (plinesegment.hpp:45-57). -/
@[ext] structure AABB where
  xMin : ℝ
  yMin : ℝ
  xMax : ℝ
  yMax : ℝ

/-- `AABB::expand` (plinesegment.hpp:51-56). -/
def AABB.expand (b : AABB) (val : ℝ) : AABB :=
  ⟨b.xMin - val, b.yMin - val, b.xMax + val, b.yMax + val⟩

/-- `ArcRadiusAndCenter` (plinesegment.hpp:60-63). -/
structure Arc where
  radius : ℝ
  center : V2

/-- The computation in `arcRadiusAndCenter` (plinesegment.hpp:72-89), without the assertions. -/
def arcOf (v1 v2 : Vertex) : Arc :=
  let b := |v1.bulge|
  let v := v2.pos - v1.pos
  let d := v.length
  let r := d * (b * b + 1) / (4 * b)
  let s := b * d / 2
  let m := r - s
  let offsX := -m * v.y / d
  let offsY := m * v.x / d
  let offsX' := if v1.bulgeIsNeg then -offsX else offsX
  let offsY' := if v1.bulgeIsNeg then -offsY else offsY
  ⟨r, ⟨v1.pos.x + v.x / 2 + offsX', v1.pos.y + v.y / 2 + offsY'⟩⟩

/-- `arcRadiusAndCenter` (plinesegment.hpp:66-90). -/
def arcRadiusAndCenter (v1 v2 : Vertex) : M Arc := do
  assertP (¬ v1.bulgeIsZero)
  assertP (¬ fuzzyEqualV v1.pos v2.pos)
  return arcOf v1 v2

/-- `SplitResult` (plinesegment.hpp:93-98). -/
structure SplitResult where
  updatedStart : Vertex
  splitVertex : Vertex

/-- `splitAtPoint` (plinesegment.hpp:101-131). -/
def splitAtPoint (v1 v2 : Vertex) (point : V2) : M SplitResult :=
  if v1.bulgeIsZero then .ok ⟨v1, ⟨point, 0⟩⟩
  else if fuzzyEqualV v1.pos v2.pos realPrecision ∨ fuzzyEqualV v1.pos point realPrecision then
    .ok ⟨⟨point, 0⟩, ⟨point, v1.bulge⟩⟩
  else if fuzzyEqualV v2.pos point realPrecision then .ok ⟨v1, ⟨v2.pos, 0⟩⟩
  else do
    let radiusAndCenter ← arcRadiusAndCenter v1 v2
    let arcCenter := radiusAndCenter.center
    let a := angle arcCenter point
    let arcStartAngle := angle arcCenter v1.pos
    let theta1 := deltaAngle arcStartAngle a
    let bulge1 := Real.tan (theta1 / 4)
    let arcEndAngle := angle arcCenter v2.pos
    let theta2 := deltaAngle a arcEndAngle
    let bulge2 := Real.tan (theta2 / 4)
    return ⟨⟨v1.pos, bulge1⟩, ⟨point, bulge2⟩⟩

/-- `segTangentVector` (plinesegment.hpp:133-148). -/
def segTangentVector (v1 v2 : Vertex) (pointOnSeg : V2) : M V2 :=
  if v1.bulgeIsZero then .ok (v2.pos - v1.pos)
  else do
    let arc ← arcRadiusAndCenter v1 v2
    if v1.bulgeIsPos then
      return ⟨-(pointOnSeg.y - arc.center.y), pointOnSeg.x - arc.center.x⟩
    else return ⟨pointOnSeg.y - arc.center.y, -(pointOnSeg.x - arc.center.x)⟩

/-- `closestPointOnSeg` (plinesegment.hpp:151-180). -/
def closestPointOnSeg (v1 v2 : Vertex) (point : V2) : M V2 :=
  if v1.bulgeIsZero then .ok (closestPointOnLineSeg v1.pos v2.pos point)
  else do
    let arc ← arcRadiusAndCenter v1 v2
    if fuzzyEqualV point arc.center then return v1.pos
    else do
      let within ← pointWithinArcSweepAngle arc.center v1.pos v2.pos v1.bulge point
      if within then do
        let vToPoint ← normalizeV (point - arc.center)
        return arc.radius • vToPoint + arc.center
      else if distSquared v1.pos point < distSquared v2.pos point then return v1.pos
      else return v2.pos

/-- `createFastApproxBoundingBox` (plinesegment.hpp:184-260). -/
def createFastApproxBoundingBox (v1 v2 : Vertex) : AABB :=
  if v1.bulgeIsZero then
    { xMin := if v1.pos.x < v2.pos.x then v1.pos.x else v2.pos.x
      xMax := if v1.pos.x < v2.pos.x then v2.pos.x else v1.pos.x
      yMin := if v1.pos.y < v2.pos.y then v1.pos.y else v2.pos.y
      yMax := if v1.pos.y < v2.pos.y then v2.pos.y else v1.pos.y }
  else
    let b := v1.bulge
    let offsX := b * (v2.pos.y - v1.pos.y) / 2
    let offsY := -b * (v2.pos.x - v1.pos.x) / 2
    let pt1X := v1.pos.x + offsX
    let pt2X := v2.pos.x + offsX
    let pt1Y := v1.pos.y + offsY
    let pt2Y := v2.pos.y + offsY
    let endPointXMin := if v1.pos.x < v2.pos.x then v1.pos.x else v2.pos.x
    let endPointXMax := if v1.pos.x < v2.pos.x then v2.pos.x else v1.pos.x
    let ptXMin := if pt1X < pt2X then pt1X else pt2X
    let ptXMax := if pt1X < pt2X then pt2X else pt1X
    let endPointYMin := if v1.pos.y < v2.pos.y then v1.pos.y else v2.pos.y
    let endPointYMax := if v1.pos.y < v2.pos.y then v2.pos.y else v1.pos.y
    let ptYMin := if pt1Y < pt2Y then pt1Y else pt2Y
    let ptYMax := if pt1Y < pt2Y then pt2Y else pt1Y
    { xMin := min endPointXMin ptXMin
      yMin := min endPointYMin ptYMin
      xMax := max endPointXMax ptXMax
      yMax := max endPointYMax ptYMax }

/-- `segLength` (plinesegment.hpp:263-276). -/
def segLength (v1 v2 : Vertex) : M ℝ :=
  if fuzzyEqualV v1.pos v2.pos then .ok 0
  else if v1.bulgeIsZero then .ok (Real.sqrt (distSquared v1.pos v2.pos))
  else do
    let arc ← arcRadiusAndCenter v1 v2
    let startAngle := angle arc.center v1.pos
    let endAngle := angle arc.center v2.pos
    return |arc.radius * deltaAngle startAngle endAngle|

/-- `segMidpoint` (plinesegment.hpp:279-292). -/
def segMidpoint (v1 v2 : Vertex) : M V2 :=
  if v1.bulgeIsZero then .ok (midpoint v1.pos v2.pos)
  else do
    let arc ← arcRadiusAndCenter v1 v2
    let a1 := angle arc.center v1.pos
    let a2 := angle arc.center v2.pos
    let angleOffset := |deltaAngle a1 a2 / 2|
    let midAngle := if v1.bulgeIsPos then a1 + angleOffset else a1 - angleOffset
    return pointOnCircle arc.radius arc.center midAngle

/-- `PlineSegIntrType` with `IntrPlineSegsResult` (plinesegment.hpp:294-307); `TangentIntersect` is
never produced by the code. -/
inductive SegIntr where
  | noIntersect
  | oneIntersect (point1 : V2)
  | twoIntersects (point1 point2 : V2)
  | segmentOverlap (point1 point2 : V2)
  | arcOverlap (point1 point2 : V2)

/-- The lambda `pointInSweep` (plinesegment.hpp:323-332); `none` for `first == false`. -/
def pointInSweep (p0 p1 : V2) (arc : Arc) (a1 a2 : Vertex) (t : ℝ) : M (Option V2) :=
  if t + realThreshold < 0 ∨ t > 1 + realThreshold then .ok none
  else do
    let p := pointFromParametric p0 p1 t
    let withinSweep ← pointWithinArcSweepAngle arc.center a1.pos a2.pos a1.bulge p
    return if withinSweep then some p else none

/-- The lambda `processLineArcIntr` (plinesegment.hpp:317-363). -/
def processLineArcIntr (p0 p1 : V2) (a1 a2 : Vertex) : M SegIntr := do
  let arc ← arcRadiusAndCenter a1 a2
  let intrResult ← intrLineSeg2Circle2 p0 p1 arc.radius arc.center
  match intrResult with
  | .none => return .noIntersect
  | .one t0 => do
    match ← pointInSweep p0 p1 arc a1 a2 t0 with
    | some p => return .oneIntersect p
    | none => return .noIntersect
  | .two t0 t1 => do
    let r1 ← pointInSweep p0 p1 arc a1 a2 t0
    let r2 ← pointInSweep p0 p1 arc a1 a2 t1
    match r1, r2 with
    | some q1, some q2 => return .twoIntersects q1 q2
    | some q1, none => return .oneIntersect q1
    | none, some q2 => return .oneIntersect q2
    | none, none => return .noIntersect

/-- The lambda `startAndSweepAngle` (plinesegment.hpp:394-398). -/
def startAndSweepAngle (sp center : V2) (bulge : ℝ) : ℝ × ℝ :=
  (normalizeRadians (angle center sp), 4 * Real.arctan bulge)

/-- The lambda `bothArcsSweepPoint` (plinesegment.hpp:400-403). -/
def bothArcsSweepPoint (v1 v2 u1 u2 : Vertex) (arc1 arc2 : Arc) (pt : V2) : M Bool := do
  let a ← pointWithinArcSweepAngle arc1.center v1.pos v2.pos v1.bulge pt
  if a then pointWithinArcSweepAngle arc2.center u1.pos u2.pos u1.bulge pt else return false

/-- The coincident circles case (plinesegment.hpp:436-495). -/
def coincidentArcs (v1 v2 u1 u2 : Vertex) (arc1 arc2 : Arc) : SegIntr :=
  let s1 := startAndSweepAngle v1.pos arc1.center v1.bulge
  let s2 := if v1.bulgeIsNeg ↔ u1.bulgeIsNeg then startAndSweepAngle u1.pos arc2.center u1.bulge
    else startAndSweepAngle u2.pos arc2.center (-u1.bulge)
  let arc1End := s1.1 + s1.2
  let arc2End := s2.1 + s2.2
  if |deltaAngle s1.1 arc2End| < realThreshold then .oneIntersect v1.pos
  else if |deltaAngle s2.1 arc1End| < realThreshold then .oneIntersect u1.pos
  else if angleIsWithinSweep s1.1 s1.2 s2.1 ∧ angleIsWithinSweep s1.1 s1.2 arc2End then
    .arcOverlap u1.pos u2.pos
  else if angleIsWithinSweep s1.1 s1.2 s2.1 then .arcOverlap u1.pos v2.pos
  else if angleIsWithinSweep s1.1 s1.2 arc2End then .arcOverlap v1.pos u2.pos
  else if angleIsWithinSweep s2.1 s2.2 s1.1 then .arcOverlap v1.pos v2.pos
  else .noIntersect

/-- The arc-arc case (plinesegment.hpp:390-496). -/
def processArcArcIntr (v1 v2 u1 u2 : Vertex) : M SegIntr := do
  let arc1 ← arcRadiusAndCenter v1 v2
  let arc2 ← arcRadiusAndCenter u1 u2
  match intrCircle2Circle2 arc1.radius arc1.center arc2.radius arc2.center with
  | .noIntersect => return .noIntersect
  | .one p => do
    if ← bothArcsSweepPoint v1 v2 u1 u2 arc1 arc2 p then return .oneIntersect p
    else return .noIntersect
  | .two p q => do
    let pt1InSweep ← bothArcsSweepPoint v1 v2 u1 u2 arc1 arc2 p
    let pt2InSweep ← bothArcsSweepPoint v1 v2 u1 u2 arc1 arc2 q
    if pt1InSweep && pt2InSweep then return .twoIntersects p q
    else if pt1InSweep then return .oneIntersect p
    else if pt2InSweep then return .oneIntersect q
    else return .noIntersect
  | .coincident => return coincidentArcs v1 v2 u1 u2 arc1 arc2

/-- `intrPlineSegs` (plinesegment.hpp:309-500). -/
def intrPlineSegs (v1 v2 u1 u2 : Vertex) : M SegIntr :=
  if v1.bulgeIsZero ∧ u1.bulgeIsZero then
    match intrLineSeg2LineSeg2 v1.pos v2.pos u1.pos u2.pos with
    | .none => .ok .noIntersect
    | .trueIntr p => .ok (.oneIntersect p)
    | .coincident t0 t1 =>
      .ok (.segmentOverlap (pointFromParametric u1.pos u2.pos t0)
        (pointFromParametric u1.pos u2.pos t1))
    | .falseIntr _ _ _ => .ok .noIntersect
  else if v1.bulgeIsZero then processLineArcIntr v1.pos v2.pos u1 u2
  else if u1.bulgeIsZero then processLineArcIntr u1.pos u2.pos v1 v2
  else processArcArcIntr v1 v2 u1 u2

end
end Cavc
