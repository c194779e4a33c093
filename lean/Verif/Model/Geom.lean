import Verif.Model.Basic
import Mathlib.Analysis.SpecialFunctions.Complex.Arg
import Mathlib.Analysis.SpecialFunctions.Trigonometric.Arctan
import Mathlib.Algebra.Order.Archimedean.Real.Basic

/-!
Model of include/cavc/mathutils.hpp, vector.hpp (N = 2) and vector2.hpp.

`Real` is ℝ: rounding of double arithmetic is not modelled. Tests are `Prop`s, decided classically.
-/
namespace Cavc
open scoped Classical
noncomputable section

/-! ### mathutils.hpp -/

/-- `realThreshold` (mathutils.hpp:10). -/
def realThreshold : ℝ := 1 / 10 ^ 8
/-- `realPrecision` (mathutils.hpp:14). -/
def realPrecision : ℝ := 1 / 10 ^ 5
/-- `sliceJoinThreshold` (mathutils.hpp:17). -/
def sliceJoinThreshold : ℝ := 1 / 10 ^ 4
/-- `offsetThreshold` (mathutils.hpp:20). -/
def offsetThreshold : ℝ := 1 / 10 ^ 4
/-- `tau` (mathutils.hpp:24); `pi` (mathutils.hpp:22) is `Real.pi`. -/
def tau : ℝ := 2 * Real.pi

/-- `utils::fuzzyEqual` (mathutils.hpp:26-28). -/
def fuzzyEqual (x y : ℝ) (epsilon : ℝ := realThreshold) : Prop := |x - y| < epsilon

/-- `utils::fuzzyInRange` (mathutils.hpp:30-33). -/
def fuzzyInRange (minValue value maxValue : ℝ) (epsilon : ℝ := realThreshold) : Prop :=
  value + epsilon > minValue ∧ value < maxValue + epsilon

/-- `utils::normalizeRadians` (mathutils.hpp:36-42). -/
def normalizeRadians (angle : ℝ) : ℝ :=
  if angle ≥ 0 ∧ angle ≤ tau then angle
  else angle - (⌊angle / tau⌋ : ℝ) * tau

/-- `utils::deltaAngle` (mathutils.hpp:45-52). -/
def deltaAngle (angle1 angle2 : ℝ) : ℝ :=
  let diff := normalizeRadians (angle2 - angle1)
  if diff > Real.pi then diff - tau else diff

/-- `utils::angleIsBetween` (mathutils.hpp:55-62). -/
def angleIsBetween (startAngle endAngle testAngle : ℝ) (epsilon : ℝ := realThreshold) : Prop :=
  let endSweep := normalizeRadians (endAngle - startAngle)
  let midSweep := normalizeRadians (testAngle - startAngle)
  midSweep < endSweep + epsilon

/-- `utils::angleIsWithinSweep` (mathutils.hpp:64-73). -/
def angleIsWithinSweep (startAngle sweepAngle testAngle : ℝ) (epsilon : ℝ := realThreshold) :
    Prop :=
  let endAngle := startAngle + sweepAngle
  if sweepAngle < 0 then angleIsBetween endAngle startAngle testAngle epsilon
  else angleIsBetween startAngle endAngle testAngle epsilon

/-- `utils::quadraticSolutions` (mathutils.hpp:76-96). A square root of a negative number and a
division by zero are faults here (NaN/inf in the code). -/
def quadraticSolutions (a b c discr : ℝ) : M (ℝ × ℝ) := do
  assertP (fuzzyEqual (b * b - 4 * a * c) discr)
  if discr < 0 then .error .badCast
  else if a = 0 then .error .divByZero
  else
    let sqrtDiscr := Real.sqrt discr
    let denom := 2 * a
    let sol1 := if b < 0 then (-b + sqrtDiscr) / denom else (-b - sqrtDiscr) / denom
    if sol1 = 0 then .error .divByZero
    else
      let sol2 := (c / a) / sol1
      .ok (sol1, sol2)

/-- `utils::nextWrappingIndex` (mathutils.hpp:98-104), of a container of `size` elements. -/
def nextWrappingIndex (index size : ℕ) : ℕ := if index = size - 1 then 0 else index + 1

/-- `utils::prevWrappingIndex` (mathutils.hpp:106-112). -/
def prevWrappingIndex (index size : ℕ) : ℕ := if index = 0 then size - 1 else index - 1

/-! ### vector.hpp, vector2.hpp -/

/-- `Vector2<Real>` (vector2.hpp:7, vector.hpp:7). -/
@[ext] structure V2 where
  x : ℝ
  y : ℝ

/-- `operator+` (vector.hpp:146-150). -/
instance : Add V2 := ⟨fun a b => ⟨a.x + b.x, a.y + b.y⟩⟩
/-- Binary `operator-` (vector.hpp:152-156). -/
instance : Sub V2 := ⟨fun a b => ⟨a.x - b.x, a.y - b.y⟩⟩
/-- Unary `operator-` (vector.hpp:138-144). -/
instance : Neg V2 := ⟨fun a => ⟨-a.x, -a.y⟩⟩
/-- Scalar `operator*` (vector.hpp:161-171). -/
instance : SMul ℝ V2 := ⟨fun t a => ⟨t * a.x, t * a.y⟩⟩

@[simp] theorem V2.add_x (a b : V2) : (a + b).x = a.x + b.x := rfl
@[simp] theorem V2.add_y (a b : V2) : (a + b).y = a.y + b.y := rfl
@[simp] theorem V2.sub_x (a b : V2) : (a - b).x = a.x - b.x := rfl
@[simp] theorem V2.sub_y (a b : V2) : (a - b).y = a.y - b.y := rfl
@[simp] theorem V2.neg_x (a : V2) : (-a).x = -a.x := rfl
@[simp] theorem V2.neg_y (a : V2) : (-a).y = -a.y := rfl
@[simp] theorem V2.smul_x (t : ℝ) (a : V2) : (t • a).x = t * a.x := rfl
@[simp] theorem V2.smul_y (t : ℝ) (a : V2) : (t • a).y = t * a.y := rfl

/-- `dot` (vector.hpp:246-252). -/
def dot (a b : V2) : ℝ := a.x * b.x + a.y * b.y

/-- `length` (vector.hpp:255-257). -/
def V2.length (v : V2) : ℝ := Real.sqrt (dot v v)

/-- `fuzzyZero` (vector.hpp:112-120). -/
def fuzzyZeroV (v : V2) (epsilon : ℝ := realThreshold) : Prop := |v.x| < epsilon ∧ |v.y| < epsilon

/-- `fuzzyEqual` of vectors (vector.hpp:122-132). -/
def fuzzyEqualV (a b : V2) (epsilon : ℝ := realThreshold) : Prop :=
  fuzzyEqual a.x b.x epsilon ∧ fuzzyEqual a.y b.y epsilon

/-- `normalize` (vector.hpp:259-264), returning the normalised vector. The assertion excludes the
zero vector, so the division is defined. -/
def normalizeV (v : V2) : M V2 := do
  assertP (¬ fuzzyZeroV v)
  let length := Real.sqrt (dot v v)
  return ⟨v.x / length, v.y / length⟩

/-- `perp` (vector2.hpp:10-12). -/
def perp (v : V2) : V2 := ⟨-v.y, v.x⟩

/-- `unitPerp` (vector2.hpp:15-19). -/
def unitPerp (v : V2) : M V2 := normalizeV ⟨-v.y, v.x⟩

/-- `perpDot` (vector2.hpp:22-24). -/
def perpDot (v0 v1 : V2) : ℝ := v0.x * v1.y - v0.y * v1.x

/-- `distSquared` (vector2.hpp:27-30). -/
def distSquared (p0 p1 : V2) : ℝ := dot (p1 - p0) (p1 - p0)

/-- `angle` (vector2.hpp:33-35): `std::atan2(dy, dx)` is the argument of `dx + i dy` (also 0 at the
zero vector). -/
def angle (p0 p1 : V2) : ℝ := Complex.arg ⟨p1.x - p0.x, p1.y - p0.y⟩

/-- `midpoint` (vector2.hpp:38-40). -/
def midpoint (p0 p1 : V2) : V2 := ⟨(p0.x + p1.x) / 2, (p0.y + p1.y) / 2⟩

/-- `pointOnCircle` (vector2.hpp:43-47). -/
def pointOnCircle (radius : ℝ) (center : V2) (angle : ℝ) : V2 :=
  ⟨center.x + radius * Real.cos angle, center.y + radius * Real.sin angle⟩

/-- `pointFromParametric` (vector2.hpp:50-53). -/
def pointFromParametric (p0 p1 : V2) (t : ℝ) : V2 := p0 + t • (p1 - p0)

/-- `closestPointOnLineSeg` (vector2.hpp:56-76). -/
def closestPointOnLineSeg (p0 p1 point : V2) : V2 :=
  let v := p1 - p0
  let w := point - p0
  let c1 := dot w v
  if c1 < realThreshold then p0
  else
    let c2 := dot v v
    if c2 < c1 + realThreshold then p1
    else
      let b := c1 / c2
      p0 + b • v

/-- The cross product compared by the `isLeft` family (vector2.hpp:80-81). -/
def cross (p0 p1 point : V2) : ℝ :=
  (p1.x - p0.x) * (point.y - p0.y) - (p1.y - p0.y) * (point.x - p0.x)

/-- `isLeft` (vector2.hpp:79-83). -/
def isLeft (p0 p1 point : V2) : Prop := cross p0 p1 point > 0
/-- `isLeftOrEqual` (vector2.hpp:86-90). -/
def isLeftOrEqual (p0 p1 point : V2) : Prop := cross p0 p1 point ≥ 0
/-- `isLeftOrCoincident` (vector2.hpp:94-99). -/
def isLeftOrCoincident (p0 p1 point : V2) (epsilon : ℝ := realThreshold) : Prop :=
  cross p0 p1 point > -epsilon
/-- `isRightOrCoincident` (vector2.hpp:103-108). -/
def isRightOrCoincident (p0 p1 point : V2) (epsilon : ℝ := realThreshold) : Prop :=
  cross p0 p1 point < epsilon

/-- `pointWithinArcSweepAngle` (vector2.hpp:111-124). -/
def pointWithinArcSweepAngle (center arcStart arcEnd : V2) (bulge : ℝ) (point : V2) : M Bool := do
  assertP (|bulge| > realThreshold)
  assertP (|bulge| ≤ 1)
  if bulge > 0 then
    return decide (isLeftOrCoincident center arcStart point ∧ isRightOrCoincident center arcEnd point)
  else
    return decide (isRightOrCoincident center arcStart point ∧ isLeftOrCoincident center arcEnd point)

end
end Cavc
