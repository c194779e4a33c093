import Verif.Spec.OffsetPolygon
import Verif.Spec.OffsetPieces
import Verif.Spec.OffsetJoin
import Verif.Spec.ArcRegion

/-!
The parallel curve of a smooth polyline: every point is moved by the same distance along the normal there.
-/
namespace Cavc.Spec
noncomputable section

/-- The segment from `w1` to `w2` is the one from `v1` to `v2` with each point moved by `offset` along the left normal
there, and it has the same bulge. -/
def ParallelSeg (offset : ℝ) (v1 v2 w1 w2 : Vertex) : Prop :=
  w1.bulge = v1.bulge ∧ ∀ γ γ' t n, IsPath v1 v2 γ → IsPath w1 w2 γ' → LeftNormal γ t n → γ' t = γ t + offset • n

/-- `q` is the closed curve parallel to the closed curve `p`, segment by segment. There is one (for an offset other than
zero) only if `p` has no corners. -/
structure ParallelTo (offset : ℝ) (p q : Polyline) : Prop where
  closed : p.isClosed = true
  closed' : q.isClosed = true
  length : q.vertexes.length = p.vertexes.length
  segs : ∀ i v1 v2 w1 w2, IsSeg p i v1 v2 → IsSeg q i w1 w2 → ParallelSeg offset v1 v2 w1 w2

/-- Neither two lines in sequence (in a smooth curve the vertex between them is not needed) nor segments so short that
the tolerances matter: lines of at least 1e-4, arcs with end points more than 1e-5 apart. -/
structure NotTiny (p : Polyline) : Prop where
  notBoth : ∀ i j v1 v2 v3, IsSeg p i v1 v2 → IsSeg p j v2 v3 → j = (i + 1) % p.vertexes.length → ¬ (IsLine v1 ∧ IsLine v2)
  zero : ∀ v ∈ p.vertexes, IsLine v → v.bulge = 0
  lines : ∀ i v1 v2, IsSeg p i v1 v2 → IsLine v1 → 1 / 10 ^ 4 ≤ distance v1.pos v2.pos
  apart : ∀ i v1 v2, IsSeg p i v1 v2 → ¬ Near (1 / 10 ^ 5) v1.pos v2.pos

/-- The curve does not come close to itself: consecutive arcs are on different circles, and segments without a common
vertex have boxes that are apart or are clearly without common points. -/
structure KeepsApart (p : Polyline) : Prop where
  circles : ∀ i j v1 v2 v3, IsSeg p i v1 v2 → IsSeg p j v2 v3 → j = (i + 1) % p.vertexes.length → ¬ IsLine v1 → ¬ IsLine v2 →
    ∀ c d, IsCenter v1 v2 c → IsCenter v2 v3 d → ¬ SameCircles (distance v1.pos c) c (distance v2.pos d) d
  pairs : ∀ i j v1 v2 u1 u2, IsSeg p i v1 v2 → IsSeg p j u1 u2 → NonAdjacent p i j → ¬ BoxesClose (1 / 10 ^ 8) v1 v2 u1 u2 ∨
    (ClearPair v1 v2 u1 u2 ∧ ∀ x, ¬ (OnSeg v1 v2 x ∧ OnSeg u1 u2 x))

/-- The closed polyline written down from its vertex `m`. -/
def startAt (m : ℕ) (p : Polyline) : Polyline := ⟨p.isClosed, p.vertexes.rotate m⟩

/-- `x` is exactly in the sector of an arc, or it is not in it even with the tolerance of the library (lines always qualify). -/
def SectorDecided (v1 v2 : Vertex) (x : V2) : Prop :=
  IsLine v1 ∨ ∀ c, IsCenter v1 v2 c →
    (0 < v1.bulge ∧ 0 ≤ side c v1.pos x ∧ side c v2.pos x ≤ 0) ∨ (v1.bulge < 0 ∧ side c v1.pos x ≤ 0 ∧ 0 ≤ side c v2.pos x) ∨
    ¬ InSweep (1 / 10 ^ 8) v1 v2 c x

/-- What is asked of the curve `q` parallel to `p` at distance `d`: no tiny segments, it keeps apart from itself, and its first
vertex is not closer to `p` than `d` (and decidedly in or out of the sectors of the arcs of `p`). -/
structure Roomy (d : ℝ) (p q : Polyline) : Prop where
  tiny : NotTiny q
  keeps : KeepsApart q
  first : ∃ first, q.vertexes.head? = some first ∧ NotCloser p d first.pos ∧
    ∀ i v1 v2, IsSeg p i v1 v2 → SectorDecided v1 v2 first.pos

/-- The segments of the curves have boxes that are apart, or clearly have no common points. -/
def NeverMeet (p q : Polyline) : Prop :=
  ∀ i j v1 v2 u1 u2, IsSeg p i v1 v2 → IsSeg q j u1 u2 → BoxesClose (1 / 10 ^ 5) v1 v2 u1 u2 →
    ClearPair v1 v2 u1 u2 ∧ ∀ x, ¬ (OnSeg v1 v2 x ∧ OnSeg u1 u2 x)

/-- A closed curve `p` without corners, counter clockwise for `s = 1` and clockwise for `s = -1`, and the parallel curve `q`,
which goes around in the same direction and keeps apart from itself and from `p`. -/
structure SmoothLoop (d s : ℝ) (p q : Polyline) : Prop where
  parallel : ParallelTo d p q
  three : 3 ≤ p.vertexes.length
  few : p.vertexes.length ≤ 2 ^ 24
  bulges : BulgesOk p
  tiny : NotTiny p
  arcs : ∀ i v1 v2, IsSeg p i v1 v2 → ¬ Collapses d v1 v2
  roomy : Roomy d p q
  turns : ∃ a, getArea p = .ok a ∧ 0 < s * a
  turns' : ∃ a, getArea q = .ok a ∧ 0 < s * a

/-- The circle of radius `r` about `c` as two half circles, the first one from the point in direction `e`; counter clockwise
for `σ = 1`, clockwise for `σ = -1`. -/
def twoHalves (c e : V2) (r σ : ℝ) : Polyline :=
  ⟨true, [⟨⟨c.x + r * e.x, c.y + r * e.y⟩, σ⟩, ⟨⟨c.x - r * e.x, c.y - r * e.y⟩, σ⟩]⟩

open scoped Classical in
/-- By how much the direction turns along the segments, counter clockwise: the angles of the arcs. Vertexes add nothing, so
without corners this is a multiple of a full turn. -/
def totalTurn (p : Polyline) : ℝ := ((segs p).map fun s => if IsLine s.1 then 0 else sweep s.1).sum

/-- A circle of which is known where and in which direction (`1` counter clockwise, `-1` clockwise) it starts. -/
structure RoundLoop where
  center : V2
  dir : V2
  radius : ℝ
  sign : ℝ

/-- The circle as a closed polyline of two half circles. -/
def RoundLoop.polyline (k : RoundLoop) : Polyline := twoHalves k.center k.dir k.radius k.sign

/-- The circle with the offset `d` to the left: smaller if it is counter clockwise, larger if it is clockwise. -/
def RoundLoop.offset (d : ℝ) (k : RoundLoop) : RoundLoop := { k with radius := k.radius - k.sign * d }

/-- What is asked of a circle: a unit direction, a sign, and a radius that is large enough also with the offset. -/
structure RoundLoopOk (d : ℝ) (k : RoundLoop) : Prop where
  sign : k.sign = 1 ∨ k.sign = -1
  unit : k.dir.x ^ 2 + k.dir.y ^ 2 = 1
  radius : 1 / 10 ^ 4 ≤ k.radius
  left : 1 / 10 ^ 4 ≤ k.radius - k.sign * d

/-- Two circles have room for `d` on both sides between them: they are outside of each other, or one is inside of the
other one. -/
def Room (d : ℝ) (k k' : RoundLoop) : Prop :=
  k.radius + k'.radius + 2 * d + 1 / 10 ^ 4 ≤ distance k.center k'.center ∨
  distance k.center k'.center + 2 * d + 1 / 10 ^ 4 ≤ |k.radius - k'.radius|

/-- `z` is on the circle. -/
def RoundLoop.Has (k : RoundLoop) (z : V2) : Prop := distance z k.center = k.radius

/-- `z` is a common point of the two circles or a vertex of one of them. -/
def CrossMark (A B : RoundLoop) (z : V2) : Prop :=
  (A.Has z ∧ B.Has z) ∨ ∃ v ∈ A.polyline.vertexes ++ B.polyline.vertexes, z = v.pos

/-- The circles cross at two points, and these and the vertexes are apart from each other, by a thousandth of the sizes. -/
structure CrossClearly (A B : RoundLoop) : Prop where
  two : ∃ x y, x ≠ y ∧ (A.Has x ∧ B.Has x) ∧ (A.Has y ∧ B.Has y)
  centers : 1 / 10 ^ 8 ≤ distance A.center B.center
  vertexA : ∀ v ∈ A.polyline.vertexes, ¬ B.Has v.pos
  vertexB : ∀ v ∈ B.polyline.vertexes, ¬ A.Has v.pos
  gap : ∀ z w, CrossMark A B z → CrossMark A B w → z ≠ w → (1 + A.radius + B.radius) / 1000 ≤ distance z w

end
end Cavc.Spec
