import Verif.Spec.Region

/-!
Polylines with arcs that cross clearly: conditions under which the tolerances of the segment tests do not matter.
They are stated by the geometry of the segments alone.
-/
namespace Cavc.Spec
noncomputable section

/-- `x` is on the line or the circle of the segment, and not further than the tolerance `ε` beyond the ends:
in the parameter for a straight segment, in twice the area of the triangles with the center for an arc. -/
def OnLonger (ε : ℝ) (v1 v2 : Vertex) (x : V2) : Prop :=
  (IsLine v1 ∧ ∃ t, -ε ≤ t ∧ t ≤ 1 + ε ∧ x = lerp v1.pos v2.pos t) ∨
  (¬ IsLine v1 ∧ ∃ c, IsCenter v1 v2 c ∧ OnCircle (distance v1.pos c) c x ∧ InSweep ε v1 v2 c x)

/-- Straight segments that are not almost parallel, or one of them is on one side of the other one. -/
def LinesClear (a b p q : V2) : Prop :=
  1 / 10 ^ 8 < |(b.x - a.x) * (q.y - p.y) - (b.y - a.y) * (q.x - p.x)| ∨ OneSide a b p q ∨ OneSide p q a b

/-- The segment from `a` to `b` is at least 1e-4 long, and its line is not almost tangent to the circle. -/
def LineCircleClear (a b c : V2) (r : ℝ) : Prop :=
  1 / 10 ^ 8 ≤ dist2 a b ∧ 1 / 10 ^ 8 ≤ 4 * |side a b c ^ 2 - r ^ 2 * dist2 a b|

/-- The circles are apart, or one is inside of the other one, or they cross at two points; all of it clearly. -/
def CirclesClear (c : V2) (r : ℝ) (d : V2) (s : ℝ) : Prop :=
  r + s + 1 / 10 ^ 8 < distance c d ∨ distance c d + 1 / 10 ^ 8 < |r - s| ∨
  (1 / 10 ^ 8 ≤ distance c d ∧ ∃ x y, (OnCircle r c x ∧ OnCircle s d x) ∧ (OnCircle r c y ∧ OnCircle s d y) ∧
    (2 / 10 ^ 8 ≤ |x.x - y.x| ∨ 2 / 10 ^ 8 ≤ |x.y - y.y|))

/-- The lines or circles of the two segments are not almost tangent or the same, and where they cross within
the tolerance of both segments the segments themselves do. -/
structure ClearPair (v1 v2 u1 u2 : Vertex) : Prop where
  lines : IsLine v1 → IsLine u1 → LinesClear v1.pos v2.pos u1.pos u2.pos
  lineArc : IsLine v1 → ¬ IsLine u1 → ∀ c, IsCenter u1 u2 c → LineCircleClear v1.pos v2.pos c (distance u1.pos c)
  arcLine : ¬ IsLine v1 → IsLine u1 → ∀ c, IsCenter v1 v2 c → LineCircleClear u1.pos u2.pos c (distance v1.pos c)
  arcs : ¬ IsLine v1 → ¬ IsLine u1 → ∀ c d, IsCenter v1 v2 c → IsCenter u1 u2 d →
    CirclesClear c (distance v1.pos c) d (distance u1.pos d)
  exact : ∀ x, OnLonger (1 / 10 ^ 8) v1 v2 x → OnLonger (1 / 10 ^ 8) u1 u2 x → OnSeg v1 v2 x ∧ OnSeg u1 u2 x

/-- `x`, at parameter `t` of the segment from `v` to `e`, is an end of it or on the other polyline. -/
def EndOrMeet (q : Polyline) (v e : Vertex) (t : ℝ) (x : V2) : Prop :=
  0 ≤ t ∧ t ≤ 1 ∧ AtParam v e t x ∧ (t = 0 ∨ t = 1 ∨ OnPline q x)

/-- On each segment of `p` the ends and the points where it meets `q` are apart: by 1e-5 in a coordinate and, on
an arc, by 1e-4 radians. -/
def Separated (p q : Polyline) : Prop :=
  ∀ k v e t t' x x', IsSeg p k v e → EndOrMeet q v e t x → EndOrMeet q v e t' x' → t < t' →
    ¬ Near (1 / 10 ^ 5) x x' ∧ (¬ IsLine v → 1 / 10 ^ 4 ≤ (t' - t) * |sweep v|)

/-- `x` is a common point of segment `i` of `A` and segment `j` of `B`. -/
def Common (A B : Polyline) (i j : ℕ) (x : V2) : Prop :=
  ∃ v1 v2 u1 u2, IsSeg A i v1 v2 ∧ IsSeg B j u1 u2 ∧ OnSeg v1 v2 x ∧ OnSeg u1 u2 x

/-- Two polylines cross clearly: no vertex of one is on the other one, the segments that come close to each other
cross clearly or not at all, and the crossings are apart from each other and from the vertexes. -/
structure CleanMeet (A B : Polyline) : Prop where
  pairs : ∀ i j v1 v2 u1 u2, IsSeg A i v1 v2 → IsSeg B j u1 u2 → BoxesClose (1 / 10 ^ 5) v1 v2 u1 u2 →
    ClearPair v1 v2 u1 u2
  vertexA : ∀ v ∈ A.vertexes, ¬ OnPline B v.pos
  vertexB : ∀ v ∈ B.vertexes, ¬ OnPline A v.pos
  alongA : Separated A B
  alongB : Separated B A
  apart : ∀ i j x i' j' x', Common A B i j x → Common A B i' j' x' → (i, j, x) ≠ (i', j', x') →
    ¬ Near (3 / 10 ^ 4) x x'

end
end Cavc.Spec
