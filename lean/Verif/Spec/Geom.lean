import Verif.Model.Segment
import Mathlib.MeasureTheory.Integral.IntervalIntegral.Basic
import Mathlib.Analysis.Calculus.Deriv.Basic

/-!
What a polyline segment is, independently of the code: a vertex with bulge `b` followed by a vertex
at `Q` is the straight segment `P Q` if `|b| < 1e-5`, and otherwise the circular arc that starts at
`P`, turns by the angle `4 arctan b` (counter clockwise if positive) about a fixed center and ends
at `Q`. Only the data types `V2`, `Vertex` of the model are used.
-/
namespace Cavc.Spec
noncomputable section

/-- Rotation of `p` about `c` by `θ`. -/
def rot (c : V2) (θ : ℝ) (p : V2) : V2 :=
  ⟨c.x + (p.x - c.x) * Real.cos θ - (p.y - c.y) * Real.sin θ,
   c.y + (p.x - c.x) * Real.sin θ + (p.y - c.y) * Real.cos θ⟩

/-- Point of the straight segment. -/
def lerp (p q : V2) (t : ℝ) : V2 := ⟨p.x + t * (q.x - p.x), p.y + t * (q.y - p.y)⟩

/-- The segment that starts at this vertex is straight. -/
def IsLine (v : Vertex) : Prop := |v.bulge| < 1 / 10 ^ 5

/-- The sweep of the arc that starts at this vertex. -/
def sweep (v : Vertex) : ℝ := 4 * Real.arctan v.bulge

/-- `c` is the center of the arc: turning the start point about it by the sweep gives the end. -/
def IsCenter (v1 v2 : Vertex) (c : V2) : Prop := rot c (sweep v1) v1.pos = v2.pos

/-- `p` is the point of the segment from `v1` to `v2` at parameter `t` (0 at `v1`, 1 at `v2`). -/
def AtParam (v1 v2 : Vertex) (t : ℝ) (p : V2) : Prop :=
  (IsLine v1 ∧ p = lerp v1.pos v2.pos t) ∨
  (¬ IsLine v1 ∧ ∃ c, IsCenter v1 v2 c ∧ p = rot c (t * sweep v1) v1.pos)

/-- `p` is on the segment from `v1` to `v2`. -/
def OnSeg (v1 v2 : Vertex) (p : V2) : Prop := ∃ t, 0 ≤ t ∧ t ≤ 1 ∧ AtParam v1 v2 t p

/-- Squared distance. -/
def dist2 (p q : V2) : ℝ := (p.x - q.x) ^ 2 + (p.y - q.y) ^ 2

/-- Distance. -/
def distance (p q : V2) : ℝ := Real.sqrt (dist2 p q)

/-- The segments the library is meant for: straight, or an arc of at most a half circle whose end
points differ by at least 1e-8 in some coordinate. -/
structure SegOk (v1 v2 : Vertex) : Prop where
  half : |v1.bulge| ≤ 1
  distinct : ¬ IsLine v1 → 1 / 10 ^ 8 ≤ |v1.pos.x - v2.pos.x| ∨ 1 / 10 ^ 8 ≤ |v1.pos.y - v2.pos.y|

/-- Twice the signed area of the triangle `a b p`: positive if `p` is to the left of the line from
`a` to `b`; `|a b|` times the distance of `p` from that line in absolute value. -/
def side (a b p : V2) : ℝ := (b.x - a.x) * (p.y - a.y) - (b.y - a.y) * (p.x - a.x)

/-- `p` is, seen from `c`, in the sector between the ends of the arc, up to `ε` in twice the area of
the triangles that `c` and `p` span with the ends. -/
def InSweep (ε : ℝ) (v1 v2 : Vertex) (c p : V2) : Prop :=
  (0 < v1.bulge ∧ -ε < side c v1.pos p ∧ side c v2.pos p < ε) ∨
  (v1.bulge < 0 ∧ side c v1.pos p < ε ∧ -ε < side c v2.pos p)

/-- `p` is on the arc, or at most `1e-8` radians about the center `c` past one of its ends. -/
def NearArc (v1 v2 : Vertex) (c p : V2) : Prop :=
  ∃ q η, OnSeg v1 v2 q ∧ |η| ≤ 1 / 10 ^ 8 ∧ p = rot c η q

/-- `p` is on the segment or, for arcs, at most 1e-8 radians about the center past an end. -/
def NearSeg (v1 v2 : Vertex) (p : V2) : Prop :=
  OnSeg v1 v2 p ∨ (¬ IsLine v1 ∧ ∃ c, IsCenter v1 v2 c ∧ NearArc v1 v2 c p)

/-- `p` is on the circle. -/
def OnCircle (r : ℝ) (c p : V2) : Prop := dist2 p c = r ^ 2

/-- The points a segment intersect result reports. -/
def Reports : SegIntr → V2 → Prop
  | .noIntersect, _ => False
  | .oneIntersect q, p => p = q
  | .twoIntersects q r, p => p = q ∨ p = r
  | .segmentOverlap q r, p => p = q ∨ p = r
  | .arcOverlap q r, p => p = q ∨ p = r

/-- `γ` runs through the segment: `γ t` is its point at parameter `t`. -/
def IsPath (v1 v2 : Vertex) (γ : ℝ → V2) : Prop := ∀ t, AtParam v1 v2 t (γ t)

/-- The velocity of a plane curve. -/
def velocity (γ : ℝ → V2) (t : ℝ) : V2 := ⟨deriv (fun s => (γ s).x) t, deriv (fun s => (γ s).y) t⟩

/-- The length of a plane curve over [0, 1]. -/
def curveLength (γ : ℝ → V2) : ℝ :=
  ∫ t in (0 : ℝ)..1, Real.sqrt ((velocity γ t).x ^ 2 + (velocity γ t).y ^ 2)

/-- What a plane curve over [0, 1] adds to the signed area it bounds: `½ ∫ (x dy - y dx)`. -/
def curveArea (γ : ℝ → V2) : ℝ :=
  (∫ t in (0 : ℝ)..1, (γ t).x * (velocity γ t).y - (γ t).y * (velocity γ t).x) / 2

/-- The total turn of the direction in which the curve over [0, 1] is seen from `p`: the integral of
the rate of change of the polar angle about `p`. -/
def turning (p : V2) (γ : ℝ → V2) : ℝ :=
  ∫ t in (0 : ℝ)..1, (((γ t).x - p.x) * (velocity γ t).y - ((γ t).y - p.y) * (velocity γ t).x) /
    dist2 (γ t) p

end
end Cavc.Spec
