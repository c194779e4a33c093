import Verif.Model.Offset
import Verif.Spec.Intersects

/-!
What offsetting is expected to do, independently of the code.
-/
namespace Cavc.Spec
noncomputable section

/-- `n` is the unit normal to the left of the direction in which the curve runs at parameter `t`. -/
def LeftNormal (γ : ℝ → V2) (t : ℝ) (n : V2) : Prop :=
  n.x ^ 2 + n.y ^ 2 = 1 ∧ ∃ k : ℝ, 0 < k ∧ velocity γ t = ⟨k * n.y, -(k * n.x)⟩

/-- The radius that is left when the arc from `v1` to `v2` is offset to the left by `offset`:
towards the center for a counter clockwise arc, away from it otherwise. -/
def OffsetRadius (offset : ℝ) (v1 v2 : Vertex) (r : ℝ) : Prop :=
  ∃ c, IsCenter v1 v2 c ∧
    r = distance v1.pos c + (if v1.bulge < 0 then offset else -offset)

/-- The segment is an arc that an offset to the left by `offset` shrinks to nothing. -/
def Collapses (offset : ℝ) (v1 v2 : Vertex) : Prop :=
  ¬ IsLine v1 ∧ ∃ r, OffsetRadius offset v1 v2 r ∧ r < 1 / 10 ^ 8

/-- `s` is the segment from `v1` to `v2` moved to its left by `offset`: each of its points is the
corresponding point of the original moved by `offset` along the left normal there. Of an arc that
collapses only the end points are moved, and it becomes a line. -/
structure Offsets (offset : ℝ) (v1 v2 : Vertex) (s : OffsetSegment) : Prop where
  orig : s.origV2Pos = v2.pos
  bulge2 : s.v2.bulge = v2.bulge
  collapsed : s.collapsedArc = true ↔ Collapses offset v1 v2
  bulge1 : s.v1.bulge = if s.collapsedArc then 0 else v1.bulge
  start : ∀ γ n, IsPath v1 v2 γ → LeftNormal γ 0 n → s.v1.pos = γ 0 + offset • n
  stop : ∀ γ n, IsPath v1 v2 γ → LeftNormal γ 1 n → s.v2.pos = γ 1 + offset • n
  path : s.collapsedArc = false → ∀ γ γ' t n, IsPath v1 v2 γ → IsPath s.v1 s.v2 γ' →
    LeftNormal γ t n → γ' t = γ t + offset • n

/-- No segment has end points that differ by less than 1e-5 in both coordinates
(`pruneSingularities`, property C29, makes polylines such). -/
def NoRepeats (p : Polyline) : Prop :=
  ∀ i v1 v2, IsSeg p i v1 v2 → ¬ Near (1 / 10 ^ 5) v1.pos v2.pos

/-- The arc from the vertex `w` to the vertex `w'` lies on the circle of radius `r` about `c` and is
at most a half circle. -/
def CircularAbout (c : V2) (r : ℝ) (w w' : Vertex) : Prop :=
  IsCenter w w' c ∧ distance w.pos c = r ∧ |w.bulge| ≤ 1

/-- `result'` is `result` with the vertexes `added` appended one by one by `addOrReplaceIfSamePos`: a
vertex within 1e-5 of the last one only replaces its bulge. -/
def Appends (result : Polyline) (added : List Vertex) (result' : Polyline) : Prop :=
  result' = added.foldl (fun r v => addOrReplaceIfSamePos r v) result

/-- All bulges are at most 1 in absolute value: no arc is more than a half circle. -/
def BulgesOk (p : Polyline) : Prop := ∀ v ∈ p.vertexes, |v.bulge| ≤ 1

/-- Consecutive vertexes are apart by at least 1e-5 in one of the coordinates. -/
def Spread (p : Polyline) : Prop :=
  (p.vertexes.map Vertex.pos).IsChain (fun a b => ¬ Near (1 / 10 ^ 5) a b)

/-- The offset leaves of the segment an arc with end points that differ by less than 1e-8 in both
coordinates, but does not count as collapsing it. -/
def NearlyCollapses (offset : ℝ) (v1 v2 : Vertex) : Prop :=
  ∃ s, Offsets offset v1 v2 s ∧ s.collapsedArc = false ∧ Near (1 / 10 ^ 8) s.v1.pos s.v2.pos

/-- `pt` is farther than `d` from every point of the polyline, up to the tolerance of the library's
closest point on a segment: 3e-8 in the distance (arcs) or 2e-8 in its square (lines). -/
def Clear (p : Polyline) (d : ℝ) (pt : V2) : Prop :=
  ∀ x, OnPline p x → d < distance pt x + 3 / 10 ^ 8 ∨ d ^ 2 < distance pt x ^ 2 + 2 / 10 ^ 8

/-- `pt` is not within the tolerance 1e-8 of the two rays that bound the sector of an arc (lines
always qualify): there the closest point the library computes is on the arc. -/
def Decided (v1 v2 : Vertex) (pt : V2) : Prop :=
  IsLine v1 ∨ ∀ c, IsCenter v1 v2 c → 1 / 10 ^ 8 ≤ |side c v1.pos pt| ∧ 1 / 10 ^ 8 ≤ |side c v2.pos pt|

end
end Cavc.Spec
