import Verif.Spec.Offset
import Verif.Spec.Combine
import Verif.Spec.Simple
import Mathlib.Topology.Connected.Basic
import Mathlib.Topology.MetricSpace.Pseudo.Defs

/-!
The exact offset of a polygon, independently of the code: the points on one side of it at a given distance
from it; and the vertexes that an offset is expected to have at each corner before anything is cut away.
-/
namespace Cavc.Spec
open scoped Classical
noncomputable section

/-- `x` moved by `offset` to the left of the direction from `a` to `b`. -/
def movedLeft (offset : ℝ) (a b x : V2) : V2 :=
  ⟨x.x - offset * (b.y - a.y) / distance a b, x.y + offset * (b.x - a.x) / distance a b⟩

/-- `b` is the corner of the polyline at the end of segment `i`: the segments before and after it go from
`a` to `b` and from `b` to `c`. -/
def IsCorner (p : Polyline) (i : ℕ) (a b c : V2) : Prop :=
  ∃ v1 v2 v3, IsSeg p i v1 v2 ∧ IsSeg p ((i + 1) % p.vertexes.length) v2 v3 ∧
    v1.pos = a ∧ v2.pos = b ∧ v3.pos = c

/-- The two segments, moved to the left, have the common point `x`, at parameter `t0` of the first and `t1`
of the second one. -/
def MovedMeet (offset : ℝ) (a b c : V2) (t0 t1 : ℝ) (x : V2) : Prop :=
  lerp (movedLeft offset a b a) (movedLeft offset a b b) t0 = x ∧
    lerp (movedLeft offset b c b) (movedLeft offset b c c) t1 = x

/-- The points of the offset at the corner `b`: the common point of the moved segments, or, if they have
none, the end of the first and the start of the second one. -/
def CornerPoints (offset : ℝ) (a b c : V2) (l : List V2) : Prop :=
  (∃ t0 t1 x, 0 ≤ t0 ∧ t0 ≤ 1 ∧ 0 ≤ t1 ∧ t1 ≤ 1 ∧ MovedMeet offset a b c t0 t1 x ∧ l = [x]) ∨
  ((¬ ∃ t0 t1 x, 0 ≤ t0 ∧ t0 ≤ 1 ∧ 0 ≤ t1 ∧ t1 ≤ 1 ∧ MovedMeet offset a b c t0 t1 x) ∧
    l = [movedLeft offset a b b, movedLeft offset b c b])

/-- The vertexes of the offset at the corner `b`: lines, and between the ends of the moved segments the
arc about the corner if the corner bends away from the offset. -/
def Rounds (offset : ℝ) (a b c : V2) (l : List Vertex) : Prop :=
  CornerPoints offset a b c (l.map Vertex.pos) ∧
  ((∃ v, l = [v] ∧ IsLine v) ∨
   ∃ w w', l = [w, w'] ∧ IsLine w' ∧
    (if offset * side a b c < 0 then CircularAbout b |offset| w w' ∧ offset * w.bulge < 0 else IsLine w))

/-- `ls` are the vertexes at all corners. -/
def RoundsAll (p : Polyline) (offset : ℝ) (ls : List (List Vertex)) : Prop :=
  ls.length = p.vertexes.length ∧
  ∀ i a b c, IsCorner p i a b c → ∃ l, ls[i]? = some l ∧ Rounds offset a b c l

/-- `pts` are the points at all corners. -/
def AllCornerPoints (p : Polyline) (offset : ℝ) (pts : List (List V2)) : Prop :=
  pts.length = p.vertexes.length ∧
  ∀ i a b c, IsCorner p i a b c → ∃ l, pts[i]? = some l ∧ CornerPoints offset a b c l

/-- The tolerances of the library do not matter at this corner: it is not flat or almost a full turn, and
the moved segments do not miss each other by just 1e-8. -/
structure ClearCorner (offset : ℝ) (a b c : V2) : Prop where
  turn : 1 / 10 ^ 8 < |side a b c|
  angle : 1 / 10 ^ 4 * (distance a b * distance b c) ≤ |side a b c|
  exact : ∀ t0 t1 x, MovedMeet offset a b c t0 t1 x → -(1 / 10 ^ 8) ≤ t0 → t0 ≤ 1 + 1 / 10 ^ 8 →
    -(1 / 10 ^ 8) ≤ t1 → t1 ≤ 1 + 1 / 10 ^ 8 → 0 ≤ t0 ∧ t0 ≤ 1 ∧ 0 ≤ t1 ∧ t1 ≤ 1

/-- The tolerances of the library do not matter for the offset of this polygon: neither at the corners nor
by making one vertex of two points closer than 1e-5. -/
structure ClearOffset (p : Polyline) (offset : ℝ) : Prop where
  repeats : NoRepeats p
  corner : ∀ i a b c, IsCorner p i a b c → ClearCorner offset a b c
  apart : ∀ pts, AllCornerPoints p offset pts →
    ∀ x ∈ pts.flatten.zip (pts.flatten.rotate 1), ¬ Near (1 / 10 ^ 5) x.1 x.2
  first : ∀ a b c l x, IsCorner p 0 a b c → CornerPoints offset a b c l → l.head? = some x →
    ¬ Near (1 / 10 ^ 5) (movedLeft offset a b a) x

/-- No point of the polyline is closer to `x` than `d`. -/
def NotCloser (p : Polyline) (d : ℝ) (x : V2) : Prop := ∀ z, OnPline p z → d ≤ distance x z

/-- `x` is off the polygon, on the side to which it is offset: inside if that is to the left of a counter
clockwise or to the right of a clockwise polygon, outside otherwise. -/
def OnOffsetSide (p : Polyline) (offset : ℝ) (x : V2) : Prop :=
  ¬ OnPline p x ∧ ∀ a, getArea p = .ok a → (Inside p x ↔ 0 < offset * a)

/-- `x` is a point of the exact offset: it is on the side of the offset and its distance from the polygon
is `|offset|`. -/
def AtOffset (p : Polyline) (offset : ℝ) (x : V2) : Prop :=
  OnOffsetSide p offset x ∧ NotCloser p |offset| x ∧ ∃ z, OnPline p z ∧ distance x z = |offset|

/-- The closed polyline passes `x` more than once: two different segments have it in common, and it is not
just where the one ends and the other, the next one, starts. -/
def PassedTwice (p : Polyline) (x : V2) : Prop :=
  ∃ i j v1 v2 u1 u2, IsSeg p i v1 v2 ∧ IsSeg p j u1 u2 ∧ i ≠ j ∧ OnSeg v1 v2 x ∧ OnSeg u1 u2 x ∧
    ¬ ((j = (i + 1) % p.vertexes.length ∧ x = v2.pos) ∨ (i = (j + 1) % p.vertexes.length ∧ x = u2.pos))

/-- `K` is a connected set of points of the polyline, none of which is one of the points `Q`. -/
structure StretchOff (p : Polyline) (Q : V2 → Prop) (K : Set V2) : Prop where
  connected : IsPreconnected ((fun x => (x.x, x.y)) '' K)
  along : ∀ x ∈ K, OnPline p x
  once : ∀ x ∈ K, ¬ Q x

/-- `K` is a connected set of points of the polyline, none of which the polyline passes more than once. -/
abbrev OnceStretch (p : Polyline) (K : Set V2) : Prop := StretchOff p (PassedTwice p) K

/-- Some point of the polyline is closer to `x` than `d`. -/
def Closer (p : Polyline) (d : ℝ) (x : V2) : Prop := ∃ z, OnPline p z ∧ distance x z < d

end
end Cavc.Spec
