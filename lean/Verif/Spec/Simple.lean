import Mathlib.Logic.Relation
import Verif.Spec.Region

/-!
Polygons that do not meet themselves.
-/
namespace Cavc.Spec
noncomputable section

/-- A closed polyline of straight segments that does not meet itself: it has segments, none of them is
a point, and two different segments have no point in common, except that each segment ends where the
next one starts. -/
structure SimplePolygon (p : Polyline) : Prop where
  closed : p.isClosed = true
  lines : ∀ v ∈ p.vertexes, IsLine v
  two : 2 ≤ p.vertexes.length
  distinct : ∀ i v1 v2, IsSeg p i v1 v2 → v1.pos ≠ v2.pos
  apart : ∀ i j v1 v2 u1 u2 x, IsSeg p i v1 v2 → IsSeg p j u1 u2 → i ≠ j → OnSeg v1 v2 x → OnSeg u1 u2 x →
    (j = (i + 1) % p.vertexes.length ∧ x = v2.pos) ∨ (i = (j + 1) % p.vertexes.length ∧ x = u2.pos)

/-- A closed polyline of lines and arcs (of at most a half circle) that does not meet itself: it has segments,
none of them shorter than the tolerance 1e-8 of the library in both coordinates, and two different segments have no
point in common, except that each segment ends where the next one starts. -/
structure SimpleCurve (p : Polyline) : Prop where
  closed : p.isClosed = true
  ok : PlineOk p
  two : 2 ≤ p.vertexes.length
  distinct : ∀ i v1 v2, IsSeg p i v1 v2 → ¬ Near (1 / 10 ^ 8) v1.pos v2.pos
  apart : ∀ i j v1 v2 u1 u2 x, IsSeg p i v1 v2 → IsSeg p j u1 u2 → i ≠ j → OnSeg v1 v2 x → OnSeg u1 u2 x →
    (j = (i + 1) % p.vertexes.length ∧ x = v2.pos) ∨ (i = (j + 1) % p.vertexes.length ∧ x = u2.pos)

/-- `x` is on the left of the line, or on the left of the circle, of the segment: inside of the circle if the arc
goes counterclockwise, outside of it if it goes clockwise. -/
def LeftSide (v1 v2 : Vertex) (x : V2) : Prop :=
  (IsLine v1 ∧ 0 < side v1.pos v2.pos x) ∨
  (¬ IsLine v1 ∧ ∃ c, IsCenter v1 v2 c ∧
    ((0 < v1.bulge ∧ dist2 x c < dist2 v1.pos c) ∨ (v1.bulge < 0 ∧ dist2 v1.pos c < dist2 x c)))

/-- `x` is on the right of the line or the circle of the segment. -/
def RightSide (v1 v2 : Vertex) (x : V2) : Prop :=
  (IsLine v1 ∧ side v1.pos v2.pos x < 0) ∨
  (¬ IsLine v1 ∧ ∃ c, IsCenter v1 v2 c ∧
    ((0 < v1.bulge ∧ dist2 v1.pos c < dist2 x c) ∨ (v1.bulge < 0 ∧ dist2 x c < dist2 v1.pos c)))

/-- The segment from `a` to `b` does not meet the polyline. -/
def Unmet (p : Polyline) (a b : V2) : Prop := ∀ t, 0 ≤ t → t ≤ 1 → ¬ OnPline p (lerp a b t)

/-- There is a path from `a` to `b` of finitely many straight segments that do not meet the polyline. -/
def JoinedOff (p : Polyline) : V2 → V2 → Prop := Relation.ReflTransGen (Unmet p)

/-- The area that a result stands for: what `getArea` gives for the remaining polylines less what it gives
for the subtracted ones, without the signs. -/
def AreaOf (r : CombineResult) (a : ℝ) : Prop :=
  ∃ as bs : List ℝ, List.Forall₂ (fun q x => getArea q = .ok x) r.remaining as ∧
    List.Forall₂ (fun q x => getArea q = .ok x) r.subtracted bs ∧
    a = (as.map fun x => |x|).sum - (bs.map fun x => |x|).sum

/-- The points that are not on A or B, and are in the union, intersection, difference or symmetric
difference of what is inside A and what is inside B. -/
def Combined (A B : Polyline) (mode : CombineMode) : Set (ℝ × ℝ) :=
  {z | ¬ OnPline A ⟨z.1, z.2⟩ ∧ ¬ OnPline B ⟨z.1, z.2⟩ ∧ boolOp mode (Inside A ⟨z.1, z.2⟩) (Inside B ⟨z.1, z.2⟩)}

end
end Cavc.Spec
