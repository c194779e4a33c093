import Verif.Spec.Intersects
import Verif.Spec.OffsetExact

/-!
The points at a given distance from a polygon, on either side of it; the polygon may meet itself. Where the offset
of such a polygon to one side meets itself or the offset to the other side.
-/
namespace Cavc.Spec
noncomputable section

/-- A closed polyline of lines, it may meet itself. -/
structure LinePolygon (p : Polyline) : Prop where
  closed : p.isClosed = true
  two : 2 ≤ p.vertexes.length
  lines : ∀ v ∈ p.vertexes, IsLine v

/-- The distance of `x` from the polyline is `d`. -/
def AtDistance (p : Polyline) (d : ℝ) (x : V2) : Prop :=
  NotCloser p d x ∧ ∃ z, OnPline p z ∧ distance x z = d

/-- The closed polyline `raw` passes `x` more than once or meets the polyline `dual` there. -/
def MeetsAt (raw dual : Polyline) (x : V2) : Prop :=
  PassedTwice raw x ∨ OnPline raw x ∧ OnPline dual x

/-- `out` are the intersects of the two polylines that are found: the overlaps the segment test reports for pairs of
segments with close bounding boxes, and the isolated intersects it reports for such pairs that are not at the start
of one of the two segments and do not repeat an end of an overlap; none of them more often than the segment test
reports points. -/
structure IntersectsOf (p1 p2 : Polyline) (out : IntersectsResult) : Prop where
  overlaps : ∀ i1 i2 a b, ⟨i1, i2, a, b⟩ ∈ out.coincidentIntersects ↔
    ∃ v1 v2 u1 u2, IsSeg p1 i1 v1 v2 ∧ IsSeg p2 i2 u1 u2 ∧
      BoxesClose (1 / 10 ^ 5) v1 v2 u1 u2 ∧ OverlapHit v1 v2 u1 u2 a b
  points : ∀ i1 i2 x, ⟨i1, i2, x⟩ ∈ out.intersects ↔
    ∃ v1 v2 u1 u2, IsSeg p1 i1 v1 v2 ∧ IsSeg p2 i2 u1 u2 ∧
      BoxesClose (1 / 10 ^ 5) v1 v2 u1 u2 ∧ PointHit v1 v2 u1 u2 x ∧
      ¬ Near (1 / 10 ^ 8) v1.pos x ∧ ¬ Near (1 / 10 ^ 8) u1.pos x ∧
      ¬ (RepeatsOverlap p1 p2 out.coincidentIntersects i1 i2 ∧
        (Near (1 / 10 ^ 8) x v2.pos ∨ Near (1 / 10 ^ 8) x u2.pos))
  once : ∀ i1 i2, (out.coincidentIntersects.filter fun c => c.sIndex1 = i1 ∧ c.sIndex2 = i2).length ≤ 1 ∧
    (out.intersects.filter fun c => c.sIndex1 = i1 ∧ c.sIndex2 = i2).length ≤ 2 ∧
    ∀ v1 v2 u1 u2 r, IsSeg p1 i1 v1 v2 → IsSeg p2 i2 u1 u2 → intrPlineSegs v1 v2 u1 u2 = .ok r →
      (out.intersects.filter fun c => c.sIndex1 = i1 ∧ c.sIndex2 = i2).length ≤ (reported r).length

end
end Cavc.Spec
