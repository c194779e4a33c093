import Verif.Model.Intersects
import Verif.Spec.Polyline
import Verif.Spec.SpatialIndex

/-!
What the intersect searches are expected to report, in terms of the pairwise segment test
`intrPlineSegs` (whose meaning is property C50) and of the bounding boxes of segments (C12).
-/
namespace Cavc.Spec
noncomputable section

/-- The test of two segments reports `x` as an isolated intersect. -/
def PointHit (v1 v2 u1 u2 : Vertex) (x : V2) : Prop :=
  intrPlineSegs v1 v2 u1 u2 = .ok (.oneIntersect x) ∨
  ∃ y, intrPlineSegs v1 v2 u1 u2 = .ok (.twoIntersects x y) ∨
    intrPlineSegs v1 v2 u1 u2 = .ok (.twoIntersects y x)

/-- The test of two segments reports that they overlap from `a` to `b`. -/
def OverlapHit (v1 v2 u1 u2 : Vertex) (a b : V2) : Prop :=
  intrPlineSegs v1 v2 u1 u2 = .ok (.segmentOverlap a b) ∨
  intrPlineSegs v1 v2 u1 u2 = .ok (.arcOverlap a b)

/-- The bounding boxes of the two segments, one of them grown by `ε`, overlap. -/
def BoxesClose (ε : ℝ) (v1 v2 u1 u2 : Vertex) : Prop :=
  let a := createFastApproxBoundingBox v1 v2
  let b := createFastApproxBoundingBox u1 u2
  b.xMin - ε ≤ a.xMax ∧ a.xMin ≤ b.xMax + ε ∧ b.yMin - ε ≤ a.yMax ∧ a.yMin ≤ b.yMax + ε

/-- `j` is the index before `i`, the one before 0 being the last of `n`. -/
def IsPrev (n i j : ℕ) : Prop := (0 < i ∧ j + 1 = i) ∨ (i = 0 ∧ j + 1 = n)

/-- `x`, an intersect at the end of segment `i1` or of segment `i2`, is also an end of a reported
overlap: of the segment after `i1` with `i2`, beginning at the start of that segment, or of `i1` with
the segment after `i2`, beginning at the start of that one. -/
def RepeatsOverlap (p1 p2 : Polyline) (coin : List CoincidentIntersect) (i1 i2 : ℕ) : Prop :=
  ∃ c ∈ coin, ∃ v1 v2 u1 u2, IsSeg p1 c.sIndex1 v1 v2 ∧ IsSeg p2 c.sIndex2 u1 u2 ∧
    ((IsPrev p1.vertexes.length c.sIndex1 i1 ∧ c.sIndex2 = i2 ∧
      (Near (1 / 10 ^ 8) v1.pos c.point1 ∨ Near (1 / 10 ^ 8) v1.pos c.point2)) ∨
     (c.sIndex1 = i1 ∧ IsPrev p2.vertexes.length c.sIndex2 i2 ∧
      (Near (1 / 10 ^ 8) u1.pos c.point1 ∨ Near (1 / 10 ^ 8) u1.pos c.point2)))

/-- Segments `i` and `j` have no vertex in common. -/
def NonAdjacent (p : Polyline) (i j : ℕ) : Prop :=
  i ≠ j ∧ ¬ IsPrev p.vertexes.length i j ∧ ¬ IsPrev p.vertexes.length j i

/-- The points a result reports, in order. -/
def reported : SegIntr → List V2
  | .noIntersect => []
  | .oneIntersect p => [p]
  | .twoIntersects p q => [p, q]
  | .segmentOverlap p q => [p, q]
  | .arcOverlap p q => [p, q]

open scoped Classical in
/-- The self intersects to be reported for segments `i` and `j`: the points the segment test reports
that are not at the start of one of the two. -/
def selfHits (p : Polyline) (x : ℕ × ℕ) : List PlineIntersect :=
  match (segs p)[x.1]?, (segs p)[x.2]? with
  | some (v1, v2), some (u1, u2) =>
    match intrPlineSegs v1 v2 u1 u2 with
    | .ok r => ((reported r).filter fun y =>
        ¬ Near (1 / 10 ^ 8) v1.pos y ∧ ¬ Near (1 / 10 ^ 8) u1.pos y).map fun y => ⟨x.1, x.2, y⟩
    | .error _ => []
  | _, _ => []

open scoped Classical in
/-- The self intersects to be reported for a segment `v1 v2` and the next one `v2 v3`: the start
if the segment is a repeated vertex; otherwise the points the segment test reports away from the
common vertex, and the first end if they overlap. -/
def consecutivePoints (v1 v2 v3 : Vertex) : List V2 :=
  if Near (1 / 10 ^ 5) v1.pos v2.pos then [v1.pos]
  else match intrPlineSegs v1 v2 v2 v3 with
    | .ok (.oneIntersect x) => [x].filter fun x => ¬ Near (1 / 10 ^ 5) x v2.pos
    | .ok (.twoIntersects x y) => [x, y].filter fun x => ¬ Near (1 / 10 ^ 5) x v2.pos
    | .ok (.segmentOverlap x _) => [x]
    | .ok (.arcOverlap x _) => [x]
    | _ => []

/-- The self intersects to be reported for segment `i` and the next one, the first one coming after
the last if the polyline is closed. -/
def consecutiveHits (p : Polyline) (i : ℕ) : List PlineIntersect :=
  let j := if p.isClosed ∧ i + 1 = p.vertexes.length then 0 else i + 1
  match (segs p)[i]?, (segs p)[j]? with
  | some (v1, v2), some (_, v3) => (consecutivePoints v1 v2 v3).map fun x => ⟨i, j, x⟩
  | _, _ => []

end
end Cavc.Spec
