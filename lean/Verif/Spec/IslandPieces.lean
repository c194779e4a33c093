import Verif.Spec.Islands
import Verif.Spec.CombineSides
import Verif.Spec.OffsetPieces

/-!
What loops the offset of a set of loops is expected to consist of, independently of the code: every
loop is offset on its own, the offset loops are cut where they meet each other, each piece (or each loop
that meets no other one) is kept or dropped by its distance from the other input loops, and the kept
pieces are stitched.
-/
namespace Cavc.Spec
open scoped Classical
noncomputable section

/-! ### The offset loops -/

/-- All offsets with the index of the loop they belong to; `offs` lists the offsets of each loop. -/
def numbered (offs : List (List Polyline)) : List (ℕ × Polyline) :=
  offs.zipIdx.flatMap fun x => x.1.map fun q => (x.2, q)

/-- A loop as the index of its parent and its polyline. -/
def OffsetLoop.named (l : OffsetLoop) : ℕ × Polyline := (l.parentLoopIndex, l.polyline)

/-- `loops` are the offset loops: the parallel offsets (property C59) of all input loops to the left,
in order, those that are not clockwise as counter clockwise loops, the clockwise ones among the offsets
of the clockwise input loops as clockwise loops; the clockwise offsets of a counter clockwise loop are
dropped. Each has the spatial index of its polyline. -/
def OffsetLoops (pf : Platform) (std : StdSort) (hash : HashOrder) (input : OffsetLoopSet) (delta : ℝ)
    (loops : OffsetLoopSet) : Prop :=
  ∃ offs : List (List Polyline),
    List.Forall₂ (fun l o => parallelOffset pf std hash l.polyline |delta| = .ok o) (loopsOf input) offs ∧
    loops.ccwLoops.map OffsetLoop.named =
      ((numbered offs).filter fun x => CounterClockwise x.2) ∧
    loops.cwLoops.map OffsetLoop.named =
      ((numbered offs).filter fun x => input.ccwLoops.length ≤ x.1 ∧ Clockwise x.2) ∧
    ∀ l ∈ loopsOf loops, Indexed pf l

/-! ### The cuts -/

/-- `pts` are the points where the loops `l1` and `l2` are cut: the isolated intersects of the two
(property C33) and the ends of their overlaps (property C36). -/
def CutPoints (std : StdSort) (l1 l2 : OffsetLoop) (pts : List PlineIntersect) : Prop :=
  ∃ x, findIntersects l1.polyline l2.polyline l1.spatialIndex ⟨[], []⟩ = .ok x ∧
    if x.coincidentIntersects = [] then pts = x.intersects else
      ∃ c y, sortAndjoinCoincidentSlices std x.coincidentIntersects l1.polyline l2.polyline = .ok (c, y) ∧
        pts = x.intersects ++ c.sliceStartPoints ++ c.sliceEndPoints

/-- The two loops have an intersect or an overlap. -/
def LoopsMeet (l1 l2 : OffsetLoop) : Prop :=
  ∃ x, findIntersects l1.polyline l2.polyline l1.spatialIndex ⟨[], []⟩ = .ok x ∧
    (x.intersects ≠ [] ∨ x.coincidentIntersects ≠ [])

/-- A pair of loops, by index, that meet, with the points where they are cut. -/
structure LoopCrossing where
  first : ℕ
  second : ℕ
  points : List PlineIntersect

/-- `xs` lists, in some order, each pair of loops that meet exactly once (loops whose extents do not
overlap are not looked at), with the points where they are cut. -/
def LoopCrossings (std : StdSort) (loops : List OffsetLoop) (xs : List LoopCrossing) : Prop :=
  (xs.map fun x => (x.first, x.second)).Nodup ∧
  (∀ i j, (∃ x ∈ xs, x.first = i ∧ x.second = j) ↔ i < j ∧ ∃ l1 l2, loops[i]? = some l1 ∧
    loops[j]? = some l2 ∧ Overlap l1.spatialIndex.ext l2.spatialIndex.ext ∧ LoopsMeet l1 l2) ∧
  ∀ x ∈ xs, ∀ l1 l2, loops[x.first]? = some l1 → loops[x.second]? = some l2 → CutPoints std l1 l2 x.points

/-- The cuts of the loop with index `i`. -/
def cutsOfLoop (xs : List LoopCrossing) (i : ℕ) : List Cut :=
  xs.flatMap fun x =>
    if x.first = i then x.points.map fun p => ⟨p.sIndex1, p.pos, false⟩
    else if x.second = i then x.points.map fun p => ⟨p.sIndex2, p.pos, false⟩ else []

/-- No other loop meets the loop with index `i`. -/
def Untouched (xs : List LoopCrossing) (i : ℕ) : Prop := ∀ x ∈ xs, x.first ≠ i ∧ x.second ≠ i

/-! ### The result -/

/-- `x` is far enough (as in property C39) from all input loops except the one with index `own`. -/
def FarFromOthers (input : OffsetLoopSet) (delta : ℝ) (own : ℕ) (x : V2) : Prop :=
  ∀ i l, i ≠ own → (loopsOf input)[i]? = some l → FarEnough l.polyline delta x

/-- The offset loops among `l`, whose indexes begin with `k`, that are returned as they are: those that
no other offset loop meets and whose first vertex is far enough from the other input loops. -/
def wholeLoops (input : OffsetLoopSet) (delta : ℝ) (xs : List LoopCrossing) (k : ℕ) (l : List OffsetLoop) :
    List OffsetLoop :=
  ((l.zipIdx k).filter fun a => Untouched xs a.2 ∧ ∃ v, a.1.polyline.vertexes.head? = some v ∧
    FarFromOthers input delta a.1.parentLoopIndex v.pos).map Prod.fst

/-- `r` is the offset of the set of loops `input`: the loops that no other one meets and that are far
enough, and the kept pieces of the other ones, stitched (property C44, the first slice that follows is
the next one) to closed polylines, of which those with an area of at least `1e-4` count, by the sign of
their area. -/
def IslandsResult (pf : Platform) (std : StdSort) (hash : HashOrder) (input : OffsetLoopSet) (delta : ℝ)
    (r : OffsetLoopSet) : Prop :=
  ∃ (loops : OffsetLoopSet) (xs : List LoopCrossing) (pieces : List (List Polyline)) (res : List Polyline),
    OffsetLoops pf std hash input delta loops ∧
    (loops.count ≤ 2 ^ 24 → LoopCrossings std (loopsOf loops) xs) ∧
    List.Forall₂ (fun (a : OffsetLoop × ℕ) ps => if Untouched xs a.2 then ps = [] else
      (a.1.polyline.isClosed = true → KeptSlices a.1.polyline (cutsOfLoop xs a.2)
        (FarFromOthers input delta a.1.parentLoopIndex) ps)) (loopsOf loops).zipIdx pieces ∧
    (pieces.flatten.length ≤ 2 ^ 24 → ∃ chains : List (List ℕ × Bool),
      let verts : ℕ → List Vertex := fun i => (pieces.flatten.getD i Polyline.empty).vertexes
      res = chains.filterMap (closedChain verts) ∧
      (chains.map Prod.fst).flatten.Perm (List.range pieces.flatten.length) ∧
      SelectedChains (fun i j => Follows (1 / 10 ^ 4) (verts i) (verts j))
        (fun _ avail => .ok avail.head?) chains) ∧
    r.ccwLoops.map OffsetLoop.named =
      (wholeLoops input delta xs 0 loops.ccwLoops).map OffsetLoop.named ++
      (res.filter fun q => ∃ a, getArea q = .ok a ∧ 1 / 10 ^ 4 ≤ a).map (fun q => (0, q)) ∧
    r.cwLoops.map OffsetLoop.named =
      (wholeLoops input delta xs loops.ccwLoops.length loops.cwLoops).map OffsetLoop.named ++
      (res.filter fun q => ∃ a, getArea q = .ok a ∧ a ≤ - (1 / 10 ^ 4)).map (fun q => (0, q)) ∧
    ∀ l ∈ loopsOf r, Indexed pf l

/-! ### Where arcs end -/

/-- A position known when the polylines `qs` are cut at each other: of a vertex of one of them, or
reported as an intersect or end of an overlap by the test of a segment of one and a segment of another. -/
def KnownOf (qs : List Polyline) (x : V2) : Prop :=
  (∃ q ∈ qs, ∃ v ∈ q.vertexes, x = v.pos) ∨ ∃ A B, [A, B].Subperm qs ∧ Known A B x

/-- One of the polylines has an arc. -/
def HasArcs (qs : List Polyline) : Prop := ∃ q ∈ qs, ∃ v ∈ q.vertexes, ¬ IsLine v

/-- Every known position is exactly at the end of an arc or differs from it by at least 1e-4 in a
coordinate. -/
def ArcsApart (qs : List Polyline) : Prop :=
  ∀ q ∈ qs, ∀ i v1 v2, IsSeg q i v1 v2 → ¬ IsLine v1 →
    ∀ x, KnownOf qs x → x = v2.pos ∨ ¬ Near (1 / 10 ^ 4) x v2.pos

end
end Cavc.Spec
