import Verif.Spec.CombineSides
import Verif.Spec.Offset
import Verif.Spec.Stitch
import Verif.Spec.Intersects

/-!
What pieces of the raw offset polyline a parallel offset is expected to put together, independently of
the code: the raw offset polyline is cut at its self intersects (and, where that is necessary, at its
intersects with the raw offset to the other side and with circles around the ends), each piece is kept
or dropped by its distance from the original polyline, and the kept pieces are stitched.
-/
namespace Cavc.Spec
open scoped Classical
noncomputable section

/-- The square of half width `d` around a point. -/
def squareAround (d : ℝ) (x : V2) : Box ℝ := ⟨x.x - d, x.y - d, x.x + d, x.y + d⟩

/-- `x` is farther from the original polyline than the offset less 1e-4: the closest point (properties
C13, C14) of every segment whose box reaches into the square around `x` is. -/
def FarEnough (p : Polyline) (offset : ℝ) (x : V2) : Prop :=
  ∀ i v1 v2 q, IsSeg p i v1 v2 →
    Overlap (squareAround (|offset| - 1 / 10 ^ 4) x) (createFastApproxBoundingBox v1 v2).toBox →
    closestPointOnSeg v1 v2 x = .ok q → (|offset| - 1 / 10 ^ 4) ^ 2 < dist2 q x

/-- The segment from `v1` to `v2` meets the polyline: it has an intersect (property C50) with a segment
of it whose box overlaps its own. -/
def Meets (p : Polyline) (v1 v2 : Vertex) : Prop :=
  ∃ i u1 u2 r, IsSeg p i u1 u2 ∧
    Overlap (createFastApproxBoundingBox v1 v2).toBox (createFastApproxBoundingBox u1 u2).toBox ∧
    intrPlineSegs v1 v2 u1 u2 = .ok r ∧ r ≠ .noIntersect

/-! ### The pieces -/

/-- The vertexes `ws` can be added, one after the other, to the vertexes `vs`: each is far enough, and
the segment that leads to it does not meet the original polyline. -/
def Passable (p : Polyline) (offset : ℝ) : List Vertex → List Vertex → Prop
  | _, [] => True
  | vs, w :: ws => FarEnough p offset w.pos ∧ (∀ u, vs.getLast? = some u → ¬ Meets p u w) ∧
      Passable p offset (joined vs w) ws

/-- `s` is the piece from a cut to the next one of the same segment and is kept: it is not degenerate,
its ends and its midpoint are far enough and it does not meet the original polyline. `before` are the
cuts that come before. -/
def KeptWithin (p raw : Polyline) (offset : ℝ) (before : List Cut) (c c' : Cut) (s : Polyline) : Prop :=
  PieceWithin raw before c c' s ∧ ¬ Tiny s ∧ ∃ u w m, s.vertexes = [u, w] ∧
    FarEnough p offset u.pos ∧ FarEnough p offset w.pos ∧
    segMidpoint u w = .ok m ∧ FarEnough p offset m ∧ ¬ Meets p u w

/-- `s` is the piece from a cut, over at least one vertex, to a cut, and is kept: it consists of what is
left of the segment after the cut, the vertexes of the raw offset polyline up to the segment of the
second cut (at least one, at most all of them), and the part of that segment up to the cut; both cuts,
all these vertexes and the midpoint of the last part are far enough, and the segments up to the last of
these vertexes do not meet the original polyline. -/
def KeptAcross (p raw : Polyline) (offset : ℝ) (c c' : Cut) (s : Polyline) : Prop :=
  let n := raw.vertexes.length
  let ws := (raw.vertexes.rotate (c.seg + 1)).take ((c'.seg + n - (c.seg + 1)) % n + 1)
  ∃ v e r us u v' e' r' m, IsSeg raw c.seg v e ∧ splitAtPoint v e c.pos = .ok r ∧
    FarEnough p offset c.pos ∧ Passable p offset [r.splitVertex] ws ∧
    ws.foldl joined [r.splitVertex] = us ++ [u] ∧
    FarEnough p offset c'.pos ∧ IsSeg raw c'.seg v' e' ∧ splitAtPoint u e' c'.pos = .ok r' ∧
    segMidpoint r'.updatedStart ⟨c'.pos, 0⟩ = .ok m ∧ FarEnough p offset m ∧
    s = ⟨false, joined (us ++ [r'.updatedStart]) ⟨c'.pos, 0⟩⟩

/-- `s` is the piece from a cut to the end of the open raw offset polyline and is kept. -/
def KeptToEnd (p raw : Polyline) (offset : ℝ) (c : Cut) (s : Polyline) : Prop :=
  let ws := raw.vertexes.drop (c.seg + 1)
  ∃ v e r, IsSeg raw c.seg v e ∧ splitAtPoint v e c.pos = .ok r ∧ FarEnough p offset c.pos ∧
    Passable p offset [r.splitVertex] ws ∧ s = ⟨false, ws.foldl joined [r.splitVertex]⟩

/-- `s` is the piece from the start of the open raw offset polyline to a cut and is kept. -/
def KeptToFirst (p raw : Polyline) (offset : ℝ) (c : Cut) (s : Polyline) : Prop :=
  let ws := raw.vertexes.take c.seg
  ∃ v e r m, Passable p offset [] ws ∧ IsSeg raw c.seg v e ∧ FarEnough p offset c.pos ∧
    splitAtPoint v e c.pos = .ok r ∧ segMidpoint r.updatedStart ⟨c.pos, 0⟩ = .ok m ∧
    FarEnough p offset m ∧ ¬ Meets p r.updatedStart ⟨c.pos, 0⟩ ∧
    s = ⟨false, joined (joined (ws.foldl joined []) r.updatedStart) ⟨c.pos, 0⟩⟩

/-- `s` is the piece from cut number `i` of `cs` to the next cut (on a closed polyline the first one
comes after the last one, on an open one the end) and is kept; a piece over a vertex also has to have
two vertexes and to be `long`. -/
def KeptPiece (p raw : Polyline) (offset : ℝ) (long : Polyline → Prop) (cs : List Cut) (i : ℕ)
    (s : Polyline) : Prop :=
  ∃ c c', cs[i]? = some c ∧ cs[(i + 1) % cs.length]? = some c' ∧
    ((i + 1 < cs.length ∧ c'.seg = c.seg ∧ KeptWithin p raw offset (cs.take i) c c' s) ∨
     ((i + 1 < cs.length ∧ c'.seg ≠ c.seg ∨ i + 1 = cs.length ∧ raw.isClosed = true) ∧
        KeptAcross p raw offset c c' s ∧ 2 ≤ s.vertexes.length ∧ long s) ∨
     (i + 1 = cs.length ∧ raw.isClosed = false ∧ KeptToEnd p raw offset c s ∧ 2 ≤ s.vertexes.length ∧
        long s))

/-- `slices` lists, in some order, all the kept pieces of the raw offset polyline cut at all of `cuts`,
each with the number of the segment it starts on. -/
def KeptPieces (p raw : Polyline) (offset : ℝ) (long : Polyline → Prop) (cuts : List Cut)
    (slices : List OpenSlice) : Prop :=
  ∃ (cs : List Cut) (first : Option Polyline) (os : List (Option Polyline)), cs.Perm cuts ∧
    AlongPline raw cs ∧ os.length = cs.length ∧
    (∀ i o, os[i]? = some o → ∀ s, o = some s ↔ KeptPiece p raw offset long cs i s) ∧
    (∀ s, first = some s ↔
      raw.isClosed = false ∧ ∃ c, cs.head? = some c ∧ KeptToFirst p raw offset c s) ∧
    slices.Perm ((first.toList.map fun s => ⟨0, s⟩) ++
      (cs.zip os).filterMap fun co => co.2.map fun s => ⟨co.1.seg, s⟩)

/-- A loop is longer than 1/100. -/
def LongLoop (s : Polyline) : Prop :=
  EndsMeet (1 / 10 ^ 8) s.vertexes → ∃ l, getPathLength s = .ok l ∧ 1 / 10 ^ 2 < l

/-- Arcs of the raw offset are not so short that joining vertexes closer than 1e-5 could make their ends meet. -/
def LongArcs (raw : Polyline) : Prop :=
  ∀ i v w, IsSeg raw i v w → ¬ IsLine v → ¬ Near (1 / 10 ^ 5 + 1 / 10 ^ 8) v.pos w.pos

/-! ### The cuts -/

/-- The self intersects of consecutive segments (property C35). -/
def consecutiveOf : Polyline → List PlineIntersect
  | ⟨true, [v, w]⟩ =>
    if |v.bulge + w.bulge| < 1 / 10 ^ 8 then [⟨0, 1, w.pos⟩, ⟨1, 0, v.pos⟩] else []
  | p => (List.range (segs p).length).flatMap (consecutiveHits p)

/-- `l` are the self intersects: those of consecutive segments and those of all pairs of segments without
a common vertex whose boxes are close (property C34). -/
def SelfIntersectsOf (p : Polyline) (l : List PlineIntersect) : Prop :=
  ∃ pairs : List (ℕ × ℕ), pairs.Nodup ∧ (∀ i j, (i, j) ∈ pairs → (j, i) ∉ pairs) ∧
    (∀ i j, ((i, j) ∈ pairs ∨ (j, i) ∈ pairs) ↔ NonAdjacent p i j ∧ ∃ v1 v2 u1 u2,
      IsSeg p i v1 v2 ∧ IsSeg p j u1 u2 ∧ BoxesClose (1 / 10 ^ 8) v1 v2 u1 u2) ∧
    l = consecutiveOf p ++ pairs.flatMap (selfHits p)

/-- At a self intersect both segments are cut. -/
def selfCuts (selfs : List PlineIntersect) : List Cut :=
  selfs.flatMap fun x => [⟨x.sIndex1, x.pos, false⟩, ⟨x.sIndex2, x.pos, false⟩]

/-- The cuts at the intersects with another polyline and at both ends of the overlaps with it. -/
def dualCuts (d : IntersectsResult) : List Cut :=
  (d.intersects.map fun x => ⟨x.sIndex1, x.pos, false⟩) ++
    d.coincidentIntersects.flatMap fun x => [⟨x.sIndex1, x.point1, false⟩, ⟨x.sIndex1, x.point2, false⟩]

/-- The parameters of a line-circle intersect (property C19). -/
def paramsOf : LineCircleResult → List ℝ
  | .none => []
  | .one t => [t]
  | .two t u => [t, u]

/-- The points of a circle-circle intersect (property C20). -/
def pointsOf : CircleCircleResult → List V2
  | .one x => [x]
  | .two x y => [x, y]
  | _ => []

/-- `xs` are the points where the segment crosses the circle, other than at its start. -/
def CircleHits (v1 v2 : Vertex) (R : ℝ) (c : V2) (xs : List V2) : Prop :=
  (IsLine v1 ∧ ∃ r, intrLineSeg2Circle2 v1.pos v2.pos R c = .ok r ∧
    xs = ((paramsOf r).filter fun t => 1 / 10 ^ 5 < t ∧ t ≤ 1).map fun t =>
      ⟨v1.pos.x + t * (v2.pos.x - v1.pos.x), v1.pos.y + t * (v2.pos.y - v1.pos.y)⟩) ∨
  (¬ IsLine v1 ∧ ∃ a, arcRadiusAndCenter v1 v2 = .ok a ∧
    xs = (pointsOf (intrCircle2Circle2 a.radius a.center R c)).filter fun x =>
      ¬ Near (1 / 10 ^ 5) v1.pos x ∧
        pointWithinArcSweepAngle a.center v1.pos v2.pos v1.bulge x = .ok true)

/-- `cs` are the cuts of the raw offset polyline with a circle. -/
def CircleCuts (raw : Polyline) (R : ℝ) (c : V2) (cs : List Cut) : Prop :=
  ∃ (is : List ℕ) (css : List (List Cut)), is.Nodup ∧
    (∀ i, i ∈ is ↔ ∃ v1 v2, IsSeg raw i v1 v2 ∧
      Overlap (squareAround R c) (createFastApproxBoundingBox v1 v2).toBox) ∧
    List.Forall₂ (fun i cs => ∃ v1 v2 xs, IsSeg raw i v1 v2 ∧ CircleHits v1 v2 R c xs ∧
      cs = xs.map fun x => ⟨i, x, false⟩) is css ∧ cs = css.flatten

/-- The cuts with the circles around the ends of the original polyline, if it is open. -/
def EndCuts (p raw : Polyline) (offset : ℝ) (cs : List Cut) : Prop :=
  if p.isClosed = true then cs = [] else
    ∃ a b cs1 cs2, p.vertexes.head? = some a ∧ p.vertexes.getLast? = some b ∧
      CircleCuts raw |offset| a.pos cs1 ∧ CircleCuts raw |offset| b.pos cs2 ∧ cs = cs1 ++ cs2

/-! ### The result -/

/-- `r` is made of the slices by stitching (property C40). -/
def StitchResult (closed : Bool) (m : ℕ) (slices : List OpenSlice) (r : List Polyline) : Prop :=
  (slices = [] ∧ r = []) ∨
  (∃ s q, slices = [s] ∧ r = [q] ∧ ClosesTo closed (1 / 10 ^ 4) s.pline.vertexes q) ∨
  (2 ≤ slices.length ∧ ∃ chains : List (List OpenSlice), chains.flatten.Perm slices ∧
    GreedyChains (fun a b => Follows (1 / 10 ^ 4) a.pline.vertexes b.pline.vertexes)
      (fun a b => forwardDist m a.intrStartIndex b.intrStartIndex) chains ∧
    List.Forall₂ (fun c q => ClosesTo closed (1 / 10 ^ 5)
      (stitched (c.map fun s => s.pline.vertexes)) q) chains r)

/-- `r` is the offset made of the raw offset polyline with the given cuts: without cuts the raw offset
polyline itself, if its first vertex is far enough; otherwise the kept pieces stitched (as long as the
stitching is in the domain of property C40: pieces of at least two vertexes, at most 2^24 of them). -/
def OffsetResult (p raw : Polyline) (offset : ℝ) (long : Polyline → Prop) (cuts : List Cut)
    (r : List Polyline) : Prop :=
  (cuts = [] → ∃ v, raw.vertexes.head? = some v ∧
    r = if FarEnough p offset v.pos then [⟨p.isClosed, raw.vertexes⟩] else []) ∧
  (cuts ≠ [] → ∃ slices, KeptPieces p raw offset long cuts slices ∧
    ((p.isClosed = false → ∀ s ∈ slices, 2 ≤ s.pline.vertexes.length) → slices.length ≤ 2 ^ 24 →
      StitchResult p.isClosed (raw.vertexes.length - 1) slices r))

end
end Cavc.Spec
