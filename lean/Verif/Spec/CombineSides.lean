import Verif.Spec.Combine
import Verif.Spec.Coincident

/-!
What pieces of two polylines a boolean operation is expected to put together, independently of the
code: both polylines are cut where they meet, each piece is kept or dropped by the side of the other
polyline it is on, and the kept pieces are stitched.
-/
namespace Cavc.Spec
open scoped Classical
noncomputable section

/-! ### Cutting a polyline -/

/-- A place where a polyline is cut: the segment, the position, and whether an overlap with the other
polyline begins there. -/
structure Cut where
  seg : ℕ
  pos : V2
  overlap : Bool

/-- `cs` lists cuts in the order they come along `p`: by segment and, on the same one, by distance
from its start. -/
def AlongPline (p : Polyline) (cs : List Cut) : Prop :=
  cs.Pairwise fun a b => a.seg < b.seg ∨ (a.seg = b.seg ∧
    ∀ v1 v2, IsSeg p a.seg v1 v2 → dist2 v1.pos a.pos ≤ dist2 v1.pos b.pos)

/-- `w` is the start vertex of what is left of the segment from `v` to `e` after it is cut
(property C11) at the points of the list in turn. -/
def Rest (e : Vertex) : Vertex → List V2 → Vertex → Prop
  | v, [], w => w = v
  | v, x :: xs, w => ∃ r, splitAtPoint v e x = .ok r ∧ Rest e r.splitVertex xs w

/-- The vertexes with one more; if it is at the position of the last one, only its bulge counts. -/
def joined (vs : List Vertex) (v : Vertex) : List Vertex :=
  match vs.getLast? with
  | none => [v]
  | some u => if Near (1 / 10 ^ 5) u.pos v.pos then vs.dropLast ++ [⟨u.pos, v.bulge⟩] else vs ++ [v]

/-- The piece from a cut to the next one of the same segment; `before` are the cuts that come before. -/
def PieceWithin (p : Polyline) (before : List Cut) (c c' : Cut) (s : Polyline) : Prop :=
  ∃ v e u r, IsSeg p c.seg v e ∧
    Rest e v (((before ++ [c]).filter fun d => d.seg = c.seg).map Cut.pos) u ∧
    splitAtPoint u e c'.pos = .ok r ∧ s = ⟨false, [r.updatedStart, r.splitVertex]⟩

/-- The piece from a cut, over at least one vertex of the closed polyline, to a cut: what is left of
the segment after the cut, the vertexes of the polyline up to the segment of the second cut (at least
one, at most all of them), and the part of that segment up to the cut. -/
def PieceAcross (p : Polyline) (c c' : Cut) (s : Polyline) : Prop :=
  let n := p.vertexes.length
  ∃ v e r us u v' e' r', IsSeg p c.seg v e ∧ splitAtPoint v e c.pos = .ok r ∧
    ((p.vertexes.rotate (c.seg + 1)).take ((c'.seg + n - (c.seg + 1)) % n + 1)).foldl joined
      [r.splitVertex] = us ++ [u] ∧
    IsSeg p c'.seg v' e' ∧ splitAtPoint u e' c'.pos = .ok r' ∧
    s = ⟨false, joined (us ++ [r'.updatedStart]) ⟨c'.pos, 0⟩⟩

/-- The piece is kept for the side it is on: `keep` holds at the midpoint (property C16) of its last
segment. -/
def KeptBy (keep : V2 → Prop) (s : Polyline) : Prop :=
  ∃ l u w m, s.vertexes = l ++ [u, w] ∧ segMidpoint u w = .ok m ∧ keep m

/-- All vertexes are at the same position. -/
def Tiny (s : Polyline) : Prop :=
  ∀ a ∈ s.vertexes, ∀ b ∈ s.vertexes, Near (1 / 10 ^ 5) a.pos b.pos

/-- What comes of the cut number `i` of `cs`: nothing if an overlap begins there; otherwise the piece
to the next cut (after the last one the first one comes next), if it is not degenerate and if it is
kept. -/
def SliceAt (p : Polyline) (keep : V2 → Prop) (cs : List Cut) (i : ℕ) (o : Option Polyline) : Prop :=
  ∃ c c', cs[i]? = some c ∧ cs[(i + 1) % cs.length]? = some c' ∧
    ((c.overlap = true ∧ o = none) ∨
     (c.overlap = false ∧ i + 1 < cs.length ∧ c'.seg = c.seg ∧ ∃ s, PieceWithin p (cs.take i) c c' s ∧
        o = if ¬ Tiny s ∧ KeptBy keep s then some s else none) ∨
     (c.overlap = false ∧ (i + 1 = cs.length ∨ c'.seg ≠ c.seg) ∧ ∃ s, PieceAcross p c c' s ∧
        o = if KeptBy keep s then some s else none))

/-- `r` lists the kept pieces, in some order, of the polyline cut at all of `cuts`. -/
def KeptSlices (p : Polyline) (cuts : List Cut) (keep : V2 → Prop) (r : List Polyline) : Prop :=
  ∃ (cs : List Cut) (os : List (Option Polyline)), cs.Perm cuts ∧ AlongPline p cs ∧ os.length = cs.length ∧
    (∀ i o, os[i]? = some o → SliceAt p keep cs i o) ∧ r.Perm (os.filterMap id)

/-! ### The cuts -/

/-- The first polyline is cut at the isolated intersects and at both ends of each overlap, which
begins at its start. -/
def cutsOfFirst (intrs starts ends : List PlineIntersect) : List Cut :=
  (intrs.map fun x => ⟨x.sIndex1, x.pos, false⟩) ++ (starts.map fun x => ⟨x.sIndex1, x.pos, true⟩) ++
    ends.map fun x => ⟨x.sIndex1, x.pos, false⟩

/-- The second polyline is cut at the same points; if it goes in the opposite direction, an overlap
begins, along it, at the end. -/
def cutsOfSecond (intrs : List PlineIntersect) (overlaps : List (PlineIntersect × PlineIntersect × Bool)) :
    List Cut :=
  (intrs.map fun x => ⟨x.sIndex2, x.pos, false⟩) ++
    overlaps.flatMap fun o => [⟨o.1.sIndex2, o.1.pos, !o.2.2⟩, ⟨o.2.1.sIndex2, o.2.1.pos, o.2.2⟩]

/-! ### The parts of the operations -/

/-- The polyline winds around `x`. -/
def WindsAround (p : Polyline) (x : V2) : Prop := ∃ w, getWindingNumber p x = .ok w ∧ w ≠ 0

/-- The two polylines go around in the same direction: their areas have the same sign. -/
def SameTurn (p q : Polyline) : Prop := ∃ a b, getArea p = .ok a ∧ getArea q = .ok b ∧ (a < 0 ↔ b < 0)

/-- `q` is `p`, with the direction inverted (property C28) if `flag` is set. -/
def Oriented (flag : Bool) (p q : Polyline) : Prop :=
  if flag then invertDirection p = .ok q else q = p

/-- A boundary that an operation puts together: of the pieces of A those inside or outside B, of the
pieces of B those inside or outside A, going around in the same or in opposite directions. -/
structure Part where
  insideB : Bool
  insideA : Bool
  opposite : Bool

/-- Union: what is outside the other one of both. Intersection: what is inside the other one. A minus
B: A outside B and, in the opposite direction, B inside A. XOR: A minus B and B minus A. -/
def partsOf : CombineMode → List Part
  | .union => [⟨false, false, false⟩]
  | .intersect => [⟨true, true, false⟩]
  | .exclude => [⟨false, true, true⟩]
  | .xor => [⟨false, true, true⟩, ⟨true, false, true⟩]

/-- Which slice is preferred after slice `i` (property C45). Slices below `a` are pieces of A, from `a`
below `b` of B, from `b` below `c` overlaps in the direction of A and from `c` on of B. Pieces that are
not overlaps are preferred, for a part with opposite directions those of the other polyline; an
overlap is not followed by an overlap. -/
def preferred (part : Part) (a b c i : ℕ) : List (ℕ → Prop) :=
  if part.opposite = false then
    (fun k => k < b) :: if i < b then [fun _ => True] else []
  else if i < a then [fun k => a ≤ k ∧ k < b, fun _ => True]
  else if i < b then [fun k => k < a, fun _ => True]
  else if i < c then [fun k => a ≤ k ∧ k < b, fun k => k < a]
  else [fun k => k < a, fun k => a ≤ k ∧ k < b]

/-- `res` are the closed polylines of a part of an operation on `A` and `B`, given their isolated
intersects and their overlaps: the kept pieces of A and B and the overlaps, in the direction of A and
of B, the ones of B all inverted if that is necessary for the direction they have to go, are stitched
(property C44). -/
def PartResult (A B : Polyline) (intrs : List PlineIntersect) (ov : CoincidentSlices) (part : Part)
    (res : List Polyline) : Prop :=
  ∃ (flip : Bool) (sA sB sB' cB : List Polyline) (sel : StitchSelector) (chains : List (List ℕ × Bool)),
    (flip = true ↔ (part.opposite = true ↔ SameTurn A B)) ∧
    KeptSlices A (cutsOfFirst intrs ov.sliceStartPoints ov.sliceEndPoints)
      (fun x => WindsAround B x ↔ part.insideB = true) sA ∧
    KeptSlices B (cutsOfSecond intrs
        (ov.sliceStartPoints.zip (ov.sliceEndPoints.zip ov.coincidentIsOpposingDirection)))
      (fun x => WindsAround A x ↔ part.insideA = true) sB ∧
    List.Forall₂ (Oriented flip) sB sB' ∧
    List.Forall₂ (fun so q => Oriented (so.2 != flip) so.1 q)
      (ov.coincidentSlices.zip ov.coincidentIsOpposingDirection) cB ∧
    let slices := sA ++ sB' ++ ov.coincidentSlices ++ cB
    let verts : ℕ → List Vertex := fun i => (slices.getD i Polyline.empty).vertexes
    (∀ i avail, avail ≠ [] → ∃ r, sel i avail = .ok r ∧ Picks avail (preferred part sA.length
      (sA.length + sB'.length) (sA.length + sB'.length + ov.coincidentSlices.length) i) r) ∧
    res = chains.filterMap (closedChain verts) ∧
    (chains.map Prod.fst).flatten.Perm (List.range slices.length) ∧
    SelectedChains (fun i j => Follows (1 / 10 ^ 4) (verts i) (verts j)) sel chains

/-- The result when the polylines do not meet: by whether A is in B or B is in A. -/
def apartResult (A B : Polyline) (aInB bInA : Prop) : CombineMode → CombineResult
  | .union => if aInB then ⟨[B], []⟩ else if bInA then ⟨[A], []⟩ else ⟨[A, B], []⟩
  | .exclude => if aInB then ⟨[], []⟩ else if bInA then ⟨[A], [B]⟩ else ⟨[A], []⟩
  | .intersect => if aInB then ⟨[A], []⟩ else if bInA then ⟨[B], []⟩ else ⟨[], []⟩
  | .xor => if aInB then ⟨[B], [A]⟩ else if bInA then ⟨[A], [B]⟩ else ⟨[A, B], []⟩

/-- The result when one overlap goes all the way around. -/
def sameResult (A : Polyline) : CombineMode → CombineResult
  | .union => ⟨[A], []⟩
  | .exclude => ⟨[], []⟩
  | .intersect => ⟨[A], []⟩
  | .xor => ⟨[], []⟩

/-- The result made of the polylines of all parts: for the union the ones that go around like A remain
and the other ones are holes; otherwise all remain. -/
def metResult (A : Polyline) (mode : CombineMode) (res : List Polyline) : CombineResult :=
  match mode with
  | .union => ⟨res.filter fun q => SameTurn A q, res.filter fun q => ¬ SameTurn A q⟩
  | _ => ⟨res, []⟩

end
end Cavc.Spec
