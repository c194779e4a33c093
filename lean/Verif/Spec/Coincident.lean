import Verif.Spec.Intersects

/-!
What joining coincident intersects into slices is expected to give. A coincident intersect says that
segment `sIndex1` of the first polyline and segment `sIndex2` of the second overlap between two
points.
-/
namespace Cavc.Spec
noncomputable section

/-- `w` is the vertex `splitAtPoint` (property C11) puts at the point `x` of segment `i`. -/
def CutVertex (p : Polyline) (i : ℕ) (x : V2) (w : Vertex) : Prop :=
  ∃ v1 v2 r, IsSeg p i v1 v2 ∧ splitAtPoint v1 v2 x = .ok r ∧ w = r.splitVertex

/-- `c'` is `c` with the point nearer to the start of the segment of the first polyline first. -/
def FromStart (p : Polyline) (c c' : CoincidentIntersect) : Prop :=
  (c' = c ∨ c' = ⟨c.sIndex1, c.sIndex2, c.point2, c.point1⟩) ∧
  ∀ v1 v2, IsSeg p c.sIndex1 v1 v2 → dist2 v1.pos c'.point1 ≤ dist2 v1.pos c'.point2

/-- `a` does not begin after `b` along the first polyline. -/
def NotAfter (p : Polyline) (a b : CoincidentIntersect) : Prop :=
  a.sIndex1 < b.sIndex1 ∨ (a.sIndex1 = b.sIndex1 ∧
    ∀ v1 v2, IsSeg p a.sIndex1 v1 v2 → dist2 v1.pos a.point1 ≤ dist2 v1.pos b.point1)

/-- `b` begins where `a` ends. -/
def Connects (p : Polyline) (a b : CoincidentIntersect) : Prop :=
  ∃ w, CutVertex p a.sIndex1 a.point2 w ∧ Near (1 / 10 ^ 5) b.point1 w.pos

/-- `gs` cuts the list `l` into its maximal runs of connected intersects. -/
structure Runs (p : Polyline) (l : List CoincidentIntersect) (gs : List (List CoincidentIntersect)) :
    Prop where
  flatten : gs.flatten = l
  nonempty : ∀ g ∈ gs, g ≠ []
  connected : ∀ g ∈ gs, g.IsChain (Connects p)
  maximal : gs.IsChain fun g g' => ∀ a ∈ g.getLast?, ∀ b ∈ g'.head?, ¬ Connects p a b

/-- The slice of a run: open, with a vertex at the beginning of every intersect and one at the end of
the last. -/
def IsSlice (p : Polyline) (g : List CoincidentIntersect) (s : Polyline) : Prop :=
  s.isClosed = false ∧ ∃ ws w c, s.vertexes = ws ++ [w] ∧
    List.Forall₂ (fun c w => CutVertex p c.sIndex1 c.point1 w) g ws ∧
    c ∈ g.getLast? ∧ CutVertex p c.sIndex1 c.point2 w

/-- The start of the slice of a run. An index is the one before if it starts at the beginning of a
segment. -/
def IsSliceStart (p1 p2 : Polyline) (g : List CoincidentIntersect) (x : PlineIntersect) : Prop :=
  ∃ c w v1 v2 u1 u2, c ∈ g.head? ∧ CutVertex p1 c.sIndex1 c.point1 w ∧ IsSeg p1 c.sIndex1 v1 v2 ∧
    IsSeg p2 c.sIndex2 u1 u2 ∧ x.pos = w.pos ∧
    (Near (1 / 10 ^ 5) v1.pos c.point1 → IsPrev p1.vertexes.length c.sIndex1 x.sIndex1) ∧
    (¬ Near (1 / 10 ^ 5) v1.pos c.point1 → x.sIndex1 = c.sIndex1) ∧
    (Near (1 / 10 ^ 5) u1.pos x.pos → IsPrev p2.vertexes.length c.sIndex2 x.sIndex2) ∧
    (¬ Near (1 / 10 ^ 5) u1.pos x.pos → x.sIndex2 = c.sIndex2)

/-- The end of the slice of a run. -/
def IsSliceEnd (p2 : Polyline) (g : List CoincidentIntersect) (x : PlineIntersect) : Prop :=
  ∃ c u1 u2, c ∈ g.getLast? ∧ IsSeg p2 c.sIndex2 u1 u2 ∧ x.pos = c.point2 ∧ x.sIndex1 = c.sIndex1 ∧
    (Near (1 / 10 ^ 5) u1.pos x.pos → IsPrev p2.vertexes.length c.sIndex2 x.sIndex2) ∧
    (¬ Near (1 / 10 ^ 5) u1.pos x.pos → x.sIndex2 = c.sIndex2)

/-- `b` says that the two segments of the first intersect of the run do not start in directions
at less than a right angle. -/
def IsOpposing (p1 p2 : Polyline) (g : List CoincidentIntersect) (b : Bool) : Prop :=
  ∃ c v1 v2 u1 u2 γ δ, c ∈ g.head? ∧ IsSeg p1 c.sIndex1 v1 v2 ∧ IsSeg p2 c.sIndex2 u1 u2 ∧
    IsPath v1 v2 γ ∧ IsPath u1 u2 δ ∧
    (b = false ↔ 0 < (velocity γ 0).x * (velocity δ 0).x + (velocity γ 0).y * (velocity δ 0).y)

/-- The result lists the slices of the runs `gs`, in order. -/
structure SlicesOf (p1 p2 : Polyline) (gs : List (List CoincidentIntersect)) (r : CoincidentSlices) :
    Prop where
  slices : List.Forall₂ (IsSlice p1) gs r.coincidentSlices
  starts : List.Forall₂ (IsSliceStart p1 p2) gs r.sliceStartPoints
  ends : List.Forall₂ (IsSliceEnd p2) gs r.sliceEndPoints
  opposing : List.Forall₂ (IsOpposing p1 p2) gs r.coincidentIsOpposingDirection

/-- The last run ends where the first begins. -/
def ConnectsAround (p : Polyline) (gs : List (List CoincidentIntersect)) : Prop :=
  1 < gs.length ∧ ∃ g ∈ gs.head?, ∃ g' ∈ gs.getLast?, ∃ a ∈ g'.getLast?, ∃ b ∈ g.head?, ∃ w w',
    CutVertex p a.sIndex1 a.point2 w ∧ CutVertex p b.sIndex1 b.point1 w' ∧
    Near (1 / 10 ^ 5) w.pos w'.pos

end
end Cavc.Spec
