import Verif.Spec.Offset

/-!
How two consecutive raw offset segments `s1`, `s2` are joined: what is appended to the raw offset
that already ends on `s1` so that it goes on along `s2`. Points where the segments meet are described
by geometry alone (points of a line on a circle, common points of two circles).
-/
namespace Cavc.Spec
noncomputable section

/-- The infinite line through `p` and `q` does not meet the circle. (A segment shorter than 1e-4
counts as the point `p`, with a tolerance of 1e-8 for the square of its distance from `c`.) -/
def LineMisses (p q : V2) (r : ℝ) (c : V2) : Prop :=
  (dist2 p q < 1 / 10 ^ 8 ∧ 1 / 10 ^ 8 ≤ |dist2 p c - r ^ 2|) ∨
  (1 / 10 ^ 8 ≤ dist2 p q ∧ ∀ t, ¬ OnCircle r c (lerp p q t))

/-- `x`, at parameter `t` of the line from `p` to `q`, is the point where the line meets the circle;
if there are two, the one not farther from `o`; if the line is tangent up to the tolerance, the
point nearest to the center. -/
def LineMeets (p q : V2) (r : ℝ) (c o : V2) (t : ℝ) (x : V2) : Prop :=
  x = lerp p q t ∧
  ((dist2 p q < 1 / 10 ^ 8 ∧ |dist2 p c - r ^ 2| < 1 / 10 ^ 8 ∧ t = 0) ∨
   (1 / 10 ^ 8 ≤ dist2 p q ∧ (∀ s, dist2 x c ≤ dist2 (lerp p q s) c) ∧
      |dist2 x c - r ^ 2| * (4 * dist2 p q) < 1 / 10 ^ 8) ∨
   (1 / 10 ^ 8 ≤ dist2 p q ∧ OnCircle r c x ∧
      ∀ s, OnCircle r c (lerp p q s) → dist2 x o ≤ dist2 (lerp p q s) o))

/-- The circles coincide up to 1e-8. -/
def SameCircles (r1 : ℝ) (c1 : V2) (r2 : ℝ) (c2 : V2) : Prop :=
  distance c1 c2 < 1 / 10 ^ 8 ∧ |r1 - r2| < 1 / 10 ^ 8

/-- `x` is the common point of the circles, of two the one not farther from `o`; common points closer
than 1e-8 count as one, and so do tangent circles up to the tolerance. -/
def CirclesMeet (r1 : ℝ) (c1 : V2) (r2 : ℝ) (c2 o x : V2) : Prop :=
  (OnCircle r1 c1 x ∧ OnCircle r2 c2 x ∧ ∀ y, OnCircle r1 c1 y → OnCircle r2 c2 y →
      dist2 x o ≤ dist2 y o ∨ Near (1 / 10 ^ 8) x y) ∨
  ((∀ y, ¬ (OnCircle r1 c1 y ∧ OnCircle r2 c2 y)) ∧
    |distance x c1 - r1| ≤ 2 / 10 ^ 8 * (1 + min r1 r2 / distance c1 c2) ∧
    |distance x c2 - r2| ≤ 2 / 10 ^ 8 * (1 + min r1 r2 / distance c1 c2))

/-- The end of `s1` and the start `w'` of the second segment are connected by an arc of at most a
half circle in the direction `ccw`; its sweep is, up to the sign, the angle between the two points
seen from the original corner, so that the arc is about that corner if the corner turns that way. -/
def ArcConnects (s1 : OffsetSegment) (w' : Vertex) (ccw : Prop) (added : List Vertex) : Prop :=
  ∃ w, added = [w, w'] ∧ w.pos = s1.v2.pos ∧ |w.bulge| ≤ 1 ∧ (ccw → 0 ≤ w.bulge) ∧
    (¬ ccw → w.bulge ≤ 0) ∧
    ∀ θ, |θ| ≤ Real.pi → s1.v2.pos ≠ s1.origV2Pos → w'.pos = rot s1.origV2Pos θ s1.v2.pos →
      |sweep w| = |θ|

/-- `w` begins what is left of the arc from `u1` to `u2` when it is cut off before `x`: if `x` is the
point at parameter `s` of the arc, the rest sweeps the part `1 - s` of its angle (and so ends at
`u2`). -/
def StartsAt (u1 u2 : Vertex) (x : V2) (w : Vertex) : Prop :=
  w.pos = x ∧ |w.bulge| ≤ 1 ∧
    ∀ s, 0 ≤ s → s < 1 → AtParam u1 u2 s x → sweep w = (1 - s) * sweep u1

/-- `r'` is `r` with the arc from its last vertex to `v2` cut off after `x`: only the bulge of the last
vertex changes, and if `x` is the point at parameter `s` of that arc and `c` its center, the rest
sweeps the part `s` of its angle (and so ends at `x`). -/
def EndsAt (c : V2) (v2 : Vertex) (x : V2) (r r' : Polyline) : Prop :=
  ∃ pre u u', r.vertexes = pre ++ [u] ∧ r' = ⟨r.isClosed, pre ++ [u']⟩ ∧ u'.pos = u.pos ∧
    (IsLine u ∨ Near (1 / 10 ^ 8) u.pos v2.pos → u' = u) ∧
    (¬ IsLine u → ¬ Near (1 / 10 ^ 8) u.pos v2.pos → IsCenter u v2 c →
      ∀ s, 0 < s → s ≤ 1 → AtParam u v2 s x → sweep u' = s * sweep u)

/-- Twice the signed area spanned by the directions of the two raw segments. -/
def turn (s1 s2 : OffsetSegment) : ℝ :=
  (s1.v2.pos.x - s1.v1.pos.x) * (s2.v2.pos.y - s2.v1.pos.y) -
    (s1.v2.pos.y - s1.v1.pos.y) * (s2.v2.pos.x - s2.v1.pos.x)

/-- Joining two lines. -/
def JoinsLineLine (ccw : Prop) (s1 s2 : OffsetSegment) (added : List Vertex) : Prop :=
  ((s1.collapsedArc ∨ s2.collapsedArc) ∧ ArcConnects s1 ⟨s2.v1.pos, 0⟩ ccw added) ∨
  (¬ (s1.collapsedArc ∨ s2.collapsedArc) ∧ |turn s1 s2| ≤ 1 / 10 ^ 8 ∧ ∀ w ∈ added, IsLine w) ∨
  (¬ (s1.collapsedArc ∨ s2.collapsedArc) ∧ 1 / 10 ^ 8 < |turn s1 s2| ∧ ∃ t0 t1 x,
    lerp s1.v1.pos s1.v2.pos t0 = x ∧ lerp s2.v1.pos s2.v2.pos t1 = x ∧
    ((-(1 / 10 ^ 8) ≤ t0 ∧ t0 ≤ 1 + 1 / 10 ^ 8 ∧ -(1 / 10 ^ 8) ≤ t1 ∧ t1 ≤ 1 + 1 / 10 ^ 8 ∧
        added = [⟨x, 0⟩]) ∨
     (¬ (-(1 / 10 ^ 8) ≤ t0 ∧ t0 ≤ 1 + 1 / 10 ^ 8 ∧ -(1 / 10 ^ 8) ≤ t1 ∧ t1 ≤ 1 + 1 / 10 ^ 8) ∧
        (1 < t0 ∧ (t1 < 0 ∨ 1 < t1)) ∧ ArcConnects s1 ⟨s2.v1.pos, 0⟩ ccw added) ∨
     (¬ (-(1 / 10 ^ 8) ≤ t0 ∧ t0 ≤ 1 + 1 / 10 ^ 8 ∧ -(1 / 10 ^ 8) ≤ t1 ∧ t1 ≤ 1 + 1 / 10 ^ 8) ∧
        ¬ (1 < t0 ∧ (t1 < 0 ∨ 1 < t1)) ∧ added = [⟨s1.v2.pos, 0⟩, s2.v1])))

/-- Joining a line to an arc with center `c`. -/
def JoinsLineArc (ccw : Prop) (s1 s2 : OffsetSegment) (c : V2) (added : List Vertex) : Prop :=
  (LineMisses s1.v1.pos s1.v2.pos (distance s2.v1.pos c) c ∧ ArcConnects s1 s2.v1 ccw added) ∨
  ∃ t x, LineMeets s1.v1.pos s1.v2.pos (distance s2.v1.pos c) c s1.origV2Pos t x ∧
    ((0 ≤ t ∧ t ≤ 1 ∧ InSweep (1 / 10 ^ 8) s2.v1 s2.v2 c x ∧
        ∃ w, added = [w] ∧ StartsAt s2.v1 s2.v2 x w) ∨
     (¬ (0 ≤ t ∧ t ≤ 1 ∧ InSweep (1 / 10 ^ 8) s2.v1 s2.v2 c x) ∧
        ((1 < t ∧ ¬ InSweep (1 / 10 ^ 8) s2.v1 s2.v2 c x) ∨ s1.collapsedArc) ∧
        ArcConnects s1 s2.v1 ccw added) ∨
     (¬ (0 ≤ t ∧ t ≤ 1 ∧ InSweep (1 / 10 ^ 8) s2.v1 s2.v2 c x) ∧
        ¬ ((1 < t ∧ ¬ InSweep (1 / 10 ^ 8) s2.v1 s2.v2 c x) ∨ s1.collapsedArc) ∧
        added = [⟨s1.v2.pos, 0⟩, s2.v1]))

/-- Joining an arc with center `c` to a line: `r` becomes `r'`. -/
def JoinsArcLine (ccw : Prop) (s1 s2 : OffsetSegment) (c : V2) (r r' : Polyline) : Prop :=
  (LineMisses s2.v1.pos s2.v2.pos (distance s1.v1.pos c) c ∧
    ∃ added, Appends r added r' ∧ ArcConnects s1 s2.v1 ccw added) ∨
  ∃ t x o, (o = if s2.collapsedArc then s2.v1.pos else s1.origV2Pos) ∧
    LineMeets s2.v1.pos s2.v2.pos (distance s1.v1.pos c) c o t x ∧
    ((0 ≤ t ∧ t ≤ 1 ∧ InSweep (1 / 10 ^ 8) s1.v1 s1.v2 c x ∧
        ∃ q, EndsAt c s1.v2 x r q ∧ Appends q [⟨x, 0⟩] r') ∨
     (¬ (0 ≤ t ∧ t ≤ 1 ∧ InSweep (1 / 10 ^ 8) s1.v1 s1.v2 c x) ∧
        ∃ added, Appends r added r' ∧ ArcConnects s1 s2.v1 ccw added))

/-- Joining an arc with center `c1` to an arc with center `c2`. -/
def JoinsArcArc (ccw : Prop) (s1 s2 : OffsetSegment) (c1 c2 : V2) (r r' : Polyline) : Prop :=
  (SameCircles (distance s1.v1.pos c1) c1 (distance s2.v1.pos c2) c2 ∧ Appends r [s2.v1] r') ∨
  (¬ SameCircles (distance s1.v1.pos c1) c1 (distance s2.v1.pos c2) c2 ∧
    (∀ y, ¬ (OnCircle (distance s1.v1.pos c1) c1 y ∧ OnCircle (distance s2.v1.pos c2) c2 y)) ∧
    ∃ added, Appends r added r' ∧ ArcConnects s1 s2.v1 ccw added) ∨
  ∃ x, ¬ SameCircles (distance s1.v1.pos c1) c1 (distance s2.v1.pos c2) c2 ∧
    CirclesMeet (distance s1.v1.pos c1) c1 (distance s2.v1.pos c2) c2 s1.origV2Pos x ∧
    ((InSweep (1 / 10 ^ 8) s1.v1 s1.v2 c1 x ∧ InSweep (1 / 10 ^ 8) s2.v1 s2.v2 c2 x ∧
        ∃ q w, EndsAt c1 s1.v2 x r q ∧ StartsAt s2.v1 s2.v2 x w ∧ Appends q [w] r') ∨
     (¬ (InSweep (1 / 10 ^ 8) s1.v1 s1.v2 c1 x ∧ InSweep (1 / 10 ^ 8) s2.v1 s2.v2 c2 x) ∧
        ∃ added, Appends r added r' ∧ ArcConnects s1 s2.v1 ccw added))

/-- `r'` is `r`, which ends on `s1`, joined to `s2`. -/
def Joins (ccw : Prop) (s1 s2 : OffsetSegment) (r r' : Polyline) : Prop :=
  (IsLine s1.v1 ∧ IsLine s2.v1 ∧ ∃ added, Appends r added r' ∧ JoinsLineLine ccw s1 s2 added) ∨
  (IsLine s1.v1 ∧ ¬ IsLine s2.v1 ∧ ∃ added c, Appends r added r' ∧ IsCenter s2.v1 s2.v2 c ∧
    JoinsLineArc ccw s1 s2 c added) ∨
  (¬ IsLine s1.v1 ∧ IsLine s2.v1 ∧ ∃ c, IsCenter s1.v1 s1.v2 c ∧ JoinsArcLine ccw s1 s2 c r r') ∨
  (¬ IsLine s1.v1 ∧ ¬ IsLine s2.v1 ∧ ∃ c1 c2, IsCenter s1.v1 s1.v2 c1 ∧ IsCenter s2.v1 s2.v2 c2 ∧
    JoinsArcArc ccw s1 s2 c1 c2 r r')

/-- `r'` is `r`, which ends on the first of the segments, joined to all the others in turn. -/
inductive JoinsAll (ccw : Prop) : List OffsetSegment → Polyline → Polyline → Prop
  | last (s : OffsetSegment) (r : Polyline) : JoinsAll ccw [s] r r
  | step (s1 s2 : OffsetSegment) (rest : List OffsetSegment) (r r1 r2 : Polyline) :
      Joins ccw s1 s2 r r1 → JoinsAll ccw (s2 :: rest) r1 r2 → JoinsAll ccw (s1 :: s2 :: rest) r r2

/-- Moving the first vertex of the raw offset to where the closing join ended: an arc that starts there
is cut off. -/
def FirstMoved (x : V2) (r r' : Polyline) : Prop :=
  ∃ v rest w, r.vertexes = v :: rest ∧ r' = ⟨r.isClosed, w :: rest⟩ ∧
    ((IsLine v ∧ w = ⟨x, v.bulge⟩) ∨
     (¬ IsLine v ∧ rest = [] ∧ w = v) ∨
     (¬ IsLine v ∧ ∃ u rest', rest = u :: rest' ∧ StartsAt v u x w))

/-- The second vertex replaces the first if they are closer than 1e-5. -/
def FirstPruned (r r' : Polyline) : Prop :=
  (∃ v u rest, r.vertexes = v :: u :: rest ∧ Near (1 / 10 ^ 5) v.pos u.pos ∧
    r' = ⟨r.isClosed, u :: rest⟩) ∨
  ((∀ v u rest, r.vertexes = v :: u :: rest → ¬ Near (1 / 10 ^ 5) v.pos u.pos) ∧ r' = r)

/-- Closing: the join of the last segment with the first is made on the last vertex alone; what it
gives replaces that vertex, except for its last vertex `e`: the first vertex is moved there instead,
unless it was replaced by the first join already. -/
def Closes (ccw : Prop) (back first : OffsetSegment) (firstReplaced : Prop) (r r' : Polyline) : Prop :=
  ∃ pre last q e q1 q2, r.vertexes = pre ++ [last] ∧
    Joins ccw back first ⟨false, [last]⟩ ⟨false, q ++ [e]⟩ ∧
    q1 = ⟨r.isClosed, pre ++ q⟩ ∧ (firstReplaced → q2 = q1) ∧
    (¬ firstReplaced → FirstMoved e.pos q1 q2) ∧ FirstPruned q2 r'

/-- `r` is the raw offset of the polyline: the offset segments joined in turn, with the last joined to
the first if the polyline is closed. -/
def RawOffset (p : Polyline) (offset : ℝ) (r : Polyline) : Prop :=
  ∃ s0 rest, List.Forall₂ (fun v s => Offsets offset v.1 v.2 s) (segs p) (s0 :: rest) ∧
    ((rest = [] ∧ s0.collapsedArc ∧ r = ⟨false, []⟩) ∨
     (¬ (rest = [] ∧ s0.collapsedArc) ∧ ∃ (back : OffsetSegment) (r1 r2 r3 : Polyline),
        (s0 :: rest).getLast? = some back ∧
        (rest = [] → r1 = ⟨p.isClosed, [s0.v1]⟩) ∧
        (∀ s1 rest', rest = s1 :: rest' → Joins (offset < 0) s0 s1 ⟨p.isClosed, [s0.v1]⟩ r1) ∧
        (rest ≠ [] → JoinsAll (offset < 0) rest r1 r2) ∧ (rest = [] → r2 = r1) ∧
        ((p.isClosed ∧ 1 < r2.vertexes.length ∧
            Closes (offset < 0) back s0 (r1.vertexes.length = 1) r2 r3) ∨
         (¬ (p.isClosed ∧ 1 < r2.vertexes.length) ∧ Appends r2 [back.v2] r3)) ∧
        r = if r3.vertexes.length = 1 then ⟨r3.isClosed, []⟩ else r3))

end
end Cavc.Spec
