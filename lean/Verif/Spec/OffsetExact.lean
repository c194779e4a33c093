import Verif.Spec.OffsetPieces
import Verif.Spec.OffsetPolygon

/-!
When the self intersects of a raw offset that are found are exactly the points where it meets itself, and
far enough from each other and from the vertexes for the tolerances not to matter.
-/
namespace Cavc.Spec
noncomputable section

/-- `x`, at parameter `t` of the segment number `k` from `v` to `e`, is the start, the end or a cut of it. -/
def Mark (cuts : List Cut) (k : ℕ) (v e : Vertex) (t : ℝ) (x : V2) : Prop :=
  0 ≤ t ∧ t ≤ 1 ∧ AtParam v e t x ∧ (t = 0 ∨ t = 1 ∨ ∃ c ∈ cuts, c.seg = k ∧ c.pos = x)

/-- The cuts of the closed polyline are inside its segments, none of them comes twice, and on each segment
the cuts and the ends are apart by 1e-5 in some coordinate and, on arcs, by 1e-4 radians. -/
structure CleanCuts (p : Polyline) (cuts : List Cut) : Prop where
  inside : ∀ c ∈ cuts, ∃ v e t, IsSeg p c.seg v e ∧ 0 < t ∧ t < 1 ∧ AtParam v e t c.pos
  distinct : cuts.Pairwise fun a b => a.seg = b.seg → a.pos ≠ b.pos
  separate : ∀ k v e t t' x x', IsSeg p k v e → Mark cuts k v e t x → Mark cuts k v e t' x' → t < t' →
    ¬ Near (1 / 10 ^ 5) x x' ∧ (¬ IsLine v → 1 / 10 ^ 4 ≤ (t' - t) * |sweep v|)

/-- Besides, the cuts are at the points `Q`, at all of them that are on the polyline and on each of the segments
there. -/
structure CutsAt (p : Polyline) (Q : V2 → Prop) (cuts : List Cut) : Prop extends CleanCuts p cuts where
  only : ∀ c ∈ cuts, Q c.pos
  complete : ∀ k v e x, IsSeg p k v e → OnSeg v e x → Q x → ∃ c ∈ cuts, c.seg = k ∧ c.pos = x

/-- The cuts are at the points that the polyline passes more than once. -/
abbrev ExactCuts (p : Polyline) (cuts : List Cut) : Prop := CutsAt p (PassedTwice p) cuts

/-- The segment from `u` to `w` is a part of the one from `v` to `e`: it is of the same kind, about the same center, and
its ends differ by 1e-5 in some coordinate. -/
structure PartOf (u w v e : Vertex) : Prop where
  kind : IsLine u ↔ IsLine v
  points : ∀ x, OnSeg u w x → OnSeg v e x
  ok : SegOk u w
  far : ¬ Near (1 / 10 ^ 5) u.pos w.pos
  center : ¬ IsLine v → ∀ c, IsCenter v e c → IsCenter u w c

/-- No part of a segment of the raw offset that keeps the distance from the polygon is found to meet it. -/
def ClearMeets (p raw : Polyline) (offset : ℝ) : Prop :=
  ∀ k v e u w, IsSeg raw k v e → PartOf u w v e → (∀ x, OnSeg u w x → NotCloser p |offset| x) → ¬ Meets p u w

/-- The sizes are such that the tolerances do not produce intersects: the offset is at least 1/100, the edges are at
least 1/10 and at most a million offsets long, and go straight up or down or 1e-4 to the side. -/
structure PlainSizes (p : Polyline) (offset : ℝ) : Prop where
  large : 1 / 100 ≤ |offset|
  long : ∀ i v w, IsSeg p i v w → 1 / 10 ≤ distance v.pos w.pos
  short : ∀ i v w, IsSeg p i v w → distance v.pos w.pos ≤ 10 ^ 6 * |offset|
  steep : ∀ i v w, IsSeg p i v w → |w.pos.x - v.pos.x| < 1 / 10 ^ 8 ∨ 1 / 10 ^ 4 ≤ |w.pos.x - v.pos.x|

/-- `x` is the first or the last vertex. -/
def IsEnd (s : Polyline) (x : V2) : Prop :=
  ∃ v, (s.vertexes.head? = some v ∨ s.vertexes.getLast? = some v) ∧ v.pos = x

/-- `s` is the part of the raw offset from a cut to the next one, where it is cut at the points `Q`: its ends are
cuts, it is on the raw offset, none of its other points is in `Q`, and it has all of each stretch of such points
that it meets. -/
structure PieceOff (raw : Polyline) (Q : V2 → Prop) (cuts : List Cut) (s : Polyline) : Prop where
  ends : ∀ x, IsEnd s x → ∃ c ∈ cuts, c.pos = x
  along : ∀ x, OnPline s x → OnPline raw x
  proper : ∃ x, OnPline s x ∧ ¬ Q x
  once : ∀ x, OnPline s x → Q x → IsEnd s x
  whole : ∀ K, StretchOff raw Q K → (∃ x ∈ K, OnPline s x) → ∀ x ∈ K, OnPline s x

/-- The part of the raw offset from a cut to the next one, where it is cut at the points that it passes more than
once. -/
abbrev CutPiece (raw : Polyline) (cuts : List Cut) (s : Polyline) : Prop := PieceOff raw (PassedTwice raw) cuts s

/-- A part of the raw offset, from a cut to a cut, that is too close to the polygon, except perhaps for its
ends, but not by more than 1e-4 at its vertexes: such parts are not dropped. -/
structure ShallowPiece (p raw : Polyline) (Q : V2 → Prop) (offset : ℝ) (cuts : List Cut) (s : Polyline) : Prop
    extends PieceOff raw Q cuts s where
  tests : ∀ v ∈ s.vertexes ++ raw.vertexes, OnPline s v.pos → FarEnough p offset v.pos
  closer : ∀ x, OnPline s x → Closer p |offset| x ∨ IsEnd s x

/-- Such a part where the raw offset is cut at the points that it passes more than once. -/
abbrev Shallow (p raw : Polyline) (offset : ℝ) (cuts : List Cut) (s : Polyline) : Prop :=
  ShallowPiece p raw (PassedTwice raw) offset cuts s

/-- A part of the exact offset, from a cut to the same cut, that is not longer than 1/100: such loops are
dropped. -/
structure ShortLoop (p raw : Polyline) (offset : ℝ) (cuts : List Cut) (s : Polyline) : Prop
    extends PieceOff raw (PassedTwice raw) cuts s where
  level : ∀ x, OnPline s x → AtOffset p offset x
  short : EndsMeet (1 / 10 ^ 8) s.vertexes ∧ ∃ l, getPathLength s = .ok l ∧ l ≤ 1 / 10 ^ 2
  small : ∀ x y, OnPline s x → OnPline s y → distance x y ≤ 1 / 10 ^ 2

/-- Different cut points differ by more than 2e-4 in some coordinate. -/
def ApartCuts (cuts : List Cut) : Prop :=
  ∀ a ∈ cuts, ∀ b ∈ cuts, |a.pos.x - b.pos.x| ≤ 2 / 10 ^ 4 → |a.pos.y - b.pos.y| ≤ 2 / 10 ^ 4 → a.pos = b.pos

end
end Cavc.Spec
