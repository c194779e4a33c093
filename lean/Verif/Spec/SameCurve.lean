import Verif.Spec.Intersects
import Verif.Model.Combine

/-!
When two closed polylines are the same curve, written down from another vertex or in the other direction.
-/
namespace Cavc.Spec
noncomputable section

/-- The segment from `u1` to `u2` is the one from `v1` to `v2`, or that one in the other direction. -/
def SameSeg (v1 v2 u1 u2 : Vertex) : Prop :=
  (u1.pos = v1.pos ∧ u2.pos = v2.pos ∧ u1.bulge = v1.bulge) ∨
  (u1.pos = v2.pos ∧ u2.pos = v1.pos ∧ u1.bulge = -v1.bulge)

/-- Every segment of `A` is a segment of `B`, and no other segment of `B` is reported to overlap it. -/
structure SameSegs (A B : Polyline) : Prop where
  each : ∀ i v1 v2, IsSeg A i v1 v2 → ∃ j u1 u2, IsSeg B j u1 u2 ∧ SameSeg v1 v2 u1 u2
  only : ∀ i j j' v1 v2 u1 u2 w1 w2 a b, IsSeg A i v1 v2 → IsSeg B j u1 u2 → IsSeg B j' w1 w2 →
    SameSeg v1 v2 u1 u2 → BoxesClose (1 / 10 ^ 5) v1 v2 w1 w2 → OverlapHit v1 v2 w1 w2 a b → j' = j

/-- What combining a closed polyline with the same curve is expected to give. -/
def combineWithSame (A : Polyline) : CombineMode → CombineResult
  | .union => ⟨[A], []⟩
  | .intersect => ⟨[A], []⟩
  | .exclude => ⟨[], []⟩
  | .xor => ⟨[], []⟩

/-- No two different segments are reported to overlap. -/
def NoOverlaps (A : Polyline) : Prop :=
  ∀ i j v1 v2 u1 u2 a b, IsSeg A i v1 v2 → IsSeg A j u1 u2 → i ≠ j → BoxesClose (1 / 10 ^ 5) v1 v2 u1 u2 →
    ¬ OverlapHit v1 v2 u1 u2 a b

/-- The two polylines have the same segments, in any order and in any directions. -/
def SameCurve (A B : Polyline) : Prop :=
  (∀ i v1 v2, IsSeg A i v1 v2 → ∃ j u1 u2, IsSeg B j u1 u2 ∧ SameSeg v1 v2 u1 u2) ∧
  (∀ j u1 u2, IsSeg B j u1 u2 → ∃ i v1 v2, IsSeg A i v1 v2 ∧ SameSeg v1 v2 u1 u2)

/-- Two different segments that are close to each other are not in one line: they are not parallel, or the second starts
off the line of the first, by more than the tolerances. -/
def NotInLine (A : Polyline) : Prop :=
  ∀ i j v1 v2 u1 u2, IsSeg A i v1 v2 → IsSeg A j u1 u2 → i ≠ j → BoxesClose (1 / 10 ^ 5) v1 v2 u1 u2 →
    1 / 10 ^ 8 < |(v2.pos.x - v1.pos.x) * (u2.pos.y - u1.pos.y) - (v2.pos.y - v1.pos.y) * (u2.pos.x - u1.pos.x)| ∨
    2 / 10 ^ 8 < |side v1.pos v2.pos u1.pos|

end
end Cavc.Spec
