import Verif.Spec.Combine

/-!
The regions that polygons bound, independently of the code, and polygons in general position.
-/
namespace Cavc.Spec
noncomputable section

/-! ### Regions -/

/-- The path of the closed polyline winds `k` times around `x`. -/
def Winding (p : Polyline) (x : V2) (k : ℤ) : Prop :=
  ∃ γ, IsPathOf p γ ∧ (k : ℝ) = (∑ i ∈ Finset.range (segs p).length, turning x (γ i)) / (2 * Real.pi)

/-- `x` is in the region that the closed polylines bound together by the even-odd rule: they wind an
odd number of times around `x`, all together. -/
def EvenOdd (ps : List Polyline) (x : V2) : Prop :=
  ∃ ks : List ℤ, List.Forall₂ (fun p k => Winding p x k) ps ks ∧ Odd ks.sum

/-- The closed polyline goes once around what is inside: counterclockwise if `s` is 1, clockwise if it
is -1. Its signed area has the sign of `s`, and it winds 0 or `s` times around every point that is not
on it. All closed polylines that do not meet themselves do. -/
def GoesOnce (p : Polyline) (s : ℤ) : Prop :=
  (s = 1 ∨ s = -1) ∧
  (∃ γ, IsPathOf p γ ∧ 0 < s * ∑ i ∈ Finset.range (segs p).length, curveArea (γ i)) ∧
  ∀ x, ¬ OnPline p x → ∀ k, Winding p x k → k = 0 ∨ k = s

/-! ### Polygons in general position -/

/-- A closed polyline of straight segments without repeated vertexes. -/
structure Polygon (p : Polyline) : Prop where
  closed : p.isClosed = true
  lines : ∀ v ∈ p.vertexes, IsLine v
  far : ∀ i v1 v2, IsSeg p i v1 v2 → ¬ Near (1 / 10 ^ 5) v1.pos v2.pos

/-- The segments from `a` to `b` and from `p` to `q` cross at `x`, away from their ends and not almost
parallel. -/
structure Crossing (a b p q x : V2) : Prop where
  first : ∃ s, 0 < s ∧ s < 1 ∧ x = lerp a b s
  second : ∃ t, 0 < t ∧ t < 1 ∧ x = lerp p q t
  angle : 1 / 10 ^ 8 < |(b.x - a.x) * (q.y - p.y) - (b.y - a.y) * (q.x - p.x)|
  away : ¬ Near (1 / 10 ^ 5) x a ∧ ¬ Near (1 / 10 ^ 5) x b ∧ ¬ Near (1 / 10 ^ 5) x p ∧ ¬ Near (1 / 10 ^ 5) x q

/-- The segment from `p` to `q` is on one side of the line from `a` to `b`, with a margin. -/
def OneSide (a b p q : V2) : Prop :=
  let m := 1 / 10 ^ 8 * (1 + |side a b q - side a b p|)
  (m < side a b p ∧ m < side a b q) ∨ (side a b p < -m ∧ side a b q < -m)

/-- The numbers `a` and `b` are before `p` and `q`, with a margin. -/
def Before (a b p q : ℝ) : Prop := max a b + 1 / 10 ^ 5 < min p q

/-- The segments from `a` to `b` and from `p` to `q` are away from each other: one is on one side of
the line of the other, or their bounding boxes are apart. -/
def AwayFrom (a b p q : V2) : Prop :=
  OneSide a b p q ∨ OneSide p q a b ∨ Before a.x b.x p.x q.x ∨ Before p.x q.x a.x b.x ∨
    Before a.y b.y p.y q.y ∨ Before p.y q.y a.y b.y

/-- Two polygons are in general position: any two segments of them cross or are away from each other,
and crossings are not close to each other. -/
structure GeneralPosition (A B : Polyline) : Prop where
  pairs : ∀ i j v1 v2 u1 u2, IsSeg A i v1 v2 → IsSeg B j u1 u2 →
    (∃ x, Crossing v1.pos v2.pos u1.pos u2.pos x) ∨ AwayFrom v1.pos v2.pos u1.pos u2.pos
  separate : ∀ i j i' j' v1 v2 u1 u2 v1' v2' u1' u2' x x', IsSeg A i v1 v2 → IsSeg B j u1 u2 →
    IsSeg A i' v1' v2' → IsSeg B j' u1' u2' → Crossing v1.pos v2.pos u1.pos u2.pos x →
    Crossing v1'.pos v2'.pos u1'.pos u2'.pos x' → (i, j) ≠ (i', j') → ¬ Near (3 / 10 ^ 4) x x'

end
end Cavc.Spec
