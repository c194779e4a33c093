import Verif.Spec.OffsetExact
import Verif.Spec.Region

/-!
The region that the exact offset of a polygon bounds, independently of the code, and how closed polylines go
around a point all together.
-/
namespace Cavc.Spec
open scoped Classical
noncomputable section

/-- `x` is in the polygon after it has been offset. If the offset is to the inside (to the left of a counter
clockwise or to the right of a clockwise polygon), these are the points inside of the polygon that are more than
`|offset|` away from it; if the offset is to the outside, the points inside of the polygon and all points that are
at most `|offset|` away from it. -/
def OffsetRegion (p : Polyline) (offset : ℝ) (x : V2) : Prop :=
  ∃ a, getArea p = .ok a ∧
    ((0 < offset * a ∧ Inside p x ∧ ∀ z, OnPline p z → |offset| < distance x z) ∨
     (offset * a < 0 ∧ (Inside p x ∨ ∃ z, OnPline p z ∧ distance x z ≤ |offset|)))

/-- All together the polylines wind `k` times around `x`. -/
def TurnAround (r : List Polyline) (x : V2) (k : ℤ) : Prop :=
  ∃ ws : List ℤ, List.Forall₂ (fun q w => getWindingNumber q x = .ok w) r ws ∧ ws.sum = k

/-- The sum of the areas of the polylines is `a`. -/
def SumOfAreas (r : List Polyline) (a : ℝ) : Prop :=
  ∃ as : List ℝ, List.Forall₂ (fun q a => getArea q = .ok a) r as ∧ as.sum = a

/-- The polylines are the boundary of the offset of the polygon `p`: closed polylines of valid segments that go
around the points of the region once, all together, in the direction of `p`, and around no others. -/
structure BoundsOffset (p : Polyline) (offset : ℝ) (r : List Polyline) : Prop where
  closed : ∀ q ∈ r, q.isClosed = true ∧ 2 ≤ q.vertexes.length ∧ PlineOk q
  winds : ∀ x a, getArea p = .ok a → (∀ q ∈ r, ¬ OnPline q x) →
    TurnAround r x (if OffsetRegion p offset x then (if 0 < a then 1 else -1) else 0)

/-- No point is inside of two of the polylines. -/
def DisjointInsides (r : List Polyline) : Prop :=
  r.Pairwise fun q q' => ∀ x, ¬ OnPline q x → ¬ OnPline q' x → ¬ (Inside q x ∧ Inside q' x)

/-- The polylines go around separate parts of the region, each once and in the direction `s`. -/
structure SeparateParts (R : V2 → Prop) (s : ℤ) (r : List Polyline) : Prop where
  once : ∀ q ∈ r, GoesOnce q s
  disjoint : DisjointInsides r
  region : ∀ x, (∀ q ∈ r, ¬ OnPline q x) → (R x ↔ ∃ q ∈ r, Inside q x)

/-- The polylines go around one connected region with holes: the first around all of it, once and in the direction
`s`, with the points of `p` inside, the others around separate holes in it, each once and in the other direction. -/
structure OneWithHoles (p : Polyline) (R : V2 → Prop) (s : ℤ) (q0 : Polyline) (holes : List Polyline) : Prop where
  outer : GoesOnce q0 s
  contains : ∀ x, OnPline p x → ¬ OnPline q0 x ∧ Inside q0 x
  once : ∀ q ∈ holes, GoesOnce q (-s)
  disjoint : DisjointInsides holes
  within : ∀ q ∈ holes, ∀ x, ¬ OnPline q x → ¬ OnPline q0 x → Inside q x → Inside q0 x
  region : ∀ x, (∀ q ∈ q0 :: holes, ¬ OnPline q x) → (R x ↔ Inside q0 x ∧ ∀ q ∈ holes, ¬ Inside q x)

end
end Cavc.Spec
