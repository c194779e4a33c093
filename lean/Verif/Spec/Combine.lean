import Verif.Model.Combine
import Verif.Spec.Stitch
import Verif.Spec.Intersects
import Verif.Spec.Geom

/-!
What boolean operations on closed polylines are expected to do, independently of the code.
-/
namespace Cavc.Spec
noncomputable section

/-! ### Stitching -/

/-- The slices that may come next after slice `i`: those that start where it ends and are the first
one of the chain or not used yet. -/
def Available (follows : ℕ → ℕ → Prop) (first i : ℕ) (unused avail : List ℕ) : Prop :=
  avail.Nodup ∧ ∀ k, k ∈ avail ↔ follows i k ∧ (k = first ∨ k ∈ unused)

/-- A chain of slices: each one is selected among the available ones; the chain closes when the first
slice is selected again, and it is given up when nothing is available or selected. `later` are the
slices that are used after this chain. -/
def SelectedChain (follows : ℕ → ℕ → Prop) (select : StitchSelector) (first : ℕ) (closes : Bool)
    (later : List ℕ) : List ℕ → Prop
  | [] => False
  | [i] => ∃ avail, Available follows first i later avail ∧
      ((closes = true ∧ avail ≠ [] ∧ select i avail = .ok (some first)) ∨
       (closes = false ∧ (avail = [] ∨ select i avail = .ok none)))
  | i :: j :: c => (∃ avail, Available follows first i (j :: c ++ later) avail ∧ avail ≠ [] ∧ j ≠ first ∧
      select i avail = .ok (some j)) ∧ SelectedChain follows select first closes later (j :: c)

/-- The chains are formed one after the other, each one from the first slice not used yet. -/
def SelectedChains (follows : ℕ → ℕ → Prop) (select : StitchSelector) : List (List ℕ × Bool) → Prop
  | [] => True
  | (c, closes) :: rest =>
    (∃ first, c.head? = some first ∧ (∀ j ∈ c ++ (rest.map Prod.fst).flatten, first ≤ j) ∧
      SelectedChain follows select first closes (rest.map Prod.fst).flatten c) ∧
    SelectedChains follows select rest

/-- The closed polyline made of a chain that closes: its stitched vertexes without the last one, which
repeats the first. Two vertexes are not enough. -/
def closedChain (verts : ℕ → List Vertex) (c : List ℕ × Bool) : Option Polyline :=
  let vs := stitched (c.1.map verts)
  if c.2 = true ∧ 3 ≤ vs.length then some ⟨true, vs.dropLast⟩ else none

/-- Choosing by preference: the first class of the list that some available slice belongs to is the
one the chosen slice belongs to; nothing is chosen only if no available slice belongs to any class. -/
def Picks (avail : List ℕ) : List (ℕ → Prop) → Option ℕ → Prop
  | [], r => r = none
  | P :: rest, r => (∃ k, r = some k ∧ k ∈ avail ∧ P k) ∨ ((∀ k ∈ avail, ¬ P k) ∧ Picks avail rest r)

/-! ### Regions -/

/-- `x` is inside the closed polyline `p`: the total turn of its path about `x` is not zero, that is,
its winding number is not zero. -/
def Inside (p : Polyline) (x : V2) : Prop :=
  ∃ γ, IsPathOf p γ ∧ ∑ i ∈ Finset.range (segs p).length, turning x (γ i) ≠ 0

/-- `x` is in the region a result stands for. -/
def InResult (r : CombineResult) (x : V2) : Prop :=
  (∃ q ∈ r.remaining, Inside q x) ∧ ∀ q ∈ r.subtracted, ¬ Inside q x

/-- The boolean operation on membership. -/
def boolOp : CombineMode → Prop → Prop → Prop
  | .union, a, b => a ∨ b
  | .exclude, a, b => a ∧ ¬ b
  | .intersect, a, b => a ∧ b
  | .xor, a, b => ¬ (a ↔ b)

/-- The test of segments reports nothing for two segments of `p` and `q` with close boxes. -/
def NothingReported (p q : Polyline) : Prop :=
  ∀ i j v1 v2 u1 u2, IsSeg p i v1 v2 → IsSeg q j u1 u2 → BoxesClose (1 / 10 ^ 5) v1 v2 u1 u2 →
    ∀ x, ¬ PointHit v1 v2 u1 u2 x ∧ ∀ y, ¬ OverlapHit v1 v2 u1 u2 x y

/-- A position the operation knows: of a vertex of one of the polylines, or reported as an intersect
or end of an overlap by the test of a segment of each. -/
def Known (A B : Polyline) (x : V2) : Prop :=
  (∃ v ∈ A.vertexes ++ B.vertexes, x = v.pos) ∨
  ∃ i j v1 v2 u1 u2, IsSeg A i v1 v2 ∧ IsSeg B j u1 u2 ∧
    (PointHit v1 v2 u1 u2 x ∨ ∃ y, OverlapHit v1 v2 u1 u2 x y ∨ OverlapHit v1 v2 u1 u2 y x)

/-- One of the polylines has an arc. -/
def HasArc (A B : Polyline) : Prop := ∃ v ∈ A.vertexes ++ B.vertexes, ¬ IsLine v

/-- Every position the operation knows is exactly at the end of an arc or differs from it by at least
1e-4 in a coordinate. In particular the start of an arc does. -/
def ArcEndsApart (A B : Polyline) : Prop :=
  ∀ p, p = A ∨ p = B → ∀ i v1 v2, IsSeg p i v1 v2 → ¬ IsLine v1 →
    ∀ x, Known A B x → x = v2.pos ∨ ¬ Near (1 / 10 ^ 4) x v2.pos

end
end Cavc.Spec
