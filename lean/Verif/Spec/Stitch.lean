import Verif.Model.Offset
import Verif.Spec.Polyline

/-!
What stitching open slices into polylines is expected to do, independently of the code.
-/
namespace Cavc.Spec
noncomputable section

/-- The vertexes of slices put one after the other: where two of them meet, the start vertex of the
second stands for both ends. -/
def stitched : List (List Vertex) → List Vertex
  | [] => []
  | [a] => a
  | a :: b :: rest => a.dropLast ++ stitched (b :: rest)

/-- The first and the last vertex differ by less than `ε` in both coordinates. -/
def EndsMeet (ε : ℝ) (vs : List Vertex) : Prop :=
  ∃ a b, vs.head? = some a ∧ vs.getLast? = some b ∧ Near ε a.pos b.pos

/-- The polyline made of stitched vertexes: if it is to be closed and the ends meet, it is closed
without the last vertex, otherwise it is open. -/
def ClosesTo (closed : Bool) (ε : ℝ) (vs : List Vertex) (r : Polyline) : Prop :=
  (closed = true ∧ EndsMeet ε vs ∧ r = ⟨true, vs.dropLast⟩) ∨
  (¬ (closed = true ∧ EndsMeet ε vs) ∧ r = ⟨false, vs⟩)

/-- The slice `b` starts where `a` ends, up to `2 * thr` in each coordinate. -/
def Follows (thr : ℝ) (a b : List Vertex) : Prop :=
  ∃ e s, a.getLast? = some e ∧ b.head? = some s ∧
    |e.pos.x - s.pos.x| ≤ 2 * thr ∧ |e.pos.y - s.pos.y| ≤ 2 * thr

/-- The distance going forward around a closed polyline from segment `i` to segment `j`. -/
def forwardDist (maxIndex i j : ℕ) : ℕ := if i ≤ j then j - i else maxIndex - i + j

/-- Each slice of the chain follows the one before and is the closest (by `dist`) of those that do and
are not used before; after the last slice no unused one follows. `later` are the slices that are
used after this chain. -/
def GreedyChain {α : Type} (follows : α → α → Prop) (dist : α → α → ℕ) (later : List α) :
    List α → Prop
  | [] => False
  | [i] => ∀ j ∈ later, ¬ follows i j
  | i :: j :: c => follows i j ∧ (∀ k ∈ c ++ later, follows i k → dist i j ≤ dist i k) ∧
      GreedyChain follows dist later (j :: c)

/-- The chains are greedy one after the other. -/
def GreedyChains {α : Type} (follows : α → α → Prop) (dist : α → α → ℕ) : List (List α) → Prop
  | [] => True
  | c :: cs => GreedyChain follows dist cs.flatten c ∧ GreedyChains follows dist cs

end
end Cavc.Spec
