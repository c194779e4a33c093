import Verif.Model.SpatialIndex

/-! Specification vocabulary for the spatial index: closed rectangle overlap and what it means to
run an early-stopping visitor along a list. Nothing here mentions trees, levels or sorting. -/
namespace Cavc.Spec

/-- Two closed axis aligned rectangles have overlapping x ranges and overlapping y ranges. -/
def Overlap {α : Type _} [LE α] (a b : Box α) : Prop :=
  a.minX ≤ b.maxX ∧ b.minX ≤ a.maxX ∧ a.minY ≤ b.maxY ∧ b.minY ≤ a.maxY

/-- Feed the elements of a list to a stateful visitor until it answers `false`. Returns the final
state and whether the visitor stopped the run. -/
def runVisitor {β σ : Type _} (visitor : σ → β → σ × Bool) : σ → List β → σ × Bool
  | st, [] => (st, false)
  | st, x :: xs =>
    if (visitor st x).2 then runVisitor visitor (visitor st x).1 xs else ((visitor st x).1, true)

end Cavc.Spec
