import Verif.Model.Islands
import Verif.Spec.Offset
import Verif.Spec.Combine
import Verif.Spec.Stitch

/-!
What the offset of a set of loops (outer loops and islands) is expected to do, independently of the
code.
-/
namespace Cavc.Spec
noncomputable section

/-- The loops of a set in the order of their indexes: first the counter clockwise ones. -/
def loopsOf (s : OffsetLoopSet) : List OffsetLoop := s.ccwLoops ++ s.cwLoops

/-- The spatial index of a loop is that of its polyline. -/
def Indexed (pf : Platform) (l : OffsetLoop) : Prop :=
  createApproxSpatialIndex pf l.polyline = .ok l.spatialIndex

/-- `l` is one of the parallel offsets of an input loop, the one its parent index names. -/
def OffsetOf (pf : Platform) (std : StdSort) (hash : HashOrder) (input : OffsetLoopSet) (delta : ℝ)
    (l : OffsetLoop) : Prop :=
  ∃ parent offsets, (loopsOf input)[l.parentLoopIndex]? = some parent ∧
    parallelOffset pf std hash parent.polyline |delta| = .ok offsets ∧ l.polyline ∈ offsets

/-- Counter clockwise (or without area). -/
def CounterClockwise (p : Polyline) : Prop := ∃ a, getArea p = .ok a ∧ 0 ≤ a

/-- Clockwise. -/
def Clockwise (p : Polyline) : Prop := ∃ a, getArea p = .ok a ∧ a < 0

/-- `x` is clear of all input loops except possibly the one with index `own`. -/
def ClearOfOthers (input : OffsetLoopSet) (delta : ℝ) (own : ℕ) (x : V2) : Prop :=
  ∀ i l, i ≠ own → (loopsOf input)[i]? = some l → Clear l.polyline (|delta| - 1 / 10 ^ 4) x

/-- The open polyline `s` is a part of an offset loop with parent `own`: at least two vertexes, and
the midpoint of its last segment is clear of all the other input loops. -/
def KeptSlice (input : OffsetLoopSet) (delta : ℝ) (own : ℕ) (s : Polyline) : Prop :=
  s.isClosed = false ∧ ∃ l u w m, s.vertexes = l ++ [u, w] ∧ segMidpoint u w = .ok m ∧
    ClearOfOthers input delta own m

/-- The loop is put together of kept slices of offset loops. -/
def StitchedOfKept (pf : Platform) (std : StdSort) (hash : HashOrder) (input : OffsetLoopSet)
    (delta : ℝ) (q : Polyline) : Prop :=
  ∃ pieces : List Polyline, pieces ≠ [] ∧
    (∀ s ∈ pieces, ∃ ol, OffsetOf pf std hash input delta ol ∧
      KeptSlice input delta ol.parentLoopIndex s) ∧
    q = ⟨true, (stitched (pieces.map fun s => s.vertexes)).dropLast⟩

end
end Cavc.Spec
