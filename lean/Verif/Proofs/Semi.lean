import Verif.Proofs.Seg

/-! The upper half of the unit circle, from (1, 0) to (-1, 0): the example arc used beside the
theorems. -/
namespace Cavc
open Spec

/-- (1, 0) with bulge 1 -/
def semiStart : Vertex := ⟨⟨1, 0⟩, 1⟩
/-- (-1, 0) -/
def semiEnd : Vertex := ⟨⟨-1, 0⟩, 0⟩

theorem semi_sweep : sweep semiStart = Real.pi := by
  simp only [sweep, semiStart, Real.arctan_one]; ring

theorem semi_center : centerOf semiStart semiEnd = ⟨0, 0⟩ := by
  ext <;> norm_num [centerOf, semiStart, semiEnd]

theorem semi_ok : SegOk semiStart semiEnd ∧ ¬ IsLine semiStart := by
  refine ⟨⟨by norm_num [semiStart], fun _ => Or.inl (by norm_num [semiStart, semiEnd])⟩, ?_⟩
  norm_num [IsLine, semiStart]

theorem semi_atParam (t : ℝ) (p : V2) : AtParam semiStart semiEnd t p ↔
    p = ⟨Real.cos (t * Real.pi), Real.sin (t * Real.pi)⟩ := by
  rw [atParam_arc semi_ok.2, semi_center, semi_sweep]
  simp [rot, semiStart]

theorem semi_path : IsPath semiStart semiEnd
    (fun t => ⟨Real.cos (t * Real.pi), Real.sin (t * Real.pi)⟩) := fun t =>
  (semi_atParam t _).mpr rfl

end Cavc
