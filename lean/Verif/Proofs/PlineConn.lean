import Verif.Proofs.RawParts

/-! The points of a polyline are a connected set. -/
namespace Cavc
open Spec
open scoped Classical
noncomputable section

/-- The point of the segment at a parameter. -/
def segPt (v1 v2 : Vertex) (t : ℝ) : V2 :=
  if IsLine v1 then lerp v1.pos v2.pos t else rot (centerOf v1 v2) (t * sweep v1) v1.pos

theorem onSeg_segPt {v1 v2 : Vertex} {x : V2} : OnSeg v1 v2 x ↔ ∃ t, 0 ≤ t ∧ t ≤ 1 ∧ x = segPt v1 v2 t := by
  unfold segPt
  by_cases hl : IsLine v1
  · simp only [if_pos hl]; exact onSeg_line hl
  · simp only [if_neg hl]; exact onSeg_arc hl

theorem segPt_zero (v1 v2 : Vertex) : segPt v1 v2 0 = v1.pos := by
  unfold segPt
  split_ifs
  · exact lerp_zero _ _
  · rw [zero_mul]; simp [rot]

theorem segPt_one (v1 v2 : Vertex) : segPt v1 v2 1 = v2.pos := by
  unfold segPt
  split_ifs with hl
  · exact lerp_one _ _
  · rw [one_mul]
    exact isCenter_centerOf (bulge_ne_zero hl) (v2 := v2)

/-- A point as a pair of numbers. -/
def xy (x : V2) : ℝ × ℝ := (x.x, x.y)

theorem continuous_segPt (v1 v2 : Vertex) : Continuous fun t => xy (segPt v1 v2 t) := by
  unfold segPt xy
  split_ifs
  · simp only [lerp]; fun_prop
  · simp only [rot]; fun_prop

/-- A chain of parts of segments is connected. -/
theorem connected_chain {m : ℕ} {v : ℕ → Vertex × Vertex} {I : ℕ → Set ℝ} (hI : ∀ k < m, (I k).OrdConnected)
    (hj : ∀ k, k + 1 < m → 1 ∈ I k ∧ 0 ∈ I (k + 1) ∧ (v k).2.pos = (v (k + 1)).1.pos) :
    IsPreconnected (xy '' {x | ∃ k < m, ∃ t ∈ I k, x = segPt (v k).1 (v k).2 t}) := by
  have e : xy '' {x | ∃ k < m, ∃ t ∈ I k, x = segPt (v k).1 (v k).2 t} =
      ⋃ k ∈ Set.Iio m, (fun t => xy (segPt (v k).1 (v k).2 t)) '' I k := by
    ext z
    simp only [Set.mem_image, Set.mem_ofPred_eq, Set.mem_iUnion, Set.mem_Iio, exists_prop]
    constructor
    · rintro ⟨x, ⟨k, hk, t, ht, rfl⟩, rfl⟩; exact ⟨k, hk, t, ht, rfl⟩
    · rintro ⟨k, hk, t, ht, rfl⟩; exact ⟨_, ⟨k, hk, t, ht, rfl⟩, rfl⟩
  rw [e]
  refine IsPreconnected.biUnion_of_chain Set.ordConnected_Iio (fun k hk => ?_) (fun k hk hk' => ?_)
  · exact (hI k hk).isPreconnected.image _ (continuous_segPt _ _).continuousOn
  · obtain ⟨h1, h0, hp⟩ := hj k hk'
    refine ⟨xy (v k).2.pos, ⟨1, h1, ?_⟩, ⟨0, h0, ?_⟩⟩
    · simp only [segPt_one]
    · simp only [Order.succ_eq_add_one, segPt_zero, hp]

theorem connected_pline (p : Polyline) : IsPreconnected (xy '' {x | OnPline p x}) := by
  have := connected_chain (m := (segs p).length)
    (v := fun k => (vtx p k, vtx p (if k + 1 = p.size then 0 else k + 1))) (I := fun _ => Set.Icc 0 1)
    (fun _ _ => Set.ordConnected_Icc) (fun k hk => by
      refine ⟨by simp, by simp, ?_⟩
      have : k + 1 ≠ p.size := by
        rw [segs_length] at hk
        split_ifs at hk <;> omega
      simp only [if_neg this])
  convert this using 2
  ext x
  simp only [Set.mem_ofPred_eq, OnPline]
  constructor
  · rintro ⟨i, v1, v2, hs, ho⟩
    obtain ⟨h1, rfl, rfl⟩ := isSeg_iff.1 hs
    obtain ⟨t, t0, t1, rfl⟩ := onSeg_segPt.1 ho
    exact ⟨i, h1, t, ⟨t0, t1⟩, rfl⟩
  · rintro ⟨i, h1, t, ht, rfl⟩
    exact ⟨i, _, _, isSeg_iff.2 ⟨h1, rfl, rfl⟩, onSeg_segPt.2 ⟨t, ht.1, ht.2, rfl⟩⟩

end
end Cavc
