import Verif.Proofs.CircSeg
import Verif.Proofs.PolyPieces

/-!
C61: the area of a closed polyline is the integral of its winding number over the plane.
-/
namespace Cavc
open Spec
open scoped Classical
open MeasureTheory
noncomputable section

/-- What a segment counts at a point. -/
def segCount (v1 v2 : Vertex) (x : V2) : ℤ :=
  if IsLine v1 then lw v1.pos v2.pos x
  else match arcWinding v1 v2 x with
    | .ok k => k
    | .error _ => 0

/-- What a segment counts at a point more than its chord. -/
def segExtra (v1 v2 : Vertex) (x : V2) : ℤ := if IsLine v1 then 0 else arcExtra v1 v2 x

theorem segCount_run {v1 v2 : Vertex} (h : SegOk v1 v2) (x : V2) (st : ℤ) (i : ℕ) :
    windingVisitor x st v1 v2 i = .ok (st + segCount v1 v2 x) := by
  unfold windingVisitor segCount
  by_cases hl : IsLine v1
  · rw [if_pos (show v1.bulgeIsZero from hl), if_pos hl]; rfl
  · rw [if_neg (show ¬ v1.bulgeIsZero from hl), if_neg hl]
    obtain ⟨k, hk⟩ := arc_total (h.arcOk hl) x
    rw [hk]; rfl

theorem segCount_ae {v1 v2 : Vertex} (h : SegOk v1 v2) :
    ∀ᵐ z : ℝ × ℝ, segCount v1 v2 ⟨z.1, z.2⟩ = lw v1.pos v2.pos ⟨z.1, z.2⟩ + segExtra v1 v2 ⟨z.1, z.2⟩ := by
  by_cases hl : IsLine v1
  · refine Filter.Eventually.of_forall fun z => ?_
    unfold segCount segExtra
    rw [if_pos hl, if_pos hl, add_zero]
  · have ha := h.arcOk hl
    filter_upwards [cross_null ha.ne] with z hz
    unfold segCount segExtra
    rw [if_neg hl, if_neg hl, arc_split ha h.half hz]

theorem segExtra_spec {v1 v2 : Vertex} (h : SegOk v1 v2) :
    Integrable (fun z : ℝ × ℝ => (segExtra v1 v2 ⟨z.1, z.2⟩ : ℝ)) ∧
      ∫ z : ℝ × ℝ, (segExtra v1 v2 ⟨z.1, z.2⟩ : ℝ) =
        (areaTerm v1 v2 - (v1.pos.x * v2.pos.y - v1.pos.y * v2.pos.x)) / 2 := by
  unfold segExtra areaTerm
  by_cases hl : IsLine v1
  · simp only [if_pos hl]
    simp
  · simp only [if_neg hl]
    have ha := h.arcOk hl
    obtain ⟨h1, h2⟩ := arcExtra_spec ha.ne ha.b_ne h.half
    refine ⟨h1, ?_⟩
    rw [h2]
    unfold arcPart
    ring

/-- C61. For every closed polyline of lines and arcs of at most a half circle, whether or not it meets
itself: `getWindingNumber` does not fault at any point, and `getArea` is the integral of
`getWindingNumber` over the plane. -/
theorem C61_area_integral (p : Polyline) (hok : PlineOk p) (hc : p.isClosed = true) :
    ∃ a, getArea p = .ok a ∧ ∃ W : ℝ × ℝ → ℤ, (∀ z, getWindingNumber p ⟨z.1, z.2⟩ = .ok (W z)) ∧
      Integrable (fun z => (W z : ℝ)) ∧ ∫ z, (W z : ℝ) = a := by
  by_cases h2 : p.size < 2
  · refine ⟨0, ?_, fun _ => 0, fun z => ?_, by simp, by simp⟩
    · unfold getArea; rw [if_pos (Or.inr h2)]
    · unfold getWindingNumber; rw [if_pos (Or.inr h2)]
  have hlen : (segs p).length = p.size := by rw [segs_length, if_neg h2, if_pos hc]
  have hseg : ∀ i < p.size, IsSeg p i (vtx p i) (vtx p (if i + 1 = p.size then 0 else i + 1)) :=
    fun i hi => isSeg_iff.2 ⟨by rw [hlen]; exact hi, rfl, rfl⟩
  have hpos : ∀ i < p.size, ppos p i = (vtx p i).pos ∧
      ppos p (i + 1) = (vtx p (if i + 1 = p.size then 0 else i + 1)).pos := by
    intro i hi
    obtain ⟨-, -, -, -, e1, e2⟩ := ppos_seg hc (hseg i hi)
    exact ⟨e1, e2⟩
  set nx : ℕ → ℕ := fun i => if i + 1 = p.size then 0 else i + 1 with hnx
  have hclosed : ppos p p.size = ppos p 0 := by simpa using ppos_per p 0
  refine ⟨_, getArea_eq hc (by unfold Polyline.size at h2; omega),
    fun z => ∑ i ∈ Finset.range p.size, segCount (vtx p i) (vtx p (nx i)) ⟨z.1, z.2⟩, fun z => ?_, ?_⟩
  · unfold getWindingNumber
    rw [if_neg (by simp [hc]; omega), visitAll_eq,
      foldlM_add _ (fun x' => segCount x'.1 x'.2.1 ⟨z.1, z.2⟩), zero_add, sum_visitList, hlen]
    rintro ⟨v1, v2, i⟩ hx st
    exact segCount_run (hok _ _ _ (mem_visitList.1 hx)) _ _ _
  · have hsum : (fun z : ℝ × ℝ => ((∑ i ∈ Finset.range p.size, segCount (vtx p i) (vtx p (nx i)) ⟨z.1, z.2⟩ : ℤ) : ℝ))
        =ᵐ[volume] fun z => (polyW (ppos p) p.size ⟨z.1, z.2⟩ : ℝ) +
          ∑ i ∈ Finset.range p.size, (segExtra (vtx p i) (vtx p (nx i)) ⟨z.1, z.2⟩ : ℝ) := by
      have hall : ∀ i ∈ Finset.range p.size, ∀ᵐ z : ℝ × ℝ, segCount (vtx p i) (vtx p (nx i)) ⟨z.1, z.2⟩ =
          lw (vtx p i).pos (vtx p (nx i)).pos ⟨z.1, z.2⟩ + segExtra (vtx p i) (vtx p (nx i)) ⟨z.1, z.2⟩ :=
        fun i hi => segCount_ae (hok _ _ _ (hseg i (Finset.mem_range.1 hi)))
      rw [← Finset.eventually_all] at hall
      filter_upwards [hall] with z hz
      unfold polyW
      rw [polyEdges_W]
      push_cast
      rw [← Finset.sum_add_distrib]
      apply Finset.sum_congr rfl
      intro i hi
      rw [hz i hi, (hpos i (Finset.mem_range.1 hi)).1, (hpos i (Finset.mem_range.1 hi)).2]
      push_cast
      rfl
    have hi1 := polyW_integrable hclosed
    have hi2 : ∀ i ∈ Finset.range p.size,
        Integrable (fun z : ℝ × ℝ => (segExtra (vtx p i) (vtx p (nx i)) ⟨z.1, z.2⟩ : ℝ)) :=
      fun i hi => (segExtra_spec (hok _ _ _ (hseg i (Finset.mem_range.1 hi)))).1
    have hi3 := integrable_finset_sum _ hi2
    refine ⟨(hi1.add hi3).congr hsum.symm, ?_⟩
    rw [integral_congr_ae hsum, integral_add hi1 hi3, polyW_integral hclosed, integral_finset_sum _ hi2, hlen]
    unfold shoelace
    rw [Finset.sum_div, Finset.sum_div, ← Finset.sum_add_distrib]
    apply Finset.sum_congr rfl
    intro i hi
    rw [(segExtra_spec (hok _ _ _ (hseg i (Finset.mem_range.1 hi)))).2, (hpos i (Finset.mem_range.1 hi)).1,
      (hpos i (Finset.mem_range.1 hi)).2]
    ring

/-- A polygon that meets itself: it goes around one triangle counterclockwise and around the other one
clockwise. -/
example : ∃ a, getArea ⟨true, [⟨⟨0, 0⟩, 0⟩, ⟨⟨2, 2⟩, 0⟩, ⟨⟨2, 0⟩, 0⟩, ⟨⟨0, 2⟩, 0⟩]⟩ = .ok a ∧ ∃ W : ℝ × ℝ → ℤ,
    (∀ z, getWindingNumber ⟨true, [⟨⟨0, 0⟩, 0⟩, ⟨⟨2, 2⟩, 0⟩, ⟨⟨2, 0⟩, 0⟩, ⟨⟨0, 2⟩, 0⟩]⟩ ⟨z.1, z.2⟩ = .ok (W z)) ∧
      Integrable (fun z => (W z : ℝ)) ∧ ∫ z, (W z : ℝ) = a :=
  C61_area_integral _ (lines_ok (by simp [isLine_zero])) rfl

/-- The unit circle, of two half circles. -/
example : ∃ a, getArea ⟨true, [⟨⟨-1, 0⟩, 1⟩, ⟨⟨1, 0⟩, 1⟩]⟩ = .ok a ∧ ∃ W : ℝ × ℝ → ℤ,
    (∀ z, getWindingNumber ⟨true, [⟨⟨-1, 0⟩, 1⟩, ⟨⟨1, 0⟩, 1⟩]⟩ ⟨z.1, z.2⟩ = .ok (W z)) ∧
      Integrable (fun z => (W z : ℝ)) ∧ ∫ z, (W z : ℝ) = a := by
  refine C61_area_integral _ ?_ rfl
  intro i v1 v2 h
  obtain ⟨h1, -, h2, -, -⟩ := seg_lt h
  obtain ⟨rfl, rfl⟩ := isSeg_inj h (closed_isSeg rfl h2 h1)
  simp only [Polyline.size, List.length_cons, List.length_nil] at h1
  interval_cases i
  · refine ⟨by simp [vtx], fun _ => Or.inl ?_⟩
    norm_num [vtx, Polyline.size]
  · refine ⟨by simp [vtx], fun _ => Or.inl ?_⟩
    norm_num [vtx, Polyline.size]

end
end Cavc
