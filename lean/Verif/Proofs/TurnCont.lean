import Verif.Proofs.PlineConn
import Verif.Proofs.SubSeg
import Verif.Props.PlineWinding
import Mathlib.MeasureTheory.Integral.DominatedConvergence

/-! How far a segment turns about a point depends continuously on the point, and not at all far away. -/
namespace Cavc
open Spec
open scoped Classical Topology
noncomputable section

/-- A pair of numbers as a point. -/
def toV (z : ℝ × ℝ) : V2 := ⟨z.1, z.2⟩

@[simp] theorem xy_toV (z : ℝ × ℝ) : xy (toV z) = z := rfl
@[simp] theorem toV_xy (x : V2) : toV (xy x) = x := rfl

/-- The velocity of a segment at a parameter. -/
def vel (v e : Vertex) (t : ℝ) : V2 :=
  if IsLine v then e.pos - v.pos
  else ⟨-sweep v * ((segPt v e t).y - (centerOf v e).y), sweep v * ((segPt v e t).x - (centerOf v e).x)⟩

theorem velocity_segPt (v e : Vertex) (t : ℝ) : velocity (segPt v e) t = vel v e t := by
  unfold vel
  by_cases hl : IsLine v
  · rw [if_pos hl]
    have : segPt v e = fun t => lerp v.pos e.pos t := by
      funext s; unfold segPt; rw [if_pos hl]
    rw [this, velocity_line]
  · rw [if_neg hl]
    have : segPt v e = fun t => rot (centerOf v e) (t * sweep v) v.pos := by
      funext s; unfold segPt; rw [if_neg hl]
    rw [this, velocity_rot]

theorem continuous_segPt_x (v e : Vertex) : Continuous fun t => (segPt v e t).x :=
  continuous_fst.comp (continuous_segPt v e)

theorem continuous_segPt_y (v e : Vertex) : Continuous fun t => (segPt v e t).y :=
  continuous_snd.comp (continuous_segPt v e)

theorem continuous_vel_x (v e : Vertex) : Continuous fun t => (vel v e t).x := by
  have := continuous_segPt_y v e
  unfold vel
  split_ifs
  · exact continuous_const
  · simp only; fun_prop

theorem continuous_vel_y (v e : Vertex) : Continuous fun t => (vel v e t).y := by
  have := continuous_segPt_x v e
  unfold vel
  split_ifs
  · exact continuous_const
  · simp only; fun_prop

theorem isPath_segPt {v e : Vertex} {γ : ℝ → V2} : IsPath v e γ ↔ γ = segPt v e := by
  unfold IsPath
  constructor
  · intro h; funext t; exact atParam_segPt.1 (h t)
  · rintro rfl t; exact atParam_segPt.2 rfl

/-- The rate at which the segment turns about `x`. -/
def rate (v e : Vertex) (x : V2) (t : ℝ) : ℝ :=
  (((segPt v e t).x - x.x) * (vel v e t).y - ((segPt v e t).y - x.y) * (vel v e t).x) / dist2 (segPt v e t) x

/-- How far the segment turns about `x` from a parameter to another. -/
def turn (v e : Vertex) (x : V2) (a b : ℝ) : ℝ := ∫ t in a..b, rate v e x t

theorem turning_segPt (v e : Vertex) (x : V2) : turning x (segPt v e) = turn v e x 0 1 := by
  unfold turning turn rate
  simp only [velocity_segPt]

theorem rate_congr {v e e' : Vertex} (h : e.pos = e'.pos) : rate v e = rate v e' := by
  have h1 : segPt v e = segPt v e' := funext fun t => segPt_congr h t
  funext x t
  unfold rate
  rw [← velocity_segPt, ← velocity_segPt, h1]

/-- Off the whole segment the rate is continuous. -/
theorem rate_continuousOn {v e : Vertex} {x : V2} {a b : ℝ} (h : ∀ t ∈ Set.Icc a b, segPt v e t ≠ x) :
    ContinuousOn (rate v e x) (Set.Icc a b) := by
  have h1 := continuous_segPt_x v e
  have h2 := continuous_segPt_y v e
  have h3 := continuous_vel_x v e
  have h4 := continuous_vel_y v e
  unfold rate
  refine ContinuousOn.div (by fun_prop) (by unfold dist2; fun_prop) ?_
  intro t ht
  exact (dist2_pos (h t ht)).ne'

/-- The turning of a part is continuous in the point, where it is not on the part. -/
theorem turn_continuousAt {v e : Vertex} {a b : ℝ} (hab : a ≤ b) {z : ℝ × ℝ} (h : ∀ t ∈ Set.Icc a b, segPt v e t ≠ toV z) :
    ContinuousAt (fun x => turn v e (toV x) a b) z := by
  have h1 := continuous_segPt_x v e
  have h2 := continuous_segPt_y v e
  have h3 := continuous_vel_x v e
  have h4 := continuous_vel_y v e
  -- the distance is bounded below
  obtain ⟨t0, ht0, hmin⟩ : ∃ t0 ∈ Set.Icc a b, IsMinOn (fun t => dist2 (segPt v e t) (toV z)) (Set.Icc a b) t0 :=
    isCompact_Icc.exists_isMinOn ⟨a, le_refl _, hab⟩ (by unfold dist2; fun_prop)
  obtain ⟨m, hm⟩ : ∃ m, m = dist2 (segPt v e t0) (toV z) := ⟨_, rfl⟩
  have hm0 : 0 < m := by rw [hm]; exact dist2_pos (h t0 ht0)
  have hev : ∀ᶠ x : ℝ × ℝ in 𝓝 z, ∀ t ∈ Set.Icc a b, m / 2 < dist2 (segPt v e t) (toV x) := by
    apply isCompact_Icc.eventually_forall_of_forall_eventually
    intro t ht
    have g1 : Continuous fun q : (ℝ × ℝ) × ℝ => (segPt v e q.2).x := h1.comp continuous_snd
    have g2 : Continuous fun q : (ℝ × ℝ) × ℝ => (segPt v e q.2).y := h2.comp continuous_snd
    have hc : Continuous fun q : (ℝ × ℝ) × ℝ => dist2 (segPt v e q.2) (toV q.1) := by
      unfold dist2 toV; simp only; fun_prop
    have h5 : m / 2 < dist2 (segPt v e t) (toV z) := by
      have : m ≤ dist2 (segPt v e t) (toV z) := by rw [hm]; exact hmin ht
      linarith
    exact hc.continuousAt.eventually (lt_mem_nhds h5)
  have hG : Continuous fun x : ℝ × ℝ => ∫ t in a..b,
      (((segPt v e t).x - x.1) * (vel v e t).y - ((segPt v e t).y - x.2) * (vel v e t).x) /
        max (dist2 (segPt v e t) (toV x)) (m / 2) := by
    apply intervalIntegral.continuous_parametric_intervalIntegral_of_continuous'
    have g1 : Continuous fun q : (ℝ × ℝ) × ℝ => (segPt v e q.2).x := h1.comp continuous_snd
    have g2 : Continuous fun q : (ℝ × ℝ) × ℝ => (segPt v e q.2).y := h2.comp continuous_snd
    have g3 : Continuous fun q : (ℝ × ℝ) × ℝ => (vel v e q.2).x := h3.comp continuous_snd
    have g4 : Continuous fun q : (ℝ × ℝ) × ℝ => (vel v e q.2).y := h4.comp continuous_snd
    have g5 : Continuous fun q : (ℝ × ℝ) × ℝ => dist2 (segPt v e q.2) (toV q.1) := by
      unfold dist2 toV; simp only; fun_prop
    refine Continuous.div (f := fun q : (ℝ × ℝ) × ℝ => ((segPt v e q.2).x - q.1.1) * (vel v e q.2).y -
      ((segPt v e q.2).y - q.1.2) * (vel v e q.2).x) (g := fun q => max (dist2 (segPt v e q.2) (toV q.1)) (m / 2))
      (by fun_prop) (g5.max continuous_const) ?_
    intro q
    exact (lt_of_lt_of_le (by linarith) (le_max_right _ _)).ne'
  refine hG.continuousAt.congr ?_
  filter_upwards [hev] with x hx
  unfold turn
  apply intervalIntegral.integral_congr
  intro t ht
  rw [Set.uIcc_of_le hab] at ht
  simp only [rate, toV]
  have := hx t ht
  unfold toV at this
  rw [max_eq_left this.le]

/-- Far away a segment hardly turns. -/
theorem turn_far (v e : Vertex) {c d : ℝ} (c0 : 0 ≤ c) (hcd : c ≤ d) (d1 : d ≤ 1) :
    Filter.Tendsto (fun R : ℝ => turn v e ⟨R, 0⟩ c d) Filter.atTop (𝓝 0) := by
  have h1 := continuous_segPt_x v e
  have h3 := continuous_vel_x v e
  have h4 := continuous_vel_y v e
  obtain ⟨M, hM⟩ : ∃ M, ∀ t ∈ Set.Icc (0 : ℝ) 1, |(segPt v e t).x| ≤ M := by
    obtain ⟨M, hM⟩ := isCompact_Icc.exists_bound_of_continuousOn (h1.continuousOn (s := Set.Icc (0 : ℝ) 1))
    exact ⟨M, fun t ht => hM t ht⟩
  obtain ⟨V, hV⟩ : ∃ V, ∀ t ∈ Set.Icc (0 : ℝ) 1, |(vel v e t).x| ≤ V ∧ |(vel v e t).y| ≤ V := by
    obtain ⟨M, hM⟩ := isCompact_Icc.exists_bound_of_continuousOn (h3.continuousOn (s := Set.Icc (0 : ℝ) 1))
    obtain ⟨M', hM'⟩ := isCompact_Icc.exists_bound_of_continuousOn (h4.continuousOn (s := Set.Icc (0 : ℝ) 1))
    exact ⟨max M M', fun t ht => ⟨(hM t ht).trans (le_max_left _ _), (hM' t ht).trans (le_max_right _ _)⟩⟩
  have hb : ∀ R : ℝ, M < R → ‖turn v e ⟨R, 0⟩ c d‖ ≤ 2 * V / (R - M) * |d - c| := by
    intro R hR
    have := intervalIntegral.norm_integral_le_of_norm_le_const (a := c) (b := d) (f := rate v e ⟨R, 0⟩)
      (C := 2 * V / (R - M)) (by
        intro t ht
        rw [Set.uIoc_of_le hcd] at ht
        have ht' : t ∈ Set.Icc (0 : ℝ) 1 := ⟨c0.trans ht.1.le, ht.2.trans d1⟩
        have b1 := hM t ht'
        obtain ⟨b2, b3⟩ := hV t ht'
        unfold rate
        simp only [sub_zero]
        obtain ⟨a, ha⟩ : ∃ a, a = (segPt v e t).x - R := ⟨_, rfl⟩
        have ha' : R - M ≤ |a| := by
          rw [ha, abs_sub_comm]
          have := (abs_le.1 b1).2
          exact le_trans (by linarith) (le_abs_self _)
        have hd : dist2 (segPt v e t) ⟨R, 0⟩ = a ^ 2 + (segPt v e t).y ^ 2 := by
          unfold dist2; rw [ha]; ring
        rw [hd, ← ha]
        generalize (segPt v e t).y = b at *
        generalize (vel v e t).x = p at *
        generalize (vel v e t).y = q at *
        have hpos : 0 < R - M := by linarith
        have hapos : 0 < |a| := by linarith
        have hden : 0 < a ^ 2 + b ^ 2 := by
          have := sq_abs a
          have : 0 < |a| ^ 2 := by positivity
          nlinarith [sq_nonneg b]
        rw [norm_div, Real.norm_eq_abs, Real.norm_eq_abs, abs_of_pos hden, div_le_div_iff₀ hden hpos]
        have hV0 : 0 ≤ V := (abs_nonneg _).trans b2
        have k1 : |a * q - b * p| ≤ |a| * V + |b| * V := by
          refine (abs_sub _ _).trans ?_
          rw [abs_mul, abs_mul]
          exact add_le_add (mul_le_mul_of_nonneg_left b3 (abs_nonneg _)) (mul_le_mul_of_nonneg_left b2 (abs_nonneg _))
        have k2 : (|a| * V + |b| * V) * (R - M) ≤ (|a| * V + |b| * V) * |a| :=
          mul_le_mul_of_nonneg_left ha' (by positivity)
        have k3 : (|a| * V + |b| * V) * |a| ≤ 2 * V * (a ^ 2 + b ^ 2) := by
          rw [← sq_abs a, ← sq_abs b]
          have : (|a| + |b|) * |a| ≤ 2 * (|a| ^ 2 + |b| ^ 2) := by nlinarith [sq_nonneg (|a| - |b|), sq_nonneg (|a| + |b|)]
          nlinarith
        exact (mul_le_mul_of_nonneg_right k1 hpos.le).trans (k2.trans k3))
    exact this
  rw [tendsto_zero_iff_norm_tendsto_zero]
  refine tendsto_of_tendsto_of_tendsto_of_le_of_le' tendsto_const_nhds
    (h := fun R => 2 * V / (R - M) * |d - c|) ?_ (Filter.Eventually.of_forall fun _ => norm_nonneg _) ?_
  · have := (Filter.Tendsto.const_div_atTop (Filter.tendsto_atTop_add_const_right Filter.atTop (-M)
      Filter.tendsto_id) (2 * V)).mul_const |d - c|
    simpa [sub_eq_add_neg] using this
  · filter_upwards [Filter.eventually_gt_atTop M] with R hR
    exact hb R hR

end
end Cavc
