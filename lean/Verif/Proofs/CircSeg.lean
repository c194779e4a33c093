import Verif.Proofs.AreaWinding
import Verif.Props.PlineWinding
import Mathlib.MeasureTheory.Measure.Lebesgue.Complex
import Mathlib.MeasureTheory.Measure.Haar.OfBasis
import Mathlib.MeasureTheory.Measure.Haar.InnerProductSpace
import Mathlib.Analysis.Complex.Isometry
import Mathlib.MeasureTheory.Integral.IntervalIntegral.FundThmCalculus
import Mathlib.Analysis.SpecialFunctions.Trigonometric.InverseDeriv
import Mathlib.Analysis.SpecialFunctions.Sqrt
import Mathlib.MeasureTheory.Measure.Lebesgue.Integral

/-! The area that a chord cuts off a disc. -/
namespace Cavc
open Spec
open scoped Classical
open MeasureTheory
noncomputable section

/-- The antiderivative of the width of the disc. -/
def capF (R y : ℝ) : ℝ := y * √(R ^ 2 - y ^ 2) + R ^ 2 * Real.arcsin (y / R)

theorem capF_deriv {R y : ℝ} (hR : 0 < R) (h1 : -R < y) (h2 : y < R) :
    HasDerivAt (capF R) (2 * √(R ^ 2 - y ^ 2)) y := by
  have hp : 0 < R ^ 2 - y ^ 2 := by nlinarith
  have hs : √(R ^ 2 - y ^ 2) ≠ 0 := (Real.sqrt_pos.2 hp).ne'
  have hq : 1 - (y / R) ^ 2 = (R ^ 2 - y ^ 2) / R ^ 2 := by field_simp
  have e1 : HasDerivAt (fun y : ℝ => R ^ 2 - y ^ 2) (-(2 * y)) y := by
    have := ((hasDerivAt_id y).pow 2).const_sub (R ^ 2)
    simpa using this
  have e2 := e1.sqrt hp.ne'
  have e3 := (hasDerivAt_id y).mul e2
  have e4 : HasDerivAt (fun y : ℝ => y / R) (1 / R) y := (hasDerivAt_id y).div_const R
  have n1 : y / R ≠ -1 := by
    intro h; rw [div_eq_iff hR.ne'] at h; linarith
  have n2 : y / R ≠ 1 := by
    intro h; rw [div_eq_iff hR.ne'] at h; linarith
  have e5 := (Real.hasDerivAt_arcsin n1 n2).comp y e4
  have e6 := e3.add (e5.const_mul (R ^ 2))
  refine HasDerivAt.congr_deriv (f := capF R) (show HasDerivAt (capF R) _ y from e6) ?_
  · rw [hq, Real.sqrt_div hp.le, Real.sqrt_sq hR.le]
    simp only [id]
    have hss : √(R ^ 2 - y ^ 2) ^ 2 = R ^ 2 - y ^ 2 := Real.sq_sqrt hp.le
    field_simp
    rw [hss]
    ring

theorem capF_integral {R h : ℝ} (hR : 0 < R) (h1 : -R < h) (h2 : h ≤ R) :
    ∫ y in h..R, 2 * √(R ^ 2 - y ^ 2) = R ^ 2 * (Real.pi / 2) - h * √(R ^ 2 - h ^ 2) - R ^ 2 * Real.arcsin (h / R) := by
  have hc : Continuous (capF R) := by
    unfold capF
    have := Real.continuous_arcsin
    fun_prop
  rw [intervalIntegral.integral_eq_sub_of_hasDerivAt_of_le h2 hc.continuousOn
    (fun y hy => capF_deriv hR (by linarith [hy.1]) hy.2)]
  · unfold capF
    rw [sub_self, Real.sqrt_zero, div_self hR.ne', Real.arcsin_one]
    ring
  · apply Continuous.intervalIntegrable
    fun_prop

theorem cap_volume {R h : ℝ} (hR : 0 < R) (h1 : -R < h) (h2 : h ≤ R) :
    volume {z : ℝ × ℝ | z.1 ^ 2 + z.2 ^ 2 < R ^ 2 ∧ h < z.1} =
      ENNReal.ofReal (R ^ 2 * (Real.pi / 2) - h * √(R ^ 2 - h ^ 2) - R ^ 2 * Real.arcsin (h / R)) := by
  have e : {z : ℝ × ℝ | z.1 ^ 2 + z.2 ^ 2 < R ^ 2 ∧ h < z.1} =
      regionBetween (fun y => -√(R ^ 2 - y ^ 2)) (fun y => √(R ^ 2 - y ^ 2)) (Set.Ioc h R) := by
    ext z
    simp only [regionBetween, Set.mem_ofPred_eq, Set.mem_Ioc, Set.mem_Ioo]
    constructor
    · rintro ⟨q1, q2⟩
      have hz : |z.2| < √(R ^ 2 - z.1 ^ 2) := by
        rw [Real.lt_sqrt (abs_nonneg _), sq_abs]; linarith
      rw [abs_lt] at hz
      refine ⟨⟨q2, ?_⟩, hz⟩
      nlinarith [sq_nonneg z.2]
    · rintro ⟨⟨q1, q2⟩, q3⟩
      rw [← abs_lt, Real.lt_sqrt (abs_nonneg _), sq_abs] at q3
      exact ⟨by linarith, q1⟩
  have hcont : Continuous fun y : ℝ => √(R ^ 2 - y ^ 2) := by fun_prop
  rw [e, Measure.volume_eq_prod, volume_regionBetween_eq_integral]
  · congr 1
    rw [← capF_integral hR h1 h2, intervalIntegral.integral_of_le h2]
    apply integral_congr_ae
    refine Filter.Eventually.of_forall fun y => ?_
    simp only [Pi.sub_apply]
    ring
  · exact (hcont.neg.integrableOn_Icc).mono_set Set.Ioc_subset_Icc_self
  · exact (hcont.integrableOn_Icc).mono_set Set.Ioc_subset_Icc_self
  · exact measurableSet_Ioc
  · intro y _
    have := Real.sqrt_nonneg (R ^ 2 - y ^ 2)
    show -√(R ^ 2 - y ^ 2) ≤ √(R ^ 2 - y ^ 2)
    linarith

/-- A motion of the plane. -/
def motion (c u : V2) (z : ℝ × ℝ) : ℝ × ℝ := (c.x + z.1 * u.x - z.2 * u.y, c.y + z.1 * u.y + z.2 * u.x)

theorem motion_preserving (c u : V2) (hu : u.x ^ 2 + u.y ^ 2 = 1) : MeasurePreserving (motion c u) := by
  have hn : ‖(⟨u.x, u.y⟩ : ℂ)‖ = 1 := by
    rw [Complex.norm_def, Complex.normSq_mk, ← sq, ← sq, hu, Real.sqrt_one]
  set r : Circle := ⟨⟨u.x, u.y⟩, by rw [Submonoid.unitSphere, ← SetLike.mem_coe]; simpa using hn⟩ with hr
  have h1 := Complex.volume_preserving_equiv_real_prod.symm
  have h2 := (rotation r).measurePreserving
  have h3 := measurePreserving_add_left (volume : Measure ℂ) (⟨c.x, c.y⟩ : ℂ)
  have h4 := Complex.volume_preserving_equiv_real_prod
  have h := h4.comp (h3.comp (h2.comp h1))
  convert h using 1
  funext z
  simp only [motion, Function.comp, rotation_apply]
  have e : Complex.measurableEquivRealProd.symm z = ⟨z.1, z.2⟩ := rfl
  rw [e]
  have e2 : ∀ w : ℂ, Complex.measurableEquivRealProd w = (w.re, w.im) := fun w => rfl
  rw [e2]
  ext
  · simp [hr, Complex.add_re, Complex.mul_re]; ring
  · simp [hr, Complex.add_im, Complex.mul_im]; ring

/-- What a chord cuts off a disc. -/
theorem segment_volume {c u : V2} (hu : u.x ^ 2 + u.y ^ 2 = 1) {R h : ℝ} (hR : 0 < R) (h1 : -R < h) (h2 : h ≤ R) :
    volume {z : ℝ × ℝ | (z.1 - c.x) ^ 2 + (z.2 - c.y) ^ 2 < R ^ 2 ∧ h < (z.1 - c.x) * u.x + (z.2 - c.y) * u.y} =
      ENNReal.ofReal (R ^ 2 * (Real.pi / 2) - h * √(R ^ 2 - h ^ 2) - R ^ 2 * Real.arcsin (h / R)) := by
  rw [← cap_volume hR h1 h2, ← (motion_preserving c u hu).measure_preimage]
  · congr 1
    ext z
    simp only [motion, Set.mem_preimage, Set.mem_ofPred_eq]
    have e1 : (c.x + z.1 * u.x - z.2 * u.y - c.x) ^ 2 + (c.y + z.1 * u.y + z.2 * u.x - c.y) ^ 2 =
        z.1 ^ 2 + z.2 ^ 2 := by linear_combination (z.1 ^ 2 + z.2 ^ 2) * hu
    have e2 : (c.x + z.1 * u.x - z.2 * u.y - c.x) * u.x + (c.y + z.1 * u.y + z.2 * u.x - c.y) * u.y = z.1 := by
      linear_combination z.1 * hu
    rw [e1, e2]
  · apply MeasurableSet.nullMeasurableSet
    have m1 : Measurable fun z : ℝ × ℝ => (z.1 - c.x) ^ 2 + (z.2 - c.y) ^ 2 := by fun_prop
    have m2 : Measurable fun z : ℝ × ℝ => (z.1 - c.x) * u.x + (z.2 - c.y) * u.y := by fun_prop
    exact (measurableSet_lt m1 measurable_const).inter (measurableSet_lt measurable_const m2)

/-- What an arc counts at a point more than its chord. -/
def arcExtra (v1 v2 : Vertex) (p : V2) : ℤ :=
  if 0 < v1.bulge then
    (if cross v1.pos v2.pos p < 0 ∧ dist2 p (centerOf v1 v2) < dist2 v1.pos (centerOf v1 v2) then 1 else 0)
  else (if 0 < cross v1.pos v2.pos p ∧ dist2 p (centerOf v1 v2) < dist2 v1.pos (centerOf v1 v2) then -1 else 0)

theorem arc_total {v1 v2 : Vertex} (ha : ArcOk v1 v2) (p : V2) : ∃ k, arcWinding v1 v2 p = .ok k := by
  unfold arcWinding
  simp only [dist_run ha, ok_bind, pure_eq_ok]
  split_ifs <;> exact ⟨_, rfl⟩

set_option maxHeartbeats 1000000 in
theorem arc_split {v1 v2 : Vertex} (ha : ArcOk v1 v2) (hb : |v1.bulge| ≤ 1) {p : V2}
    (hX0 : cross v1.pos v2.pos p ≠ 0) :
    arcWinding v1 v2 p = .ok (lw v1.pos v2.pos p + arcExtra v1 v2 p) := by
  have hdot := dot_from (v2 := v2) ha.b_ne p
  have hbb := abs_le.1 hb
  have hβ : 0 < v1.bulge → 0 ≤ (1 - v1.bulge ^ 2) / (2 * v1.bulge) := fun h =>
    div_nonneg (by nlinarith) (by linarith)
  have hβ' : v1.bulge < 0 → (1 - v1.bulge ^ 2) / (2 * v1.bulge) ≤ 0 := fun h =>
    div_nonpos_of_nonneg_of_nonpos (by nlinarith) (by linarith)
  have eX : cross v1.pos v2.pos p = (v1.pos.x - p.x) * (v2.pos.y - p.y) -
    (v1.pos.y - p.y) * (v2.pos.x - p.x) := by simp only [cross]; ring
  have hobt : dist2 p (centerOf v1 v2) < dist2 v1.pos (centerOf v1 v2) →
      (0 < v1.bulge ∧ cross v1.pos v2.pos p ≤ 0) ∨ (v1.bulge < 0 ∧ 0 ≤ cross v1.pos v2.pos p) →
      0 ≤ (v1.pos.y - p.y) * (v2.pos.y - p.y) →
      (v1.pos.x - p.x) * (v2.pos.x - p.x) < 0 := by
    rintro hD (⟨h1, h2⟩ | ⟨h1, h2⟩) h3
    · nlinarith [mul_nonneg (hβ h1) (neg_nonneg.2 h2)]
    · nlinarith [mul_nonneg (neg_nonneg.2 (hβ' h1)) h2]
  have hsign : ∀ a b : ℝ, a * b < 0 → (a < 0 ∧ 0 < b) ∨ (0 < a ∧ b < 0) := by
    intro a b h
    rcases mul_neg_iff.1 h with h | h
    · exact Or.inr h
    · exact Or.inl h
  have hccw : v1.bulgeIsPos ↔ 0 < v1.bulge := Iff.rfl
  unfold arcWinding isLeft isLeftOrEqual arcExtra
  rw [lw_eq]
  simp only [dist_run ha, ok_bind, pure_eq_ok, decide_eq_true_eq, gt_iff_lt, ge_iff_le, hccw]
  by_cases hD : dist2 p (centerOf v1 v2) < dist2 v1.pos (centerOf v1 v2)
  · have hxr := hobt hD
    simp only [hD, if_true, and_true]
    clear hdot hβ hβ' hobt
    rcases lt_or_gt_of_ne ha.b_ne with hneg | hpos
    · simp only [not_lt.2 hneg.le, false_and, if_false, not_false_eq_true, true_and]
      rcases lt_or_gt_of_ne hX0 with hX | hX
      · simp only [not_le.2 hX, not_lt.2 hX.le, and_false, if_false, not_false_eq_true, and_true]
        split_ifs <;> first | rfl | (exfalso; linarith)
      · simp only [hX.le, hX, and_true, if_true, not_true_eq_false, and_false, if_false]
        rcases le_or_gt v1.pos.y p.y with y0 | y0
        · rw [if_pos y0, if_pos y0]
          rcases le_or_gt v2.pos.y p.y with y1 | y1
          · rw [if_neg (not_lt.2 y1), if_neg (not_lt.2 y1), if_pos]
            · rfl
            · rcases hsign _ _ (hxr (Or.inr ⟨hneg, hX.le⟩) (by nlinarith)) with h' | h'
              · exact ⟨by linarith, by linarith⟩
              · rw [eX] at hX; nlinarith
          · rw [if_pos y1, if_pos y1]; rfl
        · rw [if_neg (not_le.2 y0), if_neg (not_le.2 y0)]
          rcases le_or_gt v2.pos.y p.y with y1 | y1
          · rw [if_pos y1]; rfl
          · rw [if_neg (not_le.2 y1), if_pos]
            · rfl
            · rcases hsign _ _ (hxr (Or.inr ⟨hneg, hX.le⟩) (by nlinarith)) with h' | h'
              · rw [eX] at hX; nlinarith
              · exact ⟨by linarith, by linarith⟩
    · simp only [hpos, true_and, not_true_eq_false, false_and, if_false, if_true]
      rcases lt_or_gt_of_ne hX0 with hX | hX
      · simp only [hX, not_lt.2 hX.le, and_false, if_false, not_false_eq_true, and_true, if_true]
        rcases le_or_gt v1.pos.y p.y with y0 | y0
        · rw [if_pos y0, if_pos y0]
          rcases le_or_gt v2.pos.y p.y with y1 | y1
          · rw [if_neg (not_lt.2 y1), if_pos]
            · rfl
            · rcases hsign _ _ (hxr (Or.inl ⟨hpos, hX.le⟩) (by nlinarith)) with h' | h'
              · rw [eX] at hX; nlinarith
              · exact ⟨by linarith, by linarith⟩
          · rw [if_pos y1]; rfl
        · rw [if_neg (not_le.2 y0), if_neg (not_le.2 y0)]
          rcases le_or_gt v2.pos.y p.y with y1 | y1
          · rw [if_pos y1, if_pos y1]; rfl
          · rw [if_neg (not_le.2 y1), if_neg (not_le.2 y1), if_pos]
            · rfl
            · rcases hsign _ _ (hxr (Or.inl ⟨hpos, hX.le⟩) (by nlinarith)) with h' | h'
              · exact ⟨by linarith, by linarith⟩
              · rw [eX] at hX; nlinarith
      · simp only [hX, not_lt.2 hX.le, and_true, not_true_eq_false, and_false, if_false, if_true]
        split_ifs <;> first | rfl | (exfalso; linarith)
  · simp only [hD, if_false, and_false, ite_self, add_zero]
    rcases lt_or_gt_of_ne hX0 with hX | hX
    · simp only [not_le.2 hX, not_lt.2 hX.le, and_false, and_true, if_false, not_false_eq_true, ite_self]
      split_ifs <;> first | rfl | (exfalso; simp_all)
    · simp only [hX.le, hX, and_true, and_false, if_true, not_true_eq_false, if_false, ite_self]
      split_ifs <;> first | rfl | (exfalso; simp_all)

theorem arcsin_half {b : ℝ} (h0 : 0 < b) (h1 : b ≤ 1) :
    Real.arcsin ((1 - b ^ 2) / (1 + b ^ 2)) = Real.pi / 2 - 2 * Real.arctan b := by
  have hp := Real.pi_pos
  have a0 : 0 < Real.arctan b := Real.arctan_pos.2 h0
  have a1 : Real.arctan b ≤ Real.pi / 4 := by
    rw [← Real.arctan_one]; exact Real.arctan_strictMono.monotone h1
  have e : (1 - b ^ 2) / (1 + b ^ 2) = Real.sin (Real.pi / 2 - 2 * Real.arctan b) := by
    rw [Real.sin_pi_div_two_sub, Real.cos_two_mul, Real.cos_sq_arctan]
    have : (1 + b ^ 2) ≠ 0 := by positivity
    field_simp
    ring
  rw [e, Real.arcsin_sin (by linarith) (by linarith)]

/-- Twice the area between an arc and its chord, with the sign of its direction. -/
def arcPart (v1 v2 : Vertex) : ℝ :=
  4 * Real.arctan v1.bulge * (dist2 v1.pos v2.pos * (v1.bulge ^ 2 + 1) ^ 2 / (16 * v1.bulge ^ 2)) -
    dist2 v1.pos v2.pos * ((1 - v1.bulge ^ 2) / (4 * v1.bulge))

theorem arcExtra_spec {v1 v2 : Vertex} (hne : v1.pos ≠ v2.pos) (hb0 : v1.bulge ≠ 0) (hb : |v1.bulge| ≤ 1) :
    Integrable (fun z : ℝ × ℝ => (arcExtra v1 v2 ⟨z.1, z.2⟩ : ℝ)) ∧
      ∫ z : ℝ × ℝ, (arcExtra v1 v2 ⟨z.1, z.2⟩ : ℝ) = arcPart v1 v2 / 2 := by
  obtain ⟨σ, β, hσ, hβ0, hβ1, hbe⟩ : ∃ σ β : ℝ, (σ = 1 ∨ σ = -1) ∧ 0 < β ∧ β ≤ 1 ∧ v1.bulge = σ * β := by
    rcases lt_or_gt_of_ne hb0 with h | h
    · exact ⟨-1, -v1.bulge, Or.inr rfl, by linarith, by linarith [(abs_le.1 hb).1], by ring⟩
    · exact ⟨1, v1.bulge, Or.inl rfl, h, (abs_le.1 hb).2, by ring⟩
  have hσ2 : σ ^ 2 = 1 := by rcases hσ with rfl | rfl <;> norm_num
  set L := √(dist2 v1.pos v2.pos) with hL
  have hd := dist2_pos hne
  have hL0 : 0 < L := Real.sqrt_pos.2 hd
  have hLsq : L ^ 2 = dist2 v1.pos v2.pos := Real.sq_sqrt hd.le
  have hLe : L ^ 2 = (v2.pos.x - v1.pos.x) ^ 2 + (v2.pos.y - v1.pos.y) ^ 2 := by
    rw [hLsq]; simp only [dist2]; ring
  set u : V2 := ⟨σ * (v2.pos.y - v1.pos.y) / L, -(σ * (v2.pos.x - v1.pos.x)) / L⟩ with hu
  set R := L * (1 + β ^ 2) / (4 * β) with hR
  set h := L * (1 - β ^ 2) / (4 * β) with hh
  have hR0 : 0 < R := by rw [hR]; positivity
  have hh0 : 0 ≤ h := by
    rw [hh]
    refine div_nonneg (mul_nonneg hL0.le ?_) (by positivity)
    nlinarith
  have hhR : h ≤ R := by
    rw [hh, hR]
    have : L * (1 - β ^ 2) ≤ L * (1 + β ^ 2) := by nlinarith [sq_nonneg β]
    gcongr
  have huu : u.x ^ 2 + u.y ^ 2 = 1 := by
    rw [hu]
    simp only
    rw [div_pow, div_pow, ← add_div, div_eq_one_iff_eq (by positivity), hLe]
    linear_combination ((v2.pos.x - v1.pos.x) ^ 2 + (v2.pos.y - v1.pos.y) ^ 2) * hσ2
  set c := centerOf v1 v2 with hc
  have hσb : σ * v1.bulge = β := by rw [hbe]; linear_combination β * hσ2
  have hbsq : v1.bulge ^ 2 = β ^ 2 := by rw [hbe]; linear_combination β ^ 2 * hσ2
  have hσinv : ∀ t : ℝ, t / v1.bulge = σ * (t / β) := by
    intro t
    rw [hbe]
    rcases hσ with rfl | rfl
    · ring
    · field_simp
  have hcr : cross v1.pos v2.pos c = L ^ 2 * ((1 - v1.bulge ^ 2) / (4 * v1.bulge)) := by
    rw [hLe, hc]
    simp only [cross, centerOf]
    field_simp
    ring
  have hRsq : dist2 v1.pos c = R ^ 2 := by
    have : dist2 v1.pos c = L ^ 2 * ((1 + v1.bulge ^ 2) ^ 2 / (16 * v1.bulge ^ 2)) := by
      rw [hLe, hc]
      simp only [dist2, centerOf]
      field_simp
      ring
    rw [this, hbsq, hR]
    field_simp
    ring
  set S := {z : ℝ × ℝ | (z.1 - c.x) ^ 2 + (z.2 - c.y) ^ 2 < R ^ 2 ∧ h < (z.1 - c.x) * u.x + (z.2 - c.y) * u.y} with hS
  have hvol := segment_volume (c := c) huu hR0 (by linarith) hhR
  rw [← hS] at hvol
  have hSm : MeasurableSet S := by
    have m1 : Measurable fun z : ℝ × ℝ => (z.1 - c.x) ^ 2 + (z.2 - c.y) ^ 2 := by fun_prop
    have m2 : Measurable fun z : ℝ × ℝ => (z.1 - c.x) * u.x + (z.2 - c.y) * u.y := by fun_prop
    exact (measurableSet_lt m1 measurable_const).inter (measurableSet_lt measurable_const m2)
  have hmem : ∀ z : ℝ × ℝ, z ∈ S ↔ dist2 ⟨z.1, z.2⟩ c < dist2 v1.pos c ∧ σ * cross v1.pos v2.pos ⟨z.1, z.2⟩ < 0 := by
    intro z
    rw [hS, Set.mem_ofPred_eq, hRsq]
    have e1 : dist2 (⟨z.1, z.2⟩ : V2) c = (z.1 - c.x) ^ 2 + (z.2 - c.y) ^ 2 := by simp only [dist2]
    have e2 : (z.1 - c.x) * u.x + (z.2 - c.y) * u.y = h - σ * cross v1.pos v2.pos ⟨z.1, z.2⟩ / L := by
      have : h = σ * cross v1.pos v2.pos c / L := by
        rw [hcr, hh, hbsq]
        have := hσinv ((1 - β ^ 2) / 4)
        rw [div_div, div_div] at this
        rw [this]
        field_simp
        linear_combination (-(1 - β ^ 2)) * hσ2
      rw [this, hu]
      simp only [cross]
      field_simp
      ring
    rw [e1, e2]
    have : h < h - σ * cross v1.pos v2.pos ⟨z.1, z.2⟩ / L ↔ σ * cross v1.pos v2.pos ⟨z.1, z.2⟩ < 0 := by
      rw [lt_sub_comm, sub_self, div_lt_iff₀ hL0, zero_mul]
    rw [this]
  have hfun : (fun z : ℝ × ℝ => (arcExtra v1 v2 ⟨z.1, z.2⟩ : ℝ)) = S.indicator (fun _ => σ) := by
    funext z
    rw [Set.indicator_apply]
    unfold arcExtra
    rcases hσ with rfl | rfl
    · rw [if_pos (show 0 < v1.bulge by rw [hbe]; linarith)]
      by_cases q : z ∈ S
      · rw [if_pos q, if_pos]
        · norm_num
        · have := (hmem z).1 q
          exact ⟨by linarith [this.2], this.1⟩
      · rw [if_neg q, if_neg]
        · norm_num
        · intro q'
          exact q ((hmem z).2 ⟨q'.2, by linarith [q'.1]⟩)
    · rw [if_neg (show ¬ 0 < v1.bulge by rw [hbe]; linarith)]
      by_cases q : z ∈ S
      · rw [if_pos q, if_pos]
        · norm_num
        · have := (hmem z).1 q
          exact ⟨by linarith [this.2], this.1⟩
      · rw [if_neg q, if_neg]
        · norm_num
        · intro q'
          exact q ((hmem z).2 ⟨q'.2, by linarith [q'.1]⟩)
  have hval : R ^ 2 * (Real.pi / 2) - h * √(R ^ 2 - h ^ 2) - R ^ 2 * Real.arcsin (h / R) =
      2 * Real.arctan β * R ^ 2 - h * (L / 2) := by
    have e1 : h / R = (1 - β ^ 2) / (1 + β ^ 2) := by
      rw [hh, hR]
      field_simp
    have e2 : R ^ 2 - h ^ 2 = (L / 2) ^ 2 := by
      rw [hh, hR]; field_simp; ring
    rw [e1, arcsin_half hβ0 hβ1, e2, Real.sqrt_sq (by positivity)]
    ring
  have hpart : σ * (2 * Real.arctan β * R ^ 2 - h * (L / 2)) = arcPart v1 v2 / 2 := by
    unfold arcPart
    have e1 : Real.arctan v1.bulge = σ * Real.arctan β := by
      rw [hbe]
      rcases hσ with rfl | rfl
      · simp
      · rw [neg_one_mul, Real.arctan_neg]; ring
    have := hσinv ((1 - β ^ 2) / 4)
    rw [div_div, div_div] at this
    rw [e1, hbsq, this, ← hLsq, hh, hR]
    field_simp
    ring
  rw [hfun]
  have hnn : 0 ≤ 2 * Real.arctan β * R ^ 2 - h * (L / 2) := by
    rw [← hval]
    by_contra hn
    rw [not_le] at hn
    rw [ENNReal.ofReal_of_nonpos hn.le] at hvol
    -- the set is open and not empty
    have hSo : IsOpen S := by
      rw [hS]
      simp only [Set.ofPred_and]
      exact (isOpen_lt (by fun_prop) continuous_const).inter (isOpen_lt continuous_const (by fun_prop))
    have hSn : S.Nonempty := by
      have hlt : h < R := by
        rw [hh, hR]
        have : L * (1 - β ^ 2) < L * (1 + β ^ 2) := by nlinarith [mul_pos hL0 (pow_pos hβ0 2)]
        gcongr
      refine ⟨(c.x + (h + R) / 2 * u.x, c.y + (h + R) / 2 * u.y), ?_, ?_⟩
      · have : (c.x + (h + R) / 2 * u.x - c.x) ^ 2 + (c.y + (h + R) / 2 * u.y - c.y) ^ 2 = ((h + R) / 2) ^ 2 := by
          linear_combination ((h + R) / 2) ^ 2 * huu
        simp only
        rw [this]
        nlinarith
      · have : (c.x + (h + R) / 2 * u.x - c.x) * u.x + (c.y + (h + R) / 2 * u.y - c.y) * u.y = (h + R) / 2 := by
          linear_combination ((h + R) / 2) * huu
        simp only
        rw [this]
        linarith
    exact absurd hvol (hSo.measure_pos volume hSn).ne'
  constructor
  · rw [integrable_indicator_iff hSm]
    refine integrableOn_const ?_
    rw [hvol]; simp
  · rw [integral_indicator hSm, setIntegral_const, Measure.real, hvol, hval, ENNReal.toReal_ofReal hnn, smul_eq_mul,
      mul_comm, hpart]

end
end Cavc
