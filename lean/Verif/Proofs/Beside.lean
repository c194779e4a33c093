import Verif.Proofs.CrossJump

/-! The two sides of a line or an arc: coordinates along it and away from it. -/
namespace Cavc
open Spec
open scoped Classical
open Filter Topology
noncomputable section

/-- The point beside the segment at parameter `t`, to the left for positive `u`. -/
def sideP (v e : Vertex) (t u : ℝ) : V2 :=
  if IsLine v then ⟨v.pos.x + t * (e.pos.x - v.pos.x) - u * (e.pos.y - v.pos.y),
    v.pos.y + t * (e.pos.y - v.pos.y) + u * (e.pos.x - v.pos.x)⟩
  else if 0 < v.bulge then rot (centerOf v e) (t * sweep v)
    ⟨(centerOf v e).x + (1 - u) * (v.pos.x - (centerOf v e).x), (centerOf v e).y + (1 - u) * (v.pos.y - (centerOf v e).y)⟩
  else rot (centerOf v e) (t * sweep v)
    ⟨(centerOf v e).x + (1 + u) * (v.pos.x - (centerOf v e).x), (centerOf v e).y + (1 + u) * (v.pos.y - (centerOf v e).y)⟩

theorem sideP_zero (v e : Vertex) (t : ℝ) : sideP v e t 0 = segPt v e t := by
  unfold sideP segPt
  split_ifs
  · ext <;> simp [lerp] <;> ring
  · congr 1; ext <;> simp
  · congr 1; ext <;> simp

theorem continuous_sideP (v e : Vertex) : Continuous fun z : ℝ × ℝ => xy (sideP v e z.1 z.2) := by
  unfold sideP xy
  split_ifs
  · simp only; fun_prop
  · simp only [rot]; fun_prop
  · simp only [rot]; fun_prop

theorem leftOf_sideP {v e : Vertex} (hne : v.pos ≠ e.pos) (ha : ¬ IsLine v → v.pos ≠ centerOf v e) {t u : ℝ} (h0 : -1 < u) (h1 : u < 1) :
    (0 < leftOf v e (sideP v e t u) ↔ 0 < u) ∧ (leftOf v e (sideP v e t u) < 0 ↔ u < 0) := by
  have key : ∃ m : ℝ, 0 < m ∧ leftOf v e (sideP v e t u) = m * u := by
    unfold leftOf sideP
    by_cases hl : IsLine v
    · rw [if_pos hl, if_pos hl]
      refine ⟨dist2 v.pos e.pos, dist2_pos hne, ?_⟩
      simp only [cross, dist2]; ring
    · rw [if_neg hl, if_neg hl]
      have hd := dist2_pos (ha hl)
      by_cases hb : 0 < v.bulge
      · rw [if_pos hb, if_pos hb, dist2_rot]
        refine ⟨dist2 v.pos (centerOf v e) * (2 - u), mul_pos hd (by linarith), ?_⟩
        simp only [dist2]; ring
      · rw [if_neg hb, if_neg hb, dist2_rot]
        refine ⟨dist2 v.pos (centerOf v e) * (2 + u), mul_pos hd (by linarith), ?_⟩
        simp only [dist2]; ring
  obtain ⟨m, hm, h⟩ := key
  rw [h]
  constructor
  · exact mul_pos_iff_of_pos_left hm
  · constructor
    · intro h; by_contra hn; nlinarith [not_lt.1 hn]
    · intro h; nlinarith

/-- Points near an arc. -/
theorem beside_arc {c a z : V2} {ω t0 : ℝ} (hω : ω ≠ 0) (ha : a ≠ c) (hz : z = rot c (t0 * ω) a) {ε : ℝ} (hε : 0 < ε) :
    ∀ᶠ y in 𝓝 (xy z), ∃ t k, |t - t0| < ε ∧ |k - 1| < ε ∧
      toV y = rot c (t * ω) ⟨c.x + k * (a.x - c.x), c.y + k * (a.y - c.y)⟩ := by
  have hd : 0 < dist2 z c := by rw [hz, dist2_rot]; exact dist2_pos ha
  set D := dist2 z c with hD
  set w : ℝ × ℝ → ℂ := fun y => ⟨((y.1 - c.x) * (z.x - c.x) + (y.2 - c.y) * (z.y - c.y)) / D,
    ((z.x - c.x) * (y.2 - c.y) - (z.y - c.y) * (y.1 - c.x)) / D⟩ with hw
  have hw1 : w (xy z) = 1 := by
    apply Complex.ext
    · simp only [hw, xy, Complex.one_re]
      rw [div_eq_one_iff_eq hd.ne', hD]; simp only [dist2]; ring
    · simp only [hw, xy, Complex.one_im]
      rw [div_eq_zero_iff]; left; ring
  have hwc : Continuous w := by
    have : w = fun y : ℝ × ℝ => (((((y.1 - c.x) * (z.x - c.x) + (y.2 - c.y) * (z.y - c.y)) / D : ℝ)) : ℂ) +
        ((((z.x - c.x) * (y.2 - c.y) - (z.y - c.y) * (y.1 - c.x)) / D : ℝ) : ℂ) * Complex.I := by
      funext y
      apply Complex.ext <;> simp [hw]
    rw [this]
    fun_prop
  have harg : ContinuousAt (fun y => Complex.arg (w y) / ω) (xy z) := by
    refine ContinuousAt.div_const ?_ _
    refine ContinuousAt.comp (g := Complex.arg) ?_ hwc.continuousAt
    rw [hw1]
    exact Complex.continuousAt_arg (by simp)
  have hnorm : ContinuousAt (fun y => ‖w y‖) (xy z) := hwc.norm.continuousAt
  have e1 := harg.eventually (Metric.ball_mem_nhds _ hε)
  have e2 := hnorm.eventually (Metric.ball_mem_nhds _ hε)
  filter_upwards [e1, e2] with y h1 h2
  rw [hw1, Complex.arg_one, zero_div, Real.dist_eq, sub_zero] at h1
  rw [hw1, norm_one, Real.dist_eq] at h2
  refine ⟨t0 + Complex.arg (w y) / ω, ‖w y‖, by simpa using h1, h2, ?_⟩
  have e3 : (t0 + Complex.arg (w y) / ω) * ω = Complex.arg (w y) + t0 * ω := by field_simp; ring
  have ezx : z.x = c.x + (Real.cos (t0 * ω) * (a.x - c.x) - Real.sin (t0 * ω) * (a.y - c.y)) := by
    rw [hz]; simp only [rot]; ring
  have ezy : z.y = c.y + (Real.sin (t0 * ω) * (a.x - c.x) + Real.cos (t0 * ω) * (a.y - c.y)) := by
    rw [hz]; simp only [rot]; ring
  have hre : ‖w y‖ * Real.cos (Complex.arg (w y)) = (w y).re := Complex.norm_mul_cos_arg _
  have him : ‖w y‖ * Real.sin (Complex.arg (w y)) = (w y).im := Complex.norm_mul_sin_arg _
  have hre' : (w y).re * D = (y.1 - c.x) * (z.x - c.x) + (y.2 - c.y) * (z.y - c.y) := by
    simp only [hw]; field_simp
  have him' : (w y).im * D = (z.x - c.x) * (y.2 - c.y) - (z.y - c.y) * (y.1 - c.x) := by
    simp only [hw]; field_simp
  have hDe : D = (z.x - c.x) ^ 2 + (z.y - c.y) ^ 2 := rfl
  rw [e3, ← rot_add]
  have e4 : rot c (t0 * ω) ⟨c.x + ‖w y‖ * (a.x - c.x), c.y + ‖w y‖ * (a.y - c.y)⟩ =
      ⟨c.x + ‖w y‖ * (z.x - c.x), c.y + ‖w y‖ * (z.y - c.y)⟩ := by
    rw [ezx, ezy]
    ext <;> simp only [rot] <;> ring
  rw [e4]
  have q1 : (w y).re * (z.x - c.x) - (w y).im * (z.y - c.y) = y.1 - c.x := by
    apply mul_right_cancel₀ hd.ne'
    linear_combination (z.x - c.x) * hre' - (z.y - c.y) * him' + -(y.1 - c.x) * hDe
  have q2 : (w y).im * (z.x - c.x) + (w y).re * (z.y - c.y) = y.2 - c.y := by
    apply mul_right_cancel₀ hd.ne'
    linear_combination (z.x - c.x) * him' + (z.y - c.y) * hre' + -(y.2 - c.y) * hDe
  ext
  · simp only [rot, toV]
    linear_combination -q1 - (z.x - c.x) * hre + (z.y - c.y) * him
  · simp only [rot, toV]
    linear_combination -q2 - (z.x - c.x) * him - (z.y - c.y) * hre

/-- Every point near a point of the segment is beside it. -/
theorem beside {v e : Vertex} (hne : v.pos ≠ e.pos) (hok : SegOk v e) {t0 ε : ℝ} (hε : 0 < ε) :
    ∀ᶠ y in 𝓝 (xy (segPt v e t0)), ∃ t u, |t - t0| < ε ∧ |u| < ε ∧ toV y = sideP v e t u := by
  by_cases hl : IsLine v
  · have hd := dist2_pos hne
    set D := dist2 v.pos e.pos with hD
    have hDe : D = (v.pos.x - e.pos.x) ^ 2 + (v.pos.y - e.pos.y) ^ 2 := rfl
    set T : ℝ × ℝ → ℝ := fun y => ((e.pos.x - v.pos.x) * (y.1 - v.pos.x) + (e.pos.y - v.pos.y) * (y.2 - v.pos.y)) / D with hT
    set U : ℝ × ℝ → ℝ := fun y => ((e.pos.x - v.pos.x) * (y.2 - v.pos.y) - (e.pos.y - v.pos.y) * (y.1 - v.pos.x)) / D with hU
    have cT : Continuous T := by rw [hT]; fun_prop
    have cU : Continuous U := by rw [hU]; fun_prop
    have hpt : segPt v e t0 = lerp v.pos e.pos t0 := by unfold segPt; rw [if_pos hl]
    have T0 : T (xy (segPt v e t0)) = t0 := by
      rw [hpt]; simp only [hT, xy, lerp]; rw [div_eq_iff hd.ne', hDe]; ring
    have U0 : U (xy (segPt v e t0)) = 0 := by
      rw [hpt]; simp only [hU, xy, lerp]; rw [div_eq_iff hd.ne']; ring
    have e1 := cT.continuousAt.eventually (Metric.ball_mem_nhds (T (xy (segPt v e t0))) hε)
    have e2 := cU.continuousAt.eventually (Metric.ball_mem_nhds (U (xy (segPt v e t0))) hε)
    filter_upwards [e1, e2] with y h1 h2
    rw [T0, Real.dist_eq] at h1
    rw [U0, Real.dist_eq, sub_zero] at h2
    refine ⟨T y, U y, h1, h2, ?_⟩
    have hTe : T y * D = (e.pos.x - v.pos.x) * (y.1 - v.pos.x) + (e.pos.y - v.pos.y) * (y.2 - v.pos.y) := by
      simp only [hT]; field_simp
    have hUe : U y * D = (e.pos.x - v.pos.x) * (y.2 - v.pos.y) - (e.pos.y - v.pos.y) * (y.1 - v.pos.x) := by
      simp only [hU]; field_simp
    unfold sideP
    rw [if_pos hl]
    ext
    · simp only [toV]
      apply mul_right_cancel₀ hd.ne'
      linear_combination -(e.pos.x - v.pos.x) * hTe + (e.pos.y - v.pos.y) * hUe + (y.1 - v.pos.x) * hDe
    · simp only [toV]
      apply mul_right_cancel₀ hd.ne'
      linear_combination -(e.pos.y - v.pos.y) * hTe - (e.pos.x - v.pos.x) * hUe + (y.2 - v.pos.y) * hDe
  · have ha := hok.arcOk hl
    have hpt : segPt v e t0 = rot (centerOf v e) (t0 * sweep v) v.pos := by unfold segPt; rw [if_neg hl]
    have hω : sweep v ≠ 0 := by
      rcases lt_or_gt_of_ne ha.b_ne with h | h
      · exact (sweep_neg h).ne
      · exact (sweep_pos h).ne'
    filter_upwards [beside_arc hω ha.start_ne hpt hε] with y ⟨t, k, h1, h2, h3⟩
    by_cases hb : 0 < v.bulge
    · refine ⟨t, 1 - k, h1, by rw [abs_sub_comm]; exact h2, ?_⟩
      unfold sideP
      rw [if_neg hl, if_pos hb, h3]
      congr 1
      ext <;> simp
    · refine ⟨t, k - 1, h1, h2, ?_⟩
      unfold sideP
      rw [if_neg hl, if_neg hb, h3]
      congr 1
      ext <;> simp

end
end Cavc
