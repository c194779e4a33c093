import Verif.Proofs.Arc

/-! Angles: normalisation, differences, and the angle of a rotated point. -/
namespace Cavc
open Spec

theorem tau_pos : 0 < tau := by unfold tau; positivity

theorem normalizeRadians_spec (θ : ℝ) : 0 ≤ normalizeRadians θ ∧
    (normalizeRadians θ < tau ∨ (θ = tau ∧ normalizeRadians θ = tau)) ∧
    ∃ k : ℤ, normalizeRadians θ = θ + k * tau := by
  have ht := tau_pos
  unfold normalizeRadians
  split_ifs with h
  · refine ⟨h.1, ?_, 0, by simp⟩
    rcases lt_or_eq_of_le h.2 with h' | h'
    · exact Or.inl h'
    · exact Or.inr ⟨h', h'⟩
  · have h1 := Int.floor_le (θ / tau)
    have h2 := Int.lt_floor_add_one (θ / tau)
    rw [le_div_iff₀ ht] at h1
    rw [div_lt_iff₀ ht] at h2
    refine ⟨by linarith, Or.inl (by linarith), -⌊θ / tau⌋, by push_cast; ring⟩

theorem normalizeRadians_eq {θ s : ℝ} (h0 : 0 ≤ s) (h1 : s < tau) (hne : θ ≠ tau)
    (hk : ∃ k : ℤ, θ = s + k * tau) : normalizeRadians θ = s := by
  have ht := tau_pos
  obtain ⟨a, b, k', hk'⟩ := normalizeRadians_spec θ
  obtain ⟨k, hk⟩ := hk
  have hlt : normalizeRadians θ < tau := by
    rcases b with b | b
    · exact b
    · exact absurd b.1 hne
  have e : normalizeRadians θ - s = (k + k' : ℤ) * tau := by rw [hk', hk]; push_cast; ring
  have h2 : (k + k' : ℤ) = 0 := by
    by_contra hz
    rcases lt_or_gt_of_ne hz with h | h
    · have h3 : ((k + k' : ℤ) : ℝ) ≤ -1 := by exact_mod_cast (by omega : k + k' ≤ -1)
      nlinarith
    · have h3 : (1 : ℝ) ≤ ((k + k' : ℤ) : ℝ) := by exact_mod_cast (by omega : 1 ≤ k + k')
      nlinarith
  rw [h2] at e
  push_cast at e
  linarith

theorem deltaAngle_spec (a b : ℝ) : -Real.pi < deltaAngle a b ∧ deltaAngle a b ≤ Real.pi ∧
    ∃ k : ℤ, deltaAngle a b = b - a + k * tau := by
  obtain ⟨h0, h1, k, hk⟩ := normalizeRadians_spec (b - a)
  have hpi := Real.pi_pos
  unfold deltaAngle
  simp only
  split_ifs with h
  · refine ⟨by unfold tau; linarith, ?_, k - 1, by rw [hk]; push_cast; ring⟩
    have h2 : normalizeRadians (b - a) ≤ tau := by
      rcases h1 with h1 | h1
      · exact h1.le
      · exact h1.2.le
    linarith
  · exact ⟨by linarith, not_lt.mp h, k, hk⟩

theorem deltaAngle_eq {a b θ : ℝ} (h1 : -Real.pi < θ) (h2 : θ ≤ Real.pi)
    (hk : ∃ k : ℤ, b = a + θ + k * tau) : deltaAngle a b = θ := by
  obtain ⟨g1, g2, k', hk'⟩ := deltaAngle_spec a b
  obtain ⟨k, hk⟩ := hk
  have e : deltaAngle a b - θ = (k + k' : ℤ) * tau := by rw [hk', hk]; push_cast; ring
  have h3 : (k + k' : ℤ) = 0 := by
    by_contra hz
    have ht : tau = 2 * Real.pi := rfl
    have hp := Real.pi_pos
    rcases lt_or_gt_of_ne hz with h | h
    · have h3 : ((k + k' : ℤ) : ℝ) ≤ -1 := by exact_mod_cast (by omega : k + k' ≤ -1)
      nlinarith
    · have h3 : (1 : ℝ) ≤ ((k + k' : ℤ) : ℝ) := by exact_mod_cast (by omega : 1 ≤ k + k')
      nlinarith
  rw [h3] at e
  push_cast at e
  linarith

/-- The half circle with negative sweep: the difference is normalised to `+π`. -/
theorem deltaAngle_neg_pi {a b : ℝ} (hk : ∃ k : ℤ, b = a + -Real.pi + k * tau) :
    deltaAngle a b = Real.pi := by
  obtain ⟨k, hk⟩ := hk
  refine deltaAngle_eq (by linarith [Real.pi_pos]) (le_refl _) ⟨k - 1, ?_⟩
  rw [hk]; push_cast; unfold tau; ring

theorem abs_deltaAngle {a b θ : ℝ} (h1 : |θ| ≤ Real.pi) (hk : ∃ k : ℤ, b = a + θ + k * tau) :
    |deltaAngle a b| = |θ| := by
  rw [abs_le] at h1
  rcases eq_or_lt_of_le h1.1 with h | h
  · rw [← h] at hk ⊢
    rw [deltaAngle_neg_pi hk, abs_neg]
  · rw [deltaAngle_eq h h1.2 hk]

/-- polar form about a center -/
theorem polar (c p : V2) : p = ⟨c.x + distance p c * Real.cos (angle c p),
    c.y + distance p c * Real.sin (angle c p)⟩ := by
  have hn : ‖(⟨p.x - c.x, p.y - c.y⟩ : ℂ)‖ = distance p c := by
    rw [Complex.norm_def, Complex.normSq_mk, distance, dist2]; congr 1; ring
  by_cases h : p = c
  · subst h
    have : distance p p = 0 := by simp [distance, dist2]
    rw [this]; simp
  · have hne : (⟨p.x - c.x, p.y - c.y⟩ : ℂ) ≠ 0 := by
      intro h0
      have := Complex.ext_iff.mp h0
      simp only [Complex.zero_re, Complex.zero_im] at this
      exact h (V2.ext (by linarith [this.1]) (by linarith [this.2]))
    have h1 := Complex.cos_arg hne
    have h2 := Complex.sin_arg (⟨p.x - c.x, p.y - c.y⟩ : ℂ)
    rw [hn] at h1 h2
    have hd : distance p c ≠ 0 := (Real.sqrt_pos.mpr (dist2_pos h)).ne'
    ext
    · simp only [angle, h1]; field_simp; ring
    · simp only [angle, h2]; field_simp; ring

theorem rot_polar (c p : V2) (θ : ℝ) :
    rot c θ p = ⟨c.x + distance p c * Real.cos (angle c p + θ),
      c.y + distance p c * Real.sin (angle c p + θ)⟩ := by
  have hx := congrArg V2.x (polar c p)
  have hy := congrArg V2.y (polar c p)
  simp only at hx hy
  ext
  · simp only [rot, Real.cos_add]
    linear_combination Real.cos θ * hx - Real.sin θ * hy
  · simp only [rot, Real.sin_add]
    linear_combination Real.sin θ * hx + Real.cos θ * hy

/-- two representations of an angle -/
theorem angle_eq_mod {a b : ℝ} (hc : Real.cos a = Real.cos b) (hs : Real.sin a = Real.sin b) :
    ∃ k : ℤ, a = b + k * tau := by
  have h : (a : Real.Angle) = b := Real.Angle.cos_sin_inj hc hs
  rw [Real.Angle.angle_eq_iff_two_pi_dvd_sub] at h
  obtain ⟨k, hk⟩ := h
  exact ⟨k, by unfold tau; linarith⟩

theorem angle_rot {c p : V2} (h : p ≠ c) (θ : ℝ) :
    ∃ k : ℤ, angle c (rot c θ p) = angle c p + θ + k * tau := by
  have hd : distance p c ≠ 0 := (Real.sqrt_pos.mpr (dist2_pos h)).ne'
  have hd2 : distance (rot c θ p) c = distance p c := by
    unfold distance; rw [dist2_rot]
  have h1 := polar c (rot c θ p)
  rw [hd2] at h1
  have h2 := rot_polar c p θ
  have hx := congrArg V2.x (h1.symm.trans h2)
  have hy := congrArg V2.y (h1.symm.trans h2)
  simp only at hx hy
  apply angle_eq_mod
  · exact mul_left_cancel₀ hd (by linarith)
  · exact mul_left_cancel₀ hd (by linarith)

theorem deltaAngle_rot {c p : V2} (h : p ≠ c) {α β : ℝ} (h1 : -Real.pi < β - α)
    (h2 : β - α ≤ Real.pi) :
    deltaAngle (angle c (rot c α p)) (angle c (rot c β p)) = β - α := by
  obtain ⟨k, hk⟩ := angle_rot h α
  obtain ⟨k', hk'⟩ := angle_rot h β
  exact deltaAngle_eq h1 h2 ⟨k' - k, by rw [hk, hk']; push_cast; ring⟩

theorem abs_sweep_le {v : Vertex} (h : |v.bulge| ≤ 1) : |sweep v| ≤ Real.pi := by
  rw [abs_le] at h ⊢
  have h1 : Real.arctan v.bulge ≤ Real.arctan 1 := Real.arctan_mono h.2
  have h2 : Real.arctan (-1) ≤ Real.arctan v.bulge := Real.arctan_mono h.1
  rw [Real.arctan_neg] at h2
  rw [Real.arctan_one] at h1 h2
  unfold sweep
  constructor <;> linarith

theorem sweep_pos {v : Vertex} (h : 0 < v.bulge) : 0 < sweep v := by
  have := Real.arctan_pos.mpr h
  unfold sweep; linarith

theorem sweep_neg {v : Vertex} (h : v.bulge < 0) : sweep v < 0 := by
  have := Real.arctan_lt_zero.mpr h
  unfold sweep; linarith

end Cavc
