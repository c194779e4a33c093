import Verif.Proofs.Turning

/-! From the turn of a segment about a point to the rules that count crossings. -/
namespace Cavc
open Spec
open scoped Classical

/-- Polar angle in `(0, 2π]`. -/
noncomputable def polarAngle (z : ℂ) : ℝ := if z.arg ≤ 0 then z.arg + 2 * Real.pi else z.arg

theorem exp_polarAngle (z : ℂ) : (‖z‖ : ℂ) * Complex.exp (polarAngle z * Complex.I) = z := by
  conv_rhs => rw [← Complex.norm_mul_exp_arg_mul_I z]
  congr 1
  unfold polarAngle
  split_ifs
  · push_cast
    rw [add_mul, Complex.exp_add, Complex.exp_two_pi_mul_I, mul_one]
  · rfl

theorem re_polarAngle (z : ℂ) : z.re = ‖z‖ * Real.cos (polarAngle z) := by
  have := congrArg Complex.re (exp_polarAngle z)
  rw [Complex.re_ofReal_mul, Complex.exp_ofReal_mul_I_re] at this
  exact this.symm

theorem im_polarAngle (z : ℂ) : z.im = ‖z‖ * Real.sin (polarAngle z) := by
  have := congrArg Complex.im (exp_polarAngle z)
  rw [Complex.im_ofReal_mul, Complex.exp_ofReal_mul_I_im] at this
  exact this.symm

theorem polarAngle_upper {z : ℂ} (h : 0 < z.im) : 0 < polarAngle z ∧ polarAngle z < Real.pi := by
  have h1 : 0 < z.arg := by
    rcases lt_or_eq_of_le (Complex.arg_nonneg_iff.2 h.le) with h1 | h1
    · exact h1
    · rw [eq_comm, Complex.arg_eq_zero_iff] at h1; linarith [h1.2]
  have h2 : z.arg < Real.pi := by
    refine lt_of_le_of_ne (Complex.arg_le_pi z) ?_
    intro h2; rw [Complex.arg_eq_pi_iff] at h2; linarith [h2.2]
  unfold polarAngle
  rw [if_neg (not_le.mpr h1)]
  exact ⟨h1, h2⟩

theorem polarAngle_lower {z : ℂ} (h : z.im ≤ 0) :
    Real.pi ≤ polarAngle z ∧ polarAngle z ≤ 2 * Real.pi := by
  have hp := Real.pi_pos
  unfold polarAngle
  split_ifs with h1
  · constructor <;> linarith [Complex.neg_pi_lt_arg z]
  · push Not at h1
    have : z.arg = Real.pi := by
      by_contra hne
      have hlt : z.arg < Real.pi := lt_of_le_of_ne (Complex.arg_le_pi z) hne
      have him := Complex.norm_mul_sin_arg z
      have hs := Real.sin_pos_of_pos_of_lt_pi h1 hlt
      have hn : 0 < ‖z‖ := by
        rw [norm_pos_iff]; rintro rfl; simp at h1
      nlinarith [mul_pos hn hs]
    rw [this]; constructor <;> linarith

/-- the cross product as a sine -/
theorem cross_polar (z w : ℂ) : z.re * w.im - z.im * w.re =
    ‖z‖ * ‖w‖ * Real.sin (polarAngle w - polarAngle z) := by
  rw [re_polarAngle z, re_polarAngle w, im_polarAngle z, im_polarAngle w, Real.sin_sub]
  ring

theorem turnsTo_polar {z w : ℂ} {θ : ℝ} (hz : z ≠ 0) (hw : w ≠ 0) (h : TurnsTo z w θ) :
    ∃ k : ℤ, θ = polarAngle w - polarAngle z + 2 * Real.pi * k := by
  have hzn : (‖z‖ : ℂ) ≠ 0 := by simpa using hz
  have hwn : (‖w‖ : ℂ) ≠ 0 := by simpa using hw
  unfold TurnsTo at h
  have e1 := exp_polarAngle z
  have e2 := exp_polarAngle w
  have h' : Complex.exp (polarAngle w * Complex.I) =
      Complex.exp ((polarAngle z + θ : ℝ) * Complex.I) := by
    push_cast
    rw [add_mul, Complex.exp_add]
    apply mul_left_cancel₀ (mul_ne_zero hzn hwn)
    generalize Complex.exp (polarAngle w * Complex.I) = A at *
    generalize Complex.exp (polarAngle z * Complex.I) = B at *
    linear_combination h - (‖w‖ : ℂ) * Complex.exp (θ * Complex.I) * e1 + (‖z‖ : ℂ) * e2
  rw [Complex.exp_eq_exp_iff_exists_int] at h'
  obtain ⟨n, hn⟩ := h'
  refine ⟨-n, ?_⟩
  have := congrArg Complex.im hn
  simp at this
  push_cast
  linarith

theorem int_of_bounds {k : ℤ} {lo hi : ℤ} {x : ℝ} (hx : x = 2 * Real.pi * k)
    (h1 : 2 * Real.pi * (lo - 1 : ℤ) < x) (h2 : x < 2 * Real.pi * (hi + 1 : ℤ)) : lo ≤ k ∧ k ≤ hi := by
  have hp : (0 : ℝ) < 2 * Real.pi := by positivity
  rw [hx] at h1 h2
  have a := lt_of_mul_lt_mul_left h1 hp.le
  have b := lt_of_mul_lt_mul_left h2 hp.le
  have a' : lo - 1 < k := by exact_mod_cast a
  have b' : k < hi + 1 := by exact_mod_cast b
  omega

/-- the rule of the code for lines -/
noncomputable def lineRule (z w : ℂ) : ℤ :=
  if z.im ≤ 0 then
    if 0 < w.im ∧ 0 < z.re * w.im - z.im * w.re then 1 else 0
  else if w.im ≤ 0 ∧ ¬ 0 < z.re * w.im - z.im * w.re then -1 else 0

theorem line_rule {z w : ℂ} {θ : ℝ} (hz : z ≠ 0) (hw : w ≠ 0) (h : TurnsTo z w θ)
    (h1 : -Real.pi < θ) (h2 : θ < Real.pi) :
    θ = polarAngle w - polarAngle z + 2 * Real.pi * (lineRule z w) := by
  obtain ⟨k, hk⟩ := turnsTo_polar hz hw h
  have hp := Real.pi_pos
  have hX := cross_polar z w
  have hsin : Real.sin (polarAngle w - polarAngle z) = Real.sin θ := by
    rw [hk]
    rw [show polarAngle w - polarAngle z + 2 * Real.pi * k = polarAngle w - polarAngle z + k * (2 * Real.pi)
      by ring, Real.sin_add_int_mul_two_pi]
  rw [hsin] at hX
  have hn : 0 < ‖z‖ * ‖w‖ := mul_pos (norm_pos_iff.2 hz) (norm_pos_iff.2 hw)
  have hpos : 0 < θ → 0 < z.re * w.im - z.im * w.re := fun h => by
    rw [hX]; exact mul_pos hn (Real.sin_pos_of_pos_of_lt_pi h h2)
  have hneg : θ < 0 → ¬ 0 < z.re * w.im - z.im * w.re := fun h => by
    rw [hX]
    have := Real.sin_neg_of_neg_of_neg_pi_lt h h1
    nlinarith
  rw [hk]
  suffices hkk : k = lineRule z w by rw [hkk]
  unfold lineRule
  by_cases ha : z.im ≤ 0
  · obtain ⟨a1, a2⟩ := polarAngle_lower ha
    by_cases hb : w.im ≤ 0
    · obtain ⟨b1, b2⟩ := polarAngle_lower hb
      rw [if_pos ha, if_neg (by push Not; intro h; linarith)]
      obtain ⟨c1, c2⟩ := int_of_bounds (k := k) (lo := 0) (hi := 0) (x := θ - (polarAngle w - polarAngle z))
        (by rw [hk]; ring) (by push_cast; linarith) (by push_cast; linarith)
      omega
    · push Not at hb
      obtain ⟨b1, b2⟩ := polarAngle_upper hb
      obtain ⟨c1, c2⟩ := int_of_bounds (k := k) (lo := 0) (hi := 1) (x := θ - (polarAngle w - polarAngle z))
        (by rw [hk]; ring) (by push_cast; linarith) (by push_cast; linarith)
      rw [if_pos ha]
      have : k = 0 ∨ k = 1 := by omega
      rcases this with rfl | rfl
      · rw [if_neg]
        rintro ⟨-, h⟩
        refine hneg ?_ h
        rw [hk]; push_cast; linarith
      · rw [if_pos ⟨hb, hpos (by rw [hk]; push_cast; linarith)⟩]
  · rw [if_neg ha]
    push Not at ha
    obtain ⟨a1, a2⟩ := polarAngle_upper ha
    by_cases hb : w.im ≤ 0
    · obtain ⟨b1, b2⟩ := polarAngle_lower hb
      obtain ⟨c1, c2⟩ := int_of_bounds (k := k) (lo := -1) (hi := 0) (x := θ - (polarAngle w - polarAngle z))
        (by rw [hk]; ring) (by push_cast; linarith) (by push_cast; linarith)
      have : k = 0 ∨ k = -1 := by omega
      rcases this with rfl | rfl
      · rw [if_neg]
        rintro ⟨-, h⟩
        refine h (hpos ?_)
        rw [hk]; push_cast; linarith
      · rw [if_pos ⟨hb, hneg (by rw [hk]; push_cast; linarith)⟩]
    · rw [if_neg (fun h => hb h.1)]
      push Not at hb
      obtain ⟨b1, b2⟩ := polarAngle_upper hb
      obtain ⟨c1, c2⟩ := int_of_bounds (k := k) (lo := 0) (hi := 0) (x := θ - (polarAngle w - polarAngle z))
        (by rw [hk]; ring) (by push_cast; linarith) (by push_cast; linarith)
      omega

/-- positive turn below a full turn -/
theorem ccw_rule {z w : ℂ} {θ : ℝ} (hz : z ≠ 0) (hw : w ≠ 0) (h : TurnsTo z w θ)
    (h1 : 0 < θ) (h2 : θ < 2 * Real.pi) :
    θ = polarAngle w - polarAngle z + 2 * Real.pi *
      ((if polarAngle w < polarAngle z then 1 else 0 : ℤ) : ℝ) ∧ polarAngle w ≠ polarAngle z := by
  obtain ⟨k, hk⟩ := turnsTo_polar hz hw h
  have hp := Real.pi_pos
  have bd : ∀ z : ℂ, 0 < polarAngle z ∧ polarAngle z ≤ 2 * Real.pi := by
    intro z
    rcases le_or_gt z.im 0 with h | h
    · have := polarAngle_lower h; constructor <;> linarith [this.1, this.2]
    · have := polarAngle_upper h; constructor <;> linarith [this.1, this.2]
  obtain ⟨c1, c2⟩ := int_of_bounds (k := k) (lo := 0) (hi := 1) (x := θ - (polarAngle w - polarAngle z))
    (by rw [hk]; ring) (by push_cast; linarith [(bd z).1, (bd w).1, (bd z).2, (bd w).2])
    (by push_cast; linarith [(bd z).1, (bd w).1, (bd z).2, (bd w).2])
  have : k = 0 ∨ k = 1 := by omega
  rcases this with rfl | rfl
  · push_cast at hk
    have hlt : polarAngle z < polarAngle w := by linarith
    rw [if_neg (not_lt.2 hlt.le)]
    exact ⟨by push_cast; exact hk, hlt.ne'⟩
  · push_cast at hk
    have hlt : polarAngle w < polarAngle z := by linarith
    rw [if_pos hlt]
    exact ⟨by push_cast; exact hk, hlt.ne⟩

/-- negative turn below a full turn -/
theorem cw_rule {z w : ℂ} {θ : ℝ} (hz : z ≠ 0) (hw : w ≠ 0) (h : TurnsTo z w θ)
    (h1 : -(2 * Real.pi) < θ) (h2 : θ < 0) :
    θ = polarAngle w - polarAngle z + 2 * Real.pi *
      ((if polarAngle z < polarAngle w then -1 else 0 : ℤ) : ℝ) ∧ polarAngle w ≠ polarAngle z := by
  obtain ⟨k, hk⟩ := turnsTo_polar hz hw h
  have hp := Real.pi_pos
  have bd : ∀ z : ℂ, 0 < polarAngle z ∧ polarAngle z ≤ 2 * Real.pi := by
    intro z
    rcases le_or_gt z.im 0 with h | h
    · have := polarAngle_lower h; constructor <;> linarith [this.1, this.2]
    · have := polarAngle_upper h; constructor <;> linarith [this.1, this.2]
  obtain ⟨c1, c2⟩ := int_of_bounds (k := k) (lo := -1) (hi := 0) (x := θ - (polarAngle w - polarAngle z))
    (by rw [hk]; ring) (by push_cast; linarith [(bd z).1, (bd w).1, (bd z).2, (bd w).2])
    (by push_cast; linarith [(bd z).1, (bd w).1, (bd z).2, (bd w).2])
  have : k = 0 ∨ k = -1 := by omega
  rcases this with rfl | rfl
  · push_cast at hk
    have hlt : polarAngle w < polarAngle z := by linarith
    rw [if_neg (not_lt.2 hlt.le)]
    exact ⟨by push_cast; exact hk, hlt.ne⟩
  · push_cast at hk
    have hlt : polarAngle z < polarAngle w := by linarith
    rw [if_pos hlt]
    exact ⟨by push_cast; exact hk, hlt.ne'⟩

/-- comparing polar angles of points of the same half plane -/
theorem polar_cmp_upper {z w : ℂ} (hz : 0 < z.im) (hw : 0 < w.im) :
    (polarAngle w < polarAngle z ↔ z.re * w.im - z.im * w.re < 0) ∧
    (polarAngle z < polarAngle w ↔ 0 < z.re * w.im - z.im * w.re) := by
  have a := polarAngle_upper hz
  have b := polarAngle_upper hw
  have hX := cross_polar z w
  have hz' : z ≠ 0 := by rintro rfl; simp at hz
  have hw' : w ≠ 0 := by rintro rfl; simp at hw
  have hn : 0 < ‖z‖ * ‖w‖ := mul_pos (norm_pos_iff.2 hz') (norm_pos_iff.2 hw')
  rcases lt_trichotomy (polarAngle w) (polarAngle z) with h | h | h
  · have := Real.sin_neg_of_neg_of_neg_pi_lt (x := polarAngle w - polarAngle z) (by linarith) (by linarith [b.1, a.2])
    have : z.re * w.im - z.im * w.re < 0 := by rw [hX]; nlinarith
    exact ⟨⟨fun _ => this, fun _ => h⟩, ⟨fun h' => by linarith, fun h' => by linarith⟩⟩
  · have : z.re * w.im - z.im * w.re = 0 := by rw [hX, h]; simp
    exact ⟨⟨fun _ => by linarith, fun _ => by linarith⟩, ⟨fun h' => by linarith, fun h' => by linarith⟩⟩
  · have := Real.sin_pos_of_pos_of_lt_pi (x := polarAngle w - polarAngle z) (by linarith) (by linarith [b.2, a.1])
    have : 0 < z.re * w.im - z.im * w.re := by rw [hX]; exact mul_pos hn this
    exact ⟨⟨fun _ => by linarith, fun _ => by linarith⟩, ⟨fun h' => this, fun h' => h⟩⟩

theorem polar_cmp_lower {z w : ℂ} (hz : z.im ≤ 0) (hw : w.im ≤ 0) (hz' : z ≠ 0) (hw' : w ≠ 0)
    (hne : polarAngle w ≠ polarAngle z) :
    (polarAngle w < polarAngle z ↔ z.re * w.im - z.im * w.re < 0 ∨
      (z.re * w.im - z.im * w.re = 0 ∧ w.re < 0 ∧ 0 < z.re)) ∧
    (polarAngle z < polarAngle w ↔ 0 < z.re * w.im - z.im * w.re ∨
      (z.re * w.im - z.im * w.re = 0 ∧ z.re < 0 ∧ 0 < w.re)) := by
  have hp := Real.pi_pos
  have a := polarAngle_lower hz
  have b := polarAngle_lower hw
  have hX := cross_polar z w
  have nz := norm_pos_iff.2 hz'
  have nw := norm_pos_iff.2 hw'
  have hn : 0 < ‖z‖ * ‖w‖ := mul_pos nz nw
  have hre : ∀ z : ℂ, z ≠ 0 → polarAngle z = Real.pi → z.re < 0 := by
    intro z hz h
    have := re_polarAngle z
    rw [h, Real.cos_pi] at this
    linarith [norm_pos_iff.2 hz]
  have hre2 : ∀ z : ℂ, z ≠ 0 → polarAngle z = 2 * Real.pi → 0 < z.re := by
    intro z hz h
    have := re_polarAngle z
    rw [h, Real.cos_two_pi] at this
    linarith [norm_pos_iff.2 hz]
  rcases lt_or_gt_of_ne hne with h | h
  · rcases lt_or_eq_of_le (show -Real.pi ≤ polarAngle w - polarAngle z by linarith [a.2, b.1]) with h1 | h1
    · have := Real.sin_neg_of_neg_of_neg_pi_lt (x := polarAngle w - polarAngle z) (by linarith) h1
      have : z.re * w.im - z.im * w.re < 0 := by rw [hX]; nlinarith
      refine ⟨⟨fun _ => Or.inl this, fun _ => h⟩, ⟨fun h' => by linarith, ?_⟩⟩
      rintro (h' | ⟨h', -⟩) <;> linarith
    · have e : z.re * w.im - z.im * w.re = 0 := by rw [hX, ← h1]; simp
      have r1 := hre w hw' (by linarith [a.2, b.1])
      have r2 := hre2 z hz' (by linarith [a.2, b.1])
      refine ⟨⟨fun _ => Or.inr ⟨e, r1, r2⟩, fun _ => h⟩, ⟨fun h' => by linarith, ?_⟩⟩
      rintro (h' | ⟨h', h'', -⟩) <;> linarith
  · rcases lt_or_eq_of_le (show polarAngle w - polarAngle z ≤ Real.pi by linarith [b.2, a.1]) with h1 | h1
    · have := Real.sin_pos_of_pos_of_lt_pi (x := polarAngle w - polarAngle z) (by linarith) h1
      have : 0 < z.re * w.im - z.im * w.re := by rw [hX]; exact mul_pos hn this
      refine ⟨⟨fun h' => by linarith, ?_⟩, ⟨fun _ => Or.inl this, fun _ => h⟩⟩
      rintro (h' | ⟨h', -⟩) <;> linarith
    · have e : z.re * w.im - z.im * w.re = 0 := by rw [hX, h1]; simp
      have r1 := hre z hz' (by linarith [a.1, b.2])
      have r2 := hre2 w hw' (by linarith [a.1, b.2])
      refine ⟨⟨fun h' => by linarith, ?_⟩, ⟨fun _ => Or.inr ⟨e, r1, r2⟩, fun _ => h⟩⟩
      rintro (h' | ⟨h', h'', -⟩) <;> linarith

end Cavc
