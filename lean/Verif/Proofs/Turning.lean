import Verif.Proofs.ArcSector
import Verif.Proofs.Curve
import Mathlib.Analysis.SpecialFunctions.Complex.LogDeriv
import Mathlib.Analysis.SpecialFunctions.ExpDeriv

/-! How far a curve turns about a point, for lines and arcs. -/
namespace Cavc
open Spec
open scoped Classical

/-- the curve seen from `p` -/
noncomputable def seen (p : V2) (γ : ℝ → V2) (t : ℝ) : ℂ := ⟨(γ t).x - p.x, (γ t).y - p.y⟩

theorem velocity_seen {p : V2} {γ : ℝ → V2} {t : ℝ} {w : ℂ} (h : HasDerivAt (seen p γ) w t) :
    velocity γ t = ⟨w.re, w.im⟩ := by
  have h1 : HasDerivAt (fun s => (seen p γ s).re) w.re t :=
    (Complex.reCLM.hasFDerivAt.comp_hasDerivAt t h)
  have h2 : HasDerivAt (fun s => (seen p γ s).im) w.im t :=
    (Complex.imCLM.hasFDerivAt.comp_hasDerivAt t h)
  have e1 : HasDerivAt (fun s => (γ s).x) w.re t := by
    have := h1.add_const p.x
    simpa [seen] using this
  have e2 : HasDerivAt (fun s => (γ s).y) w.im t := by
    have := h2.add_const p.y
    simpa [seen] using this
  ext
  · exact e1.deriv
  · exact e2.deriv

theorem im_div_seen (p q : V2) (w : ℂ) : (w / (⟨q.x - p.x, q.y - p.y⟩ : ℂ)).im =
    ((q.x - p.x) * w.im - (q.y - p.y) * w.re) / dist2 q p := by
  rw [Complex.div_im]
  simp only [Complex.normSq_apply, dist2]
  ring

/-- If the curve is `κ exp(i ω t) u(t)` with `u` in the slit plane, it turns by
`ω + arg u(1) - arg u(0)`. -/
theorem turning_eq {p : V2} {γ : ℝ → V2} {κ : ℂ} {ω : ℝ} {u u' : ℝ → ℂ}
    (hκ : κ ≠ 0) (hz : ∀ t, seen p γ t = κ * Complex.exp (t * ω * Complex.I) * u t)
    (hu : ∀ t ∈ Set.Icc (0 : ℝ) 1, u t ∈ Complex.slitPlane)
    (hd : ∀ t, HasDerivAt u (u' t) t) (hc : Continuous u') :
    turning p γ = ω + (u 1).arg - (u 0).arg ∧
    (seen p γ 1) * ‖seen p γ 0‖ = (seen p γ 0) * ‖seen p γ 1‖ * Complex.exp (turning p γ * Complex.I) := by
  have hcu : Continuous u := continuous_iff_continuousAt.mpr fun t => (hd t).continuousAt
  have hI : (Set.uIcc (0 : ℝ) 1) = Set.Icc 0 1 := Set.uIcc_of_le zero_le_one
  have hlog : ∀ t ∈ Set.uIcc (0 : ℝ) 1, HasDerivAt (fun s => s * ω + (Complex.log (u s)).im)
      (ω + (u' t / u t).im) t := by
    intro t ht
    rw [hI] at ht
    have h1 := (hd t).clog_real (hu t ht)
    have h2 : HasDerivAt (fun s => (Complex.log (u s)).im) (u' t / u t).im t :=
      Complex.imCLM.hasFDerivAt.comp_hasDerivAt t h1
    have h3 : HasDerivAt (fun s : ℝ => s * ω) ω t := by
      simpa using (hasDerivAt_id t).mul_const ω
    exact h3.add h2
  have hder : ∀ t : ℝ, HasDerivAt (seen p γ) (κ * Complex.exp (t * ω * Complex.I) *
      (u' t + ω * Complex.I * u t)) t := by
    intro t
    have h0 : HasDerivAt (fun s : ℝ => ((s : ℂ) * ω * Complex.I)) (ω * Complex.I) t := by
      have := ((Complex.ofRealCLM.hasDerivAt (x := t)).mul_const ((ω : ℂ) * Complex.I))
      simp only [Complex.ofRealCLM_apply] at this
      refine (this.congr_deriv (by simp)).congr_of_eventuallyEq ?_
      filter_upwards with s
      ring
    have h1 := (h0.cexp.const_mul κ).mul (hd t)
    have : seen p γ = fun t : ℝ => κ * Complex.exp (t * ω * Complex.I) * u t := funext hz
    rw [this]
    refine h1.congr_deriv ?_
    ring
  have hint : ∀ t ∈ Set.uIcc (0 : ℝ) 1, (((γ t).x - p.x) * (velocity γ t).y - ((γ t).y - p.y) *
      (velocity γ t).x) / dist2 (γ t) p = ω + (u' t / u t).im := by
    intro t ht
    rw [hI] at ht
    rw [velocity_seen (hder t)]
    have hne : u t ≠ 0 := Complex.slitPlane_ne_zero (hu t ht)
    have he : Complex.exp (t * ω * Complex.I) ≠ 0 := Complex.exp_ne_zero _
    rw [← im_div_seen p (γ t)]
    have : (κ * Complex.exp (t * ω * Complex.I) * (u' t + ω * Complex.I * u t)) /
        (⟨(γ t).x - p.x, (γ t).y - p.y⟩ : ℂ) = u' t / u t + ω * Complex.I := by
      have hz' := hz t
      unfold seen at hz'
      rw [hz']
      field_simp
    rw [this]
    simp [add_comm]
  have hT : turning p γ = ω + (u 1).arg - (u 0).arg := by
    unfold turning
    rw [intervalIntegral.integral_congr hint]
    rw [intervalIntegral.integral_eq_sub_of_hasDerivAt hlog]
    · simp [Complex.log_im]
    · apply ContinuousOn.intervalIntegrable
      have : ContinuousOn (fun t => u' t / u t) (Set.uIcc 0 1) := by
        refine hc.continuousOn.div hcu.continuousOn ?_
        intro t ht
        rw [hI] at ht
        exact Complex.slitPlane_ne_zero (hu t ht)
      exact continuousOn_const.add (Complex.continuous_im.comp_continuousOn this)
  refine ⟨hT, ?_⟩
  have h0 := hu 0 (by simp)
  have h1 := hu 1 (by simp)
  have n0 : seen p γ 0 = κ * u 0 := by rw [hz]; simp
  have n1 : seen p γ 1 = κ * Complex.exp (ω * Complex.I) * u 1 := by rw [hz]; simp
  have p0 := Complex.norm_mul_exp_arg_mul_I (u 0)
  have p1 := Complex.norm_mul_exp_arg_mul_I (u 1)
  have hne0 : (‖u 0‖ : ℂ) ≠ 0 := by simpa using Complex.slitPlane_ne_zero h0
  rw [hT]
  have eN1 : ‖seen p γ 1‖ = ‖κ‖ * ‖u 1‖ := by
    rw [n1, norm_mul, norm_mul, Complex.norm_exp_ofReal_mul_I, mul_one]
  have eN0 : ‖seen p γ 0‖ = ‖κ‖ * ‖u 0‖ := by
    rw [n0, norm_mul]
  rw [eN0, eN1, n0, n1]
  have ee : Complex.exp ((ω + (u 1).arg - (u 0).arg : ℝ) * Complex.I) * Complex.exp ((u 0).arg * Complex.I)
      = Complex.exp (ω * Complex.I) * Complex.exp ((u 1).arg * Complex.I) := by
    rw [← Complex.exp_add, ← Complex.exp_add]
    congr 1
    push_cast; ring
  have : κ * Complex.exp (ω * Complex.I) * u 1 * ((‖κ‖ * ‖u 0‖ : ℝ) : ℂ) =
      κ * (‖u 0‖ * (Complex.exp (ω * Complex.I) * Complex.exp ((u 1).arg * Complex.I))) * ((‖κ‖ * ‖u 1‖ : ℝ) : ℂ) := by
    conv_lhs => rw [← p1]
    push_cast; ring
  rw [this, ← ee]
  generalize Complex.exp ((ω + (u 1).arg - (u 0).arg : ℝ) * Complex.I) = E
  generalize Complex.exp ((u 0).arg * Complex.I) = A at p0 ⊢
  push_cast
  linear_combination κ * ‖κ‖ * ‖u 1‖ * E * p0

/-- `z1` is seen from the origin in the direction of `z0` turned by `I`. -/
def TurnsTo (z0 z1 : ℂ) (θ : ℝ) : Prop := z1 * ‖z0‖ = z0 * ‖z1‖ * Complex.exp (θ * Complex.I)

theorem re_pos_slit {w : ℂ} (h : ‖w‖ ≤ 1) (hne : w ≠ 1) : 0 < (1 - w).re := by
  have h1 : w.re ≤ 1 := (Complex.re_le_norm w).trans h
  rcases lt_or_eq_of_le h1 with h2 | h2
  · simp; exact h2
  · exfalso
    apply hne
    have h3 : w.re ^ 2 + w.im ^ 2 ≤ 1 := by
      have := Complex.sq_norm w
      rw [Complex.normSq_apply] at this
      nlinarith [norm_nonneg w]
    have h4 : w.im = 0 := by nlinarith
    apply Complex.ext <;> simp [h2, h4]

theorem seen_eq_zero {p : V2} {γ : ℝ → V2} {t : ℝ} : seen p γ t = 0 ↔ γ t = p := by
  unfold seen
  rw [Complex.ext_iff]
  constructor
  · rintro ⟨h1, h2⟩
    ext
    · simpa [sub_eq_zero] using h1
    · simpa [sub_eq_zero] using h2
  · rintro h; simp [h]

theorem turning_line {p a b : V2} (h : ∀ t : ℝ, 0 ≤ t → t ≤ 1 → lerp a b t ≠ p) :
    -Real.pi < turning p (fun t => lerp a b t) ∧ turning p (fun t => lerp a b t) < Real.pi ∧
    TurnsTo (seen p (fun t => lerp a b t) 0) (seen p (fun t => lerp a b t) 1)
      (turning p (fun t => lerp a b t)) := by
  set γ : ℝ → V2 := fun t => lerp a b t with hγ
  set z0 := seen p γ 0 with hz0
  have hz0ne : z0 ≠ 0 := fun h0 => h 0 le_rfl zero_le_one (seen_eq_zero.mp h0)
  set w := seen p γ 1 / z0 with hw
  have hlin : ∀ t : ℝ, seen p γ t = z0 * (1 + t * (w - 1)) := by
    intro t
    have h1 : z0 * w = seen p γ 1 := by rw [hw]; field_simp
    have : z0 * (1 + t * (w - 1)) = z0 + t * (seen p γ 1 - z0) := by rw [← h1]; ring
    rw [this]
    apply Complex.ext
    · simp [seen, hz0, hγ, lerp]; ring
    · simp [seen, hz0, hγ, lerp]; ring
  have hslit : ∀ t ∈ Set.Icc (0 : ℝ) 1, (1 + (t : ℂ) * (w - 1)) ∈ Complex.slitPlane := by
    intro t ht
    rw [Complex.mem_slitPlane_iff_not_le_zero]
    intro hle
    obtain ⟨hre, him⟩ := Complex.le_def.1 hle
    simp only [Complex.zero_re, Complex.zero_im] at hre him
    set ρ := -(1 + (t : ℂ) * (w - 1)).re with hρ
    have hρ0 : 0 ≤ ρ := by rw [hρ]; linarith
    have hval : (t : ℂ) * (w - 1) = -(1 + ρ) := by
      have : (1 + (t : ℂ) * (w - 1)) = ((-ρ : ℝ) : ℂ) := by
        apply Complex.ext
        · simp [hρ]
        · rw [Complex.ofReal_im]; exact him
      push_cast at this
      linear_combination this
    have h1ρ : (0 : ℝ) < 1 + ρ := by linarith
    refine h (t / (1 + ρ)) (div_nonneg ht.1 h1ρ.le) ?_ ?_
    · rw [div_le_one h1ρ]; linarith [ht.2]
    · refine (seen_eq_zero (p := p) (γ := γ)).mp ?_
      rw [hlin]
      have h2 : ((1 + ρ : ℝ) : ℂ) ≠ 0 := by exact_mod_cast h1ρ.ne'
      push_cast at h2 ⊢
      have : (1 : ℂ) + t / (1 + ρ) * (w - 1) = 1 + (t * (w - 1)) / (1 + ρ) := by ring
      rw [this, hval]
      field_simp
      ring
  obtain ⟨h1, h2⟩ := turning_eq (p := p) (γ := γ) (κ := z0) (ω := 0)
    (u := fun t : ℝ => 1 + (t : ℂ) * (w - 1)) (u' := fun _ => w - 1) hz0ne
    (fun t => by rw [hlin t]; simp) hslit
    (fun t => by
      have := ((Complex.ofRealCLM.hasDerivAt (x := t)).mul_const (w - 1)).const_add (1 : ℂ)
      simpa using this)
    continuous_const
  have h3 : turning p γ = (1 + ((1 : ℝ) : ℂ) * (w - 1)).arg := by
    rw [h1]; simp
  refine ⟨?_, ?_, h2⟩
  · rw [h3]; exact Complex.neg_pi_lt_arg _
  · rw [h3]
    refine lt_of_le_of_ne (Complex.arg_le_pi _) ?_
    exact (Complex.mem_slitPlane_iff_arg.1 (hslit 1 (by simp))).1

theorem seen_rot (p c s : V2) (ω t : ℝ) : seen p (fun t => rot c (t * ω) s) t =
    (⟨s.x - c.x, s.y - c.y⟩ : ℂ) * Complex.exp (t * ω * Complex.I) - (⟨p.x - c.x, p.y - c.y⟩ : ℂ) := by
  have : Complex.exp (t * ω * Complex.I) = ⟨Real.cos (t * ω), Real.sin (t * ω)⟩ := by
    rw [show (t : ℂ) * ω = ((t * ω : ℝ) : ℂ) by push_cast; ring, Complex.exp_mul_I, ← Complex.ofReal_cos, ← Complex.ofReal_sin]
    apply Complex.ext <;> simp [-Complex.ofReal_cos, -Complex.ofReal_sin]
  rw [this]
  apply Complex.ext
  · simp [seen, rot]; ring
  · simp [seen, rot]; ring

theorem norm_sq_mk (x y : ℝ) : ‖(⟨x, y⟩ : ℂ)‖ ^ 2 = x ^ 2 + y ^ 2 := by
  rw [Complex.sq_norm, Complex.normSq_apply]; ring

/-- from outside of the circle -/
theorem turning_rot_outside {p c s : V2} {ω : ℝ} (h : dist2 s c < dist2 p c) :
    -Real.pi < turning p (fun t => rot c (t * ω) s) ∧
    turning p (fun t => rot c (t * ω) s) < Real.pi ∧
    TurnsTo (seen p (fun t => rot c (t * ω) s) 0) (seen p (fun t => rot c (t * ω) s) 1)
      (turning p (fun t => rot c (t * ω) s)) := by
  set a : ℂ := ⟨s.x - c.x, s.y - c.y⟩ with ha
  set d : ℂ := ⟨p.x - c.x, p.y - c.y⟩ with hd
  have hnorm : ‖a‖ < ‖d‖ := by
    apply lt_of_pow_lt_pow_left₀ 2 (norm_nonneg _)
    rw [norm_sq_mk, norm_sq_mk]
    simpa [dist2] using h
  have hdne : d ≠ 0 := by
    intro h0; rw [h0, norm_zero] at hnorm; linarith [norm_nonneg a]
  have hdn : 0 < ‖d‖ := norm_pos_iff.mpr hdne
  have hu : ∀ t : ℝ, 0 < (1 - a / d * Complex.exp (t * ω * Complex.I)).re := by
    intro t
    have hn : ‖a / d * Complex.exp (t * ω * Complex.I)‖ < 1 := by
      rw [norm_mul, norm_div, show (t : ℂ) * ω = ((t * ω : ℝ) : ℂ) by push_cast; ring,
        Complex.norm_exp_ofReal_mul_I, mul_one, div_lt_one hdn]
      exact hnorm
    refine re_pos_slit hn.le ?_
    rintro he; rw [he, norm_one] at hn; exact lt_irrefl _ hn
  have hexp : ∀ t : ℝ, HasDerivAt (fun t : ℝ => 1 - a / d * Complex.exp (t * ω * Complex.I))
      (-(a / d * (Complex.exp (t * ω * Complex.I) * (ω * Complex.I)))) t := by
    intro t
    have h0 : HasDerivAt (fun s : ℝ => ((s : ℂ) * ω * Complex.I)) (ω * Complex.I) t := by
      have := ((Complex.ofRealCLM.hasDerivAt (x := t)).mul_const ((ω : ℂ) * Complex.I))
      simp only [Complex.ofRealCLM_apply] at this
      refine (this.congr_deriv (by simp)).congr_of_eventuallyEq ?_
      filter_upwards with s
      ring
    exact (h0.cexp.const_mul (a / d)).const_sub 1
  obtain ⟨h1, h2⟩ := turning_eq (p := p) (γ := fun t => rot c (t * ω) s) (κ := -d) (ω := 0)
    (u := fun t : ℝ => 1 - a / d * Complex.exp (t * ω * Complex.I))
    (u' := fun t : ℝ => -(a / d * (Complex.exp (t * ω * Complex.I) * (ω * Complex.I))))
    (neg_ne_zero.mpr hdne)
    (fun t => by
      rw [seen_rot]
      simp only [Complex.ofReal_zero, mul_zero, zero_mul, Complex.exp_zero, mul_one]
      rw [← ha, ← hd]
      field_simp
      ring)
    (fun t _ => Or.inl (hu t)) hexp (by fun_prop)
  have b0 := Complex.abs_arg_lt_pi_div_two_iff.2 (Or.inl (hu 0))
  have b1 := Complex.abs_arg_lt_pi_div_two_iff.2 (Or.inl (hu 1))
  rw [abs_lt] at b0 b1
  refine ⟨?_, ?_, h2⟩ <;> rw [h1] <;> linarith [b0.1, b0.2, b1.1, b1.2]

theorem exp_mul_neg (x : ℂ) : Complex.exp x * Complex.exp (-x) = 1 := by
  rw [← Complex.exp_add, add_neg_cancel, Complex.exp_zero]

/-- from inside of the circle or from another point of it -/
theorem turning_rot_inside {p c s : V2} {ω : ℝ} (hs : s ≠ c) (h : dist2 p c ≤ dist2 s c)
    (hp : ∀ t : ℝ, 0 ≤ t → t ≤ 1 → rot c (t * ω) s ≠ p) :
    (0 < ω → 0 < turning p (fun t => rot c (t * ω) s)) ∧
    (ω < 0 → turning p (fun t => rot c (t * ω) s) < 0) ∧
    |turning p (fun t => rot c (t * ω) s) - ω| < Real.pi ∧
    TurnsTo (seen p (fun t => rot c (t * ω) s) 0) (seen p (fun t => rot c (t * ω) s) 1)
      (turning p (fun t => rot c (t * ω) s)) := by
  set a : ℂ := ⟨s.x - c.x, s.y - c.y⟩ with ha
  set d : ℂ := ⟨p.x - c.x, p.y - c.y⟩ with hd
  have hnorm : ‖d‖ ≤ ‖a‖ := by
    apply le_of_sq_le_sq _ (norm_nonneg _)
    rw [norm_sq_mk, norm_sq_mk]
    simpa [dist2] using h
  have hane : a ≠ 0 := by
    intro h0
    apply hs
    have h1 := congrArg Complex.re h0
    have h2 := congrArg Complex.im h0
    simp only [ha, Complex.zero_re, Complex.zero_im] at h1 h2
    ext <;> linarith
  have han : 0 < ‖a‖ := norm_pos_iff.mpr hane
  have hz : ∀ t : ℝ, seen p (fun t => rot c (t * ω) s) t = a * Complex.exp (t * ω * Complex.I) *
      (1 - d / a * Complex.exp (-(t * ω * Complex.I))) := by
    intro t
    rw [seen_rot, ← ha, ← hd]
    have := exp_mul_neg (t * ω * Complex.I)
    generalize Complex.exp (-(t * ω * Complex.I)) = F at *
    generalize Complex.exp (t * ω * Complex.I) = E at *
    field_simp
    linear_combination d * this
  have hu : ∀ t ∈ Set.Icc (0 : ℝ) 1, 0 < (1 - d / a * Complex.exp (-(t * ω * Complex.I))).re := by
    intro t ht
    have hn : ‖d / a * Complex.exp (-(t * ω * Complex.I))‖ ≤ 1 := by
      rw [norm_mul, norm_div, show -((t : ℂ) * ω * Complex.I) = ((-(t * ω) : ℝ) : ℂ) * Complex.I by
        push_cast; ring, Complex.norm_exp_ofReal_mul_I, mul_one, div_le_one han]
      exact hnorm
    refine re_pos_slit hn ?_
    intro he
    refine hp t ht.1 ht.2 ?_
    have := hz t
    rw [he, sub_self, mul_zero] at this
    exact seen_eq_zero.mp this
  have hexp : ∀ t : ℝ, HasDerivAt (fun t : ℝ => 1 - d / a * Complex.exp (-(t * ω * Complex.I)))
      (-(d / a * (Complex.exp (-(t * ω * Complex.I)) * (-(ω * Complex.I))))) t := by
    intro t
    have h0 : HasDerivAt (fun s : ℝ => (-((s : ℂ) * ω * Complex.I))) (-(ω * Complex.I)) t := by
      have := ((Complex.ofRealCLM.hasDerivAt (x := t)).mul_const (-((ω : ℂ) * Complex.I)))
      simp only [Complex.ofRealCLM_apply] at this
      refine (this.congr_deriv (by simp)).congr_of_eventuallyEq ?_
      filter_upwards with s
      ring
    exact (h0.cexp.const_mul (d / a)).const_sub 1
  obtain ⟨h1, h2⟩ := turning_eq (p := p) (γ := fun t => rot c (t * ω) s) (κ := a) (ω := ω)
    (u := fun t : ℝ => 1 - d / a * Complex.exp (-(t * ω * Complex.I)))
    (u' := fun t : ℝ => -(d / a * (Complex.exp (-(t * ω * Complex.I)) * (-(ω * Complex.I)))))
    hane hz (fun t ht => Or.inl (hu t ht)) hexp (by fun_prop)
  have b0 := Complex.abs_arg_lt_pi_div_two_iff.2 (Or.inl (hu 0 (by simp)))
  have b1 := Complex.abs_arg_lt_pi_div_two_iff.2 (Or.inl (hu 1 (by simp)))
  rw [abs_lt] at b0 b1
  -- the sign
  have hpos : ∃ g : ℝ, 0 < g ∧ turning p (fun t => rot c (t * ω) s) = ω * g := by
    refine ⟨∫ t in (0 : ℝ)..1, (((rot c (t * ω) s).x - p.x) * ((rot c (t * ω) s).x - c.x) +
      ((rot c (t * ω) s).y - p.y) * ((rot c (t * ω) s).y - c.y)) / dist2 (rot c (t * ω) s) p, ?_, ?_⟩
    · apply intervalIntegral.intervalIntegral_pos_of_pos_on _ _ zero_lt_one
      · apply ContinuousOn.intervalIntegrable
        apply ContinuousOn.div
        · apply Continuous.continuousOn
          simp only [rot]; fun_prop
        · apply Continuous.continuousOn
          simp only [rot, dist2]; fun_prop
        · intro t ht
          rw [Set.uIcc_of_le zero_le_one] at ht
          exact (dist2_pos (hp t ht.1 ht.2)).ne'
      · intro t ht
        have hne := hp t ht.1.le ht.2.le
        apply div_pos _ (dist2_pos hne)
        have e1 := dist2_rot c s (t * ω)
        have e2 := dist2_pos hne
        set q := rot c (t * ω) s
        simp only [dist2] at e1 e2 h
        nlinarith
    · rw [← intervalIntegral.integral_const_mul]
      unfold turning
      congr 1
      funext t
      rw [velocity_rot]
      ring
  obtain ⟨g, hg, hI⟩ := hpos
  refine ⟨fun h => by rw [hI]; positivity, fun h => by rw [hI]; nlinarith, ?_, h2⟩
  rw [h1, abs_lt]
  constructor <;> linarith [b0.1, b0.2, b1.1, b1.2]

end Cavc
