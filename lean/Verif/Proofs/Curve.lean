import Verif.Proofs.Seg
import Mathlib.Analysis.SpecialFunctions.Integrals.Basic
import Mathlib.Analysis.SpecialFunctions.Trigonometric.Deriv
import Mathlib.Analysis.Calculus.Deriv.Mul
import Mathlib.Analysis.Calculus.Deriv.Add

/-! Segments as curves: velocity, length, area. -/
namespace Cavc
open Spec
open scoped Classical

theorem Spec.IsPath.line {v1 v2 : Vertex} {γ : ℝ → V2} (h : IsPath v1 v2 γ) (hl : IsLine v1) :
    γ = fun t => lerp v1.pos v2.pos t := funext fun t => (atParam_line hl).mp (h t)

theorem Spec.IsPath.arc {v1 v2 : Vertex} {γ : ℝ → V2} (h : IsPath v1 v2 γ) (hl : ¬ IsLine v1) :
    γ = fun t => rot (centerOf v1 v2) (t * sweep v1) v1.pos :=
  funext fun t => (atParam_arc hl).mp (h t)

theorem velocity_line (p q : V2) (t : ℝ) : velocity (fun t => lerp p q t) t = q - p := by
  ext
  · show deriv (fun s : ℝ => p.x + s * (q.x - p.x)) t = q.x - p.x
    have : HasDerivAt (fun s : ℝ => p.x + s * (q.x - p.x)) (1 * (q.x - p.x)) t :=
      ((hasDerivAt_id t).mul_const _).const_add _
    rw [this.deriv, one_mul]
  · show deriv (fun s : ℝ => p.y + s * (q.y - p.y)) t = q.y - p.y
    have : HasDerivAt (fun s : ℝ => p.y + s * (q.y - p.y)) (1 * (q.y - p.y)) t :=
      ((hasDerivAt_id t).mul_const _).const_add _
    rw [this.deriv, one_mul]

theorem hasDerivAt_rot_x (c p : V2) (θ t : ℝ) : HasDerivAt (fun s => (rot c (s * θ) p).x)
    (-θ * ((rot c (t * θ) p).y - c.y)) t := by
  have hm : HasDerivAt (fun s : ℝ => s * θ) θ t := by
    simpa using (hasDerivAt_id t).mul_const θ
  have hc := (Real.hasDerivAt_cos (t * θ)).comp t hm
  have hs := (Real.hasDerivAt_sin (t * θ)).comp t hm
  have := ((hc.const_mul (p.x - c.x)).const_add c.x).sub (hs.const_mul (p.y - c.y))
  refine HasDerivAt.congr_deriv (f := fun s => (rot c (s * θ) p).x) this ?_
  simp only [rot]; ring

theorem hasDerivAt_rot_y (c p : V2) (θ t : ℝ) : HasDerivAt (fun s => (rot c (s * θ) p).y)
    (θ * ((rot c (t * θ) p).x - c.x)) t := by
  have hm : HasDerivAt (fun s : ℝ => s * θ) θ t := by
    simpa using (hasDerivAt_id t).mul_const θ
  have hc := (Real.hasDerivAt_cos (t * θ)).comp t hm
  have hs := (Real.hasDerivAt_sin (t * θ)).comp t hm
  have := ((hs.const_mul (p.x - c.x)).const_add c.y).add (hc.const_mul (p.y - c.y))
  refine HasDerivAt.congr_deriv (f := fun s => (rot c (s * θ) p).y) this ?_
  simp only [rot]; ring

theorem velocity_rot (c p : V2) (θ t : ℝ) : velocity (fun s => rot c (s * θ) p) t =
    ⟨-θ * ((rot c (t * θ) p).y - c.y), θ * ((rot c (t * θ) p).x - c.x)⟩ := by
  ext
  · exact (hasDerivAt_rot_x c p θ t).deriv
  · exact (hasDerivAt_rot_y c p θ t).deriv

theorem curveLength_line (p q : V2) : curveLength (fun t => lerp p q t) = distance p q := by
  unfold curveLength
  simp only [velocity_line, V2.sub_x, V2.sub_y]
  rw [intervalIntegral.integral_const]
  simp only [sub_zero, one_smul, distance, dist2]
  congr 1; ring

theorem curveLength_rot (c p : V2) (θ : ℝ) :
    curveLength (fun t => rot c (t * θ) p) = distance p c * |θ| := by
  unfold curveLength
  have h : ∀ t : ℝ, Real.sqrt ((velocity (fun t => rot c (t * θ) p) t).x ^ 2 +
      (velocity (fun t => rot c (t * θ) p) t).y ^ 2) = distance p c * |θ| := by
    intro t
    rw [velocity_rot]
    have h1 := dist2_rot c p (t * θ)
    have : (-θ * ((rot c (t * θ) p).y - c.y)) ^ 2 + (θ * ((rot c (t * θ) p).x - c.x)) ^ 2 =
        dist2 p c * θ ^ 2 := by
      rw [← h1]; simp only [dist2]; ring
    rw [this, Real.sqrt_mul (dist2_nonneg _ _), Real.sqrt_sq_eq_abs, distance]
  simp only [h]
  rw [intervalIntegral.integral_const]
  simp

theorem curveArea_line (p q : V2) :
    curveArea (fun t => lerp p q t) = (p.x * q.y - p.y * q.x) / 2 := by
  unfold curveArea
  have h : ∀ t : ℝ, (lerp p q t).x * (velocity (fun t => lerp p q t) t).y -
      (lerp p q t).y * (velocity (fun t => lerp p q t) t).x = p.x * q.y - p.y * q.x := by
    intro t
    rw [velocity_line]
    simp only [lerp, V2.sub_x, V2.sub_y]; ring
  simp only [h]
  rw [intervalIntegral.integral_const]
  simp

/-- Area of a circular sweep: sector plus the triangles with the origin. -/
theorem curveArea_rot (c p : V2) (θ : ℝ) : curveArea (fun t => rot c (t * θ) p) =
    (dist2 p c * θ + c.x * ((rot c θ p).y - p.y) - c.y * ((rot c θ p).x - p.x)) / 2 := by
  unfold curveArea
  have h : ∀ t ∈ Set.uIcc (0 : ℝ) 1, HasDerivAt (fun s => dist2 p c * (s * θ) +
      c.x * (rot c (s * θ) p).y - c.y * (rot c (s * θ) p).x)
      ((rot c (t * θ) p).x * (velocity (fun t => rot c (t * θ) p) t).y -
      (rot c (t * θ) p).y * (velocity (fun t => rot c (t * θ) p) t).x) t := by
    intro t _
    have hm : HasDerivAt (fun s : ℝ => s * θ) θ t := by
      simpa using (hasDerivAt_id t).mul_const θ
    have := ((hm.const_mul (dist2 p c)).add ((hasDerivAt_rot_y c p θ t).const_mul c.x)).sub
      ((hasDerivAt_rot_x c p θ t).const_mul c.y)
    refine HasDerivAt.congr_deriv this ?_
    rw [velocity_rot, ← dist2_rot c p (t * θ)]
    simp only [dist2]; ring
  have hint : IntervalIntegrable (fun t => (rot c (t * θ) p).x * (velocity (fun t => rot c (t * θ) p) t).y -
      (rot c (t * θ) p).y * (velocity (fun t => rot c (t * θ) p) t).x) MeasureTheory.volume 0 1 := by
    apply Continuous.intervalIntegrable
    simp only [velocity_rot]
    simp only [rot]
    fun_prop
  rw [intervalIntegral.integral_eq_sub_of_hasDerivAt h hint]
  simp only [one_mul, zero_mul, rot_zero]
  ring

end Cavc
