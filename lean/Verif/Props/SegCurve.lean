import Verif.Proofs.Curve
import Verif.Proofs.Semi
import Mathlib.Analysis.Real.Pi.Bounds

/-! C15-C17: length, midpoint and tangent of a segment. -/
namespace Cavc
open Spec
open scoped Classical

theorem arctan_abs_le (b : ℝ) : |Real.arctan b| ≤ |b| := by
  have key : ∀ x : ℝ, 0 ≤ x → Real.arctan x ≤ x := by
    intro x hx
    have h0 := Real.arctan_nonneg.mpr hx
    have := Real.le_tan h0 (Real.arctan_lt_pi_div_two x)
    rwa [Real.tan_arctan] at this
  rcases le_total 0 b with h | h
  · rw [abs_of_nonneg h, abs_of_nonneg (Real.arctan_nonneg.mpr h)]; exact key b h
  · have := key (-b) (by linarith)
    rw [Real.arctan_neg] at this
    rw [abs_of_nonpos h, abs_of_nonpos (Real.arctan_le_zero.mpr h)]; exact this

/-- The length of an arc of at most a half circle is at most twice its chord. -/
theorem arc_length_le_chord {v1 v2 : Vertex} (hb : v1.bulge ≠ 0) (h1 : |v1.bulge| ≤ 1) :
    distance v1.pos (centerOf v1 v2) * |sweep v1| ≤ 2 * distance v1.pos v2.pos := by
  have hb' : 0 < |v1.bulge| := abs_pos.mpr hb
  have hr : distance v1.pos (centerOf v1 v2) =
      distance v1.pos v2.pos * (|v1.bulge| * |v1.bulge| + 1) / (4 * |v1.bulge|) := by
    have h := arcOf_radius_sq (v2 := v2) hb
    have h0 : 0 ≤ (arcOf v1 v2).radius := by
      simp only [arcOf, length_sub]
      have : 0 ≤ distance v1.pos v2.pos := Real.sqrt_nonneg _
      positivity
    have : (arcOf v1 v2).radius = distance v1.pos (centerOf v1 v2) := by
      rw [distance, ← h, Real.sqrt_sq h0]
    rw [← this]; simp only [arcOf, length_sub]
  rw [hr, sweep, abs_mul, abs_of_pos (show (0 : ℝ) < 4 by norm_num)]
  have hd : 0 ≤ distance v1.pos v2.pos := Real.sqrt_nonneg _
  have ha := arctan_abs_le v1.bulge
  have e : distance v1.pos v2.pos * (|v1.bulge| * |v1.bulge| + 1) / (4 * |v1.bulge|) *
      (4 * |Real.arctan v1.bulge|) =
      (distance v1.pos v2.pos * (|v1.bulge| * |v1.bulge| + 1)) *
        (|Real.arctan v1.bulge| / |v1.bulge|) := by
    field_simp
  rw [e]
  have h2 : |Real.arctan v1.bulge| / |v1.bulge| ≤ 1 := (div_le_one hb').mpr ha
  have h3 : |v1.bulge| * |v1.bulge| + 1 ≤ 2 := by nlinarith
  calc _ ≤ (distance v1.pos v2.pos * (|v1.bulge| * |v1.bulge| + 1)) * 1 :=
        mul_le_mul_of_nonneg_left h2 (by positivity)
    _ ≤ _ := by nlinarith

/-- C15. For any segment that is straight or at most a half circle, `segLength` returns the length
of the curve: exactly, unless both coordinates of the end points agree to less than 1e-8, when it
returns 0 and the error is below 3e-8. -/
theorem C15_segLength {v1 v2 : Vertex} (hb : |v1.bulge| ≤ 1) {γ : ℝ → V2} (hγ : IsPath v1 v2 γ) :
    ∃ L, segLength v1 v2 = .ok L ∧
      (1 / 10 ^ 8 ≤ |v1.pos.x - v2.pos.x| ∨ 1 / 10 ^ 8 ≤ |v1.pos.y - v2.pos.y| →
        L = curveLength γ) ∧
      |L - curveLength γ| ≤ 3 / 10 ^ 8 := by
  unfold segLength
  by_cases hf : fuzzyEqualV v1.pos v2.pos
  · rw [if_pos hf]
    have hd : distance v1.pos v2.pos ≤ 3 / 2 / 10 ^ 8 := by
      obtain ⟨hx, hy⟩ := hf
      unfold fuzzyEqual realThreshold at hx hy
      unfold distance dist2
      rw [Real.sqrt_le_left (by norm_num)]
      rw [abs_lt] at hx hy
      nlinarith
    refine ⟨0, rfl, fun h => absurd hf (not_fuzzyEqualV h), ?_⟩
    by_cases hl : IsLine v1
    · rw [hγ.line hl, curveLength_line, zero_sub, abs_neg, abs_of_nonneg (distance_nonneg _ _)]
      refine hd.trans ?_
      norm_num
    · have hle := arc_length_le_chord (v2 := v2) (bulge_ne_zero hl) hb
      rw [hγ.arc hl, curveLength_rot, zero_sub, abs_neg, abs_of_nonneg
        (mul_nonneg (distance_nonneg _ _) (abs_nonneg _))]
      linarith
  · rw [if_neg hf]
    suffices h : ∃ L, (if v1.bulgeIsZero then (.ok (Real.sqrt (distSquared v1.pos v2.pos)) : M ℝ)
        else do
          let arc ← arcRadiusAndCenter v1 v2
          let startAngle := angle arc.center v1.pos
          let endAngle := angle arc.center v2.pos
          return |arc.radius * deltaAngle startAngle endAngle|) = .ok L ∧ L = curveLength γ by
      obtain ⟨L, h1, h2⟩ := h
      refine ⟨L, h1, fun _ => h2, ?_⟩
      rw [h2, sub_self, abs_zero]; positivity
    by_cases hl : IsLine v1
    · rw [if_pos (show v1.bulgeIsZero from hl)]
      refine ⟨_, rfl, ?_⟩
      rw [hγ.line hl, curveLength_line, distSquared, dot_sub_self, distance]
    · rw [if_neg (show ¬ v1.bulgeIsZero from hl)]
      have ha : ArcOk v1 v2 := by
        refine ⟨hl, ?_⟩
        by_contra h
        push Not at h
        exact hf ⟨h.1, h.2⟩
      rw [ha.run, ok_bind]
      refine ⟨_, rfl, ?_⟩
      rw [hγ.arc hl, curveLength_rot, ha.center, abs_mul, abs_of_pos ha.radius_pos, ha.radius_eq]
      congr 1
      apply abs_deltaAngle (abs_sweep_le hb)
      have := angle_rot ha.start_ne (sweep v1)
      rwa [ha.end_eq] at this

/-- The half circle has length π. -/
example : segLength ⟨⟨1, 0⟩, 1⟩ ⟨⟨-1, 0⟩, 0⟩ = .ok Real.pi := by
  obtain ⟨L, h1, h2, -⟩ := C15_segLength (by norm_num [semiStart]) semi_path
  rw [show (⟨⟨1, 0⟩, 1⟩ : Vertex) = semiStart from rfl, show (⟨⟨-1, 0⟩, 0⟩ : Vertex) = semiEnd from rfl,
    h1, h2 (Or.inl (by norm_num [semiStart, semiEnd]))]
  rw [semi_path.arc semi_ok.2, curveLength_rot, semi_center, semi_sweep, abs_of_pos Real.pi_pos]
  norm_num [distance, dist2, semiStart]

/-- C16. The midpoint of a segment is its point at parameter 1/2: equidistant along the path from
both ends. -/
theorem C16_segMidpoint {v1 v2 : Vertex} (hok : SegOk v1 v2) :
    ∃ p, segMidpoint v1 v2 = .ok p ∧ AtParam v1 v2 (1 / 2) p := by
  unfold segMidpoint
  by_cases hl : IsLine v1
  · rw [if_pos (show v1.bulgeIsZero from hl)]
    refine ⟨_, rfl, (atParam_line hl).mpr ?_⟩
    ext <;> simp only [midpoint, lerp] <;> ring
  · rw [if_neg (show ¬ v1.bulgeIsZero from hl)]
    have ha := hok.arcOk hl
    rw [ha.run, ok_bind]
    refine ⟨_, rfl, (atParam_arc hl).mpr ?_⟩
    rw [ha.center, ha.radius_eq, rot_polar]
    have habs : |deltaAngle (angle (centerOf v1 v2) v1.pos) (angle (centerOf v1 v2) v2.pos)| =
        |sweep v1| := by
      apply abs_deltaAngle (abs_sweep_le hok.half)
      have := angle_rot ha.start_ne (sweep v1)
      rwa [ha.end_eq] at this
    have key : (if v1.bulgeIsPos then angle (centerOf v1 v2) v1.pos +
        |deltaAngle (angle (centerOf v1 v2) v1.pos) (angle (centerOf v1 v2) v2.pos) / 2| else
        angle (centerOf v1 v2) v1.pos -
        |deltaAngle (angle (centerOf v1 v2) v1.pos) (angle (centerOf v1 v2) v2.pos) / 2|) =
        angle (centerOf v1 v2) v1.pos + 1 / 2 * sweep v1 := by
      rw [abs_div, habs]
      rcases lt_or_gt_of_ne ha.b_ne with h | h
      · rw [if_neg (show ¬ v1.bulgeIsPos from by unfold Vertex.bulgeIsPos; linarith),
          abs_of_neg (sweep_neg h), abs_of_pos (by norm_num : (0 : ℝ) < 2)]; ring
      · rw [if_pos (show v1.bulgeIsPos from h),
          abs_of_pos (sweep_pos h), abs_of_pos (by norm_num : (0 : ℝ) < 2)]; ring
    rw [key]; rfl

/-- The midpoint of the half circle is its apex. -/
example : segMidpoint ⟨⟨1, 0⟩, 1⟩ ⟨⟨-1, 0⟩, 0⟩ = .ok ⟨0, 1⟩ := by
  obtain ⟨p, h1, h2⟩ := C16_segMidpoint semi_ok.1
  rw [semi_atParam] at h2
  rw [show (⟨⟨1, 0⟩, 1⟩ : Vertex) = semiStart from rfl, show (⟨⟨-1, 0⟩, 0⟩ : Vertex) = semiEnd from rfl,
    h1, h2, show 1 / 2 * Real.pi = Real.pi / 2 by ring, Real.cos_pi_div_two, Real.sin_pi_div_two]

/-- C17. The tangent vector at a point of the segment points along the direction of travel: the
velocity of the segment there is a positive multiple of it, and it is not zero unless the segment is
a straight one without length. -/
theorem C17_segTangentVector {v1 v2 : Vertex} (hok : SegOk v1 v2) {γ : ℝ → V2}
    (hγ : IsPath v1 v2 γ) (t : ℝ) :
    ∃ T, segTangentVector v1 v2 (γ t) = .ok T ∧ (∃ k : ℝ, 0 < k ∧ velocity γ t = k • T) ∧
      (v1.pos ≠ v2.pos → T ≠ ⟨0, 0⟩) := by
  unfold segTangentVector
  by_cases hl : IsLine v1
  · rw [if_pos (show v1.bulgeIsZero from hl)]
    refine ⟨_, rfl, ⟨1, by norm_num, ?_⟩, ?_⟩
    · rw [hγ.line hl, velocity_line]; ext <;> simp
    · intro hne h
      apply hne
      have h1 := congrArg V2.x h
      have h2 := congrArg V2.y h
      simp only [V2.sub_x, V2.sub_y] at h1 h2
      ext <;> linarith
  · rw [if_neg (show ¬ v1.bulgeIsZero from hl)]
    have ha := hok.arcOk hl
    rw [ha.run, ok_bind, ha.center]
    have hγt : γ t = rot (centerOf v1 v2) (t * sweep v1) v1.pos := by rw [hγ.arc hl]
    have hv : velocity γ t = ⟨-sweep v1 * ((γ t).y - (centerOf v1 v2).y),
        sweep v1 * ((γ t).x - (centerOf v1 v2).x)⟩ := by
      rw [hγ.arc hl, velocity_rot]
    have hne : γ t ≠ centerOf v1 v2 := by
      intro h
      have := dist2_rot (centerOf v1 v2) v1.pos (t * sweep v1)
      rw [← hγt, h] at this
      rw [dist2_eq_zero.mpr rfl] at this
      exact ha.start_ne (dist2_eq_zero.mp this.symm)
    rcases lt_or_gt_of_ne ha.b_ne with h | h
    · rw [if_neg (show ¬ v1.bulgeIsPos from by unfold Vertex.bulgeIsPos; linarith)]
      refine ⟨_, rfl, ⟨-sweep v1, by linarith [sweep_neg h], ?_⟩, ?_⟩
      · rw [hv]; ext <;> simp <;> ring
      · intro _ h0
        have h1 := congrArg V2.x h0
        have h2 := congrArg V2.y h0
        simp only at h1 h2
        apply hne; ext <;> linarith
    · rw [if_pos (show v1.bulgeIsPos from h)]
      refine ⟨_, rfl, ⟨sweep v1, sweep_pos h, ?_⟩, ?_⟩
      · rw [hv]; ext <;> simp only [V2.smul_x, V2.smul_y] <;> ring
      · intro _ h0
        have h1 := congrArg V2.x h0
        have h2 := congrArg V2.y h0
        simp only at h1 h2
        apply hne; ext <;> linarith

/-- At the apex of the half circle the velocity is a positive multiple of the result. -/
example : ∃ T, segTangentVector ⟨⟨1, 0⟩, 1⟩ ⟨⟨-1, 0⟩, 0⟩ ⟨0, 1⟩ = .ok T ∧ T ≠ ⟨0, 0⟩ := by
  obtain ⟨T, h1, -, h2⟩ := C17_segTangentVector semi_ok.1 semi_path (1 / 2)
  rw [show 1 / 2 * Real.pi = Real.pi / 2 by ring, Real.cos_pi_div_two, Real.sin_pi_div_two] at h1
  exact ⟨T, h1, h2 (by intro h; have := congrArg V2.x h; norm_num [semiStart, semiEnd] at this)⟩

end Cavc
