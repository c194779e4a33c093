import Verif.Proofs.Angles
import Mathlib.Analysis.Real.Pi.Bounds

/-! C07-C09: angle normalisation, sweep membership, quadratic equation. -/
namespace Cavc
open Spec
open scoped Classical

/-- C07. `normalizeRadians` returns an angle in [0, 2π] equal to its argument up to full turns. -/
theorem C07_normalizeRadians (θ : ℝ) :
    0 ≤ normalizeRadians θ ∧ normalizeRadians θ ≤ 2 * Real.pi ∧
    (normalizeRadians θ = 2 * Real.pi → θ = 2 * Real.pi) ∧
    ∃ k : ℤ, normalizeRadians θ = θ + k * (2 * Real.pi) := by
  obtain ⟨h0, h1, h2⟩ := normalizeRadians_spec θ
  refine ⟨h0, ?_, ?_, h2⟩
  · rcases h1 with h | h
    · exact h.le
    · exact h.2.le
  · intro h
    rcases h1 with h' | h'
    · exact absurd h h'.ne
    · exact h'.1

/-- C07. `deltaAngle a b` is the representative of `b - a` in (-π, π]: any `d` in that range that
differs from `b - a` by full turns is the result. -/
theorem C07_deltaAngle (a b d : ℝ) :
    deltaAngle a b = d ↔
      (-Real.pi < d ∧ d ≤ Real.pi ∧ ∃ k : ℤ, d = b - a + k * (2 * Real.pi)) := by
  constructor
  · rintro rfl; exact deltaAngle_spec a b
  · rintro ⟨h1, h2, k, hk⟩
    exact deltaAngle_eq h1 h2 ⟨-k, by rw [hk]; push_cast; unfold tau; ring⟩

/-- C08, positive sweeps: the test angle is inside iff it is reached, up to full turns, by turning
from the start by some `s` with `0 ≤ s` and `s < sweep + ε`. The one excluded case is a test angle
exactly one full turn above the start. -/
theorem C08_sweep_ccw (start sweepA test ε : ℝ) (h0 : 0 ≤ sweepA) (h1 : sweepA < 2 * Real.pi)
    (hne : test - start ≠ 2 * Real.pi) :
    angleIsWithinSweep start sweepA test ε ↔
      ∃ s, 0 ≤ s ∧ s < 2 * Real.pi ∧ s < sweepA + ε ∧
        ∃ k : ℤ, test = start + s + k * (2 * Real.pi) := by
  unfold angleIsWithinSweep angleIsBetween
  simp only
  rw [if_neg (not_lt.mpr h0)]
  have he : normalizeRadians (start + sweepA - start) = sweepA :=
    normalizeRadians_eq h0 h1 (by unfold tau; intro h; linarith) ⟨0, by simp⟩
  rw [he]
  obtain ⟨a, b, k, hk⟩ := normalizeRadians_spec (test - start)
  constructor
  · intro h
    refine ⟨_, a, ?_, h, -k, ?_⟩
    · rcases b with b | b
      · exact b
      · exact absurd b.1 hne
    · rw [hk]; push_cast; unfold tau; ring
  · rintro ⟨s, s0, s1, s2, k', hk'⟩
    rw [normalizeRadians_eq s0 s1 hne ⟨k', by rw [hk']; unfold tau; ring⟩]
    exact s2

/-- C08, negative sweeps: the test angle is inside iff it is reached from the end of the sweep by
turning counter clockwise by some `s < -sweep + ε`, i.e. lies between end and start, or at most `ε`
past the start. -/
theorem C08_sweep_cw (start sweepA test ε : ℝ) (h0 : sweepA < 0) (h1 : -(2 * Real.pi) < sweepA)
    (hne : test - (start + sweepA) ≠ 2 * Real.pi) :
    angleIsWithinSweep start sweepA test ε ↔
      ∃ s, 0 ≤ s ∧ s < 2 * Real.pi ∧ s < -sweepA + ε ∧
        ∃ k : ℤ, test = start + sweepA + s + k * (2 * Real.pi) := by
  unfold angleIsWithinSweep angleIsBetween
  simp only
  rw [if_pos h0]
  have he : normalizeRadians (start - (start + sweepA)) = -sweepA :=
    normalizeRadians_eq (by linarith) (by unfold tau; linarith)
      (by unfold tau; intro h; linarith) ⟨0, by simp⟩
  rw [he]
  obtain ⟨a, b, k, hk⟩ := normalizeRadians_spec (test - (start + sweepA))
  constructor
  · intro h
    refine ⟨_, a, ?_, h, -k, ?_⟩
    · rcases b with b | b
      · exact b
      · exact absurd b.1 hne
    · rw [hk]; push_cast; unfold tau; ring
  · rintro ⟨s, s0, s1, s2, k', hk'⟩
    rw [normalizeRadians_eq s0 s1 hne ⟨k', by rw [hk']; unfold tau; ring⟩]
    exact s2

/-- C08, the excluded case is a real exception: one full turn above the start is not inside. -/
theorem C08_full_turn_exception (start sweepA ε : ℝ) (h0 : 0 ≤ sweepA)
    (h1 : sweepA + ε ≤ 2 * Real.pi) (hε : 0 < ε) :
    ¬ angleIsWithinSweep start sweepA (start + 2 * Real.pi) ε := by
  unfold angleIsWithinSweep angleIsBetween
  simp only
  rw [if_neg (not_lt.mpr h0)]
  have he : normalizeRadians (start + sweepA - start) = sweepA :=
    normalizeRadians_eq h0 (by unfold tau; linarith) (by unfold tau; intro h; linarith)
      ⟨0, by simp⟩
  have hm : normalizeRadians (start + 2 * Real.pi - start) = 2 * Real.pi := by
    unfold normalizeRadians
    rw [if_pos (by
      have := Real.pi_pos
      unfold tau; constructor <;> linarith)]
    ring
  rw [he, hm]
  exact not_lt.mpr h1

/-- C09. With the exact discriminant and `a ≠ 0`, whenever the discriminant is positive (or zero with
`b ≠ 0`) the two numbers returned are the roots with multiplicity. -/
theorem C09_quadratic (a b c : ℝ) (ha : a ≠ 0) (hd : 0 ≤ b * b - 4 * a * c)
    (hz : 0 < b * b - 4 * a * c ∨ b ≠ 0) :
    ∃ x1 x2, quadraticSolutions a b c (b * b - 4 * a * c) = .ok (x1, x2) ∧
      ∀ x, a * x ^ 2 + b * x + c = a * (x - x1) * (x - x2) := by
  unfold quadraticSolutions
  rw [assertP_pos (by simp [fuzzyEqual, realThreshold]), ok_bind, if_neg (not_lt.mpr hd), if_neg ha]
  simp only
  set D := b * b - 4 * a * c with hD
  have hs := Real.sq_sqrt hd
  have hs0 := Real.sqrt_nonneg D
  set S := Real.sqrt D
  have key : ∀ n : ℝ, n * n + 2 * b * n + b * b = D → n ≠ 0 → n / (2 * a) ≠ 0 ∧
      ∀ x, a * x ^ 2 + b * x + c = a * (x - n / (2 * a)) * (x - c / a / (n / (2 * a))) := by
    intro n hn hn0
    refine ⟨by positivity, fun x => ?_⟩
    have hc : c = -(n * (n + 2 * b)) / (4 * a) := by
      field_simp
      rw [hD] at hn; linarith
    have h2 : c / a / (n / (2 * a)) = -(n + 2 * b) / (2 * a) := by
      rw [hc]; field_simp; ring
    rw [h2]
    rw [hc]
    field_simp
    ring
  by_cases hb : b < 0
  · rw [if_pos hb]
    obtain ⟨k1, k2⟩ := key (-b + S) (by nlinarith) (by linarith)
    rw [if_neg k1]
    exact ⟨_, _, rfl, k2⟩
  · rw [if_neg hb]
    have hb' : 0 ≤ b := not_lt.mp hb
    have hne : -b - S ≠ 0 := by
      rcases hz with hz | hz
      · have : 0 < S := Real.sqrt_pos.mpr hz
        linarith
      · have : 0 < b := lt_of_le_of_ne hb' (Ne.symm hz)
        linarith
    obtain ⟨k1, k2⟩ := key (-b - S) (by nlinarith) hne
    rw [if_neg k1]
    exact ⟨_, _, rfl, k2⟩

/-- C09, the excluded case: `b = 0`, `c = 0` divides by a zero root. -/
theorem C09_double_zero_root (a : ℝ) (ha : a ≠ 0) :
    quadraticSolutions a 0 0 0 = .error .divByZero := by
  unfold quadraticSolutions
  rw [assertP_pos (by simp [fuzzyEqual, realThreshold]), ok_bind, if_neg (by simp), if_neg ha]
  simp

/-! concrete instances -/

/-- C07: 7π/2 and π/4 differ by -5π/4 + 2π k; the representative is 3π/4. -/
example : deltaAngle (7 * Real.pi / 2) (Real.pi / 4) = 3 * Real.pi / 4 := by
  rw [C07_deltaAngle]
  have := Real.pi_pos
  exact ⟨by linarith, by linarith, 2, by push_cast; ring⟩

/-- C08: a sweep from 3π/2 by π contains 0 (wrap around) but not π. -/
example : angleIsWithinSweep (3 * Real.pi / 2) Real.pi 0 ∧
    ¬ angleIsWithinSweep (3 * Real.pi / 2) Real.pi Real.pi := by
  have hp := Real.pi_gt_three
  have hp4 := Real.pi_le_four
  constructor
  · rw [C08_sweep_ccw _ _ _ _ (by linarith) (by linarith) (by intro h; linarith)]
    exact ⟨Real.pi / 2, by linarith, by linarith, by unfold realThreshold; linarith, -1,
      by push_cast; ring⟩
  · rw [C08_sweep_ccw _ _ _ _ (by linarith) (by linarith) (by intro h; linarith)]
    rintro ⟨s, h0, h1, h2, k, hk⟩
    have h3 : s = -Real.pi / 2 - k * (2 * Real.pi) := by linarith
    have h2' : s < Real.pi + 1 / 10 ^ 8 := h2
    have hk1 : k = -1 := by
      have a1 : (k : ℝ) < 0 := by nlinarith
      have a2 : (-2 : ℝ) < k := by nlinarith
      have b1 : k < 0 := by exact_mod_cast a1
      have b2 : -2 < k := by exact_mod_cast a2
      omega
    rw [hk1] at h3
    push_cast at h3
    norm_num at h2'
    linarith

/-- C09: x² - 3x + 2. -/
example : ∃ x1 x2, quadraticSolutions 1 (-3) 2 ((-3) * (-3) - 4 * 1 * 2) = .ok (x1, x2) ∧
    ∀ x, 1 * x ^ 2 + (-3) * x + 2 = 1 * (x - x1) * (x - x2) :=
  C09_quadratic 1 (-3) 2 (by norm_num) (by norm_num) (by norm_num)

end Cavc
