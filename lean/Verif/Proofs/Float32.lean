import Verif.Model.SpatialIndex
import Mathlib.Tactic.Linarith
import Mathlib.Tactic.Ring
import Mathlib.Tactic.FieldSimp
import Mathlib.Tactic.NormNum
import Mathlib.Tactic.Positivity
import Mathlib.Algebra.Order.Floor.Semiring
import Mathlib.Data.Nat.Cast.Order.Field

/-! Facts about the binary32 model: exact on integers up to 2^24, relative error 2^-24. -/
namespace Cavc

theorem roundEven_int (z : ℤ) : roundEven (z : ℚ) = z := by
  simp [roundEven]

theorem roundEven_err (q : ℚ) : |(roundEven q : ℚ) - q| ≤ 1 / 2 := by
  have h1 := Int.floor_le q
  have h2 := Int.lt_floor_add_one q
  unfold roundEven
  split_ifs with a b c
  · rw [abs_le]; constructor <;> linarith
  · rw [abs_le]; push_cast; constructor <;> linarith
  · rw [abs_le]; constructor <;> linarith
  · rw [abs_le]; push_cast; constructor <;> linarith

theorem log_bounds {q : ℚ} (hq : 0 < q) :
    (2 : ℚ) ^ (Int.log 2 q) ≤ q ∧ q < (2 : ℚ) ^ (Int.log 2 q + 1) := by
  have h1 := Int.zpow_log_le_self (b := 2) (r := q) (by norm_num) hq
  have h2 := Int.lt_zpow_succ_log_self (b := 2) (by norm_num) q
  constructor
  · exact_mod_cast h1
  · exact_mod_cast h2

theorem f32_err {q : ℚ} (hq : 0 < q) : |f32 q - q| ≤ (2 : ℚ) ^ (Int.log 2 q) / 2 ^ 24 := by
  unfold f32
  rw [if_neg hq.ne']
  set e := Int.log 2 q
  have hp : (0 : ℚ) < (2 : ℚ) ^ (e - 23) := zpow_pos (by norm_num) _
  have h := roundEven_err (q / (2 : ℚ) ^ (e - 23))
  have h2 : (roundEven (q / (2 : ℚ) ^ (e - 23)) : ℚ) * (2 : ℚ) ^ (e - 23) - q
      = ((roundEven (q / (2 : ℚ) ^ (e - 23)) : ℚ) - q / (2 : ℚ) ^ (e - 23)) * (2 : ℚ) ^ (e - 23) := by
    field_simp
  rw [h2, abs_mul, abs_of_pos hp]
  have h3 : (2 : ℚ) ^ e / 2 ^ 24 = 1 / 2 * (2 : ℚ) ^ (e - 23) := by
    rw [zpow_sub₀ (by norm_num)]; norm_num; ring
  rw [h3]
  exact mul_le_mul_of_nonneg_right h hp.le

theorem f32_nat {n : ℕ} (hn : n ≤ 2 ^ 24) : f32 (n : ℚ) = n := by
  unfold f32
  split_ifs with h
  · exact h.symm
  · have hpos : 0 < n := Nat.pos_of_ne_zero (by rintro rfl; exact h (by simp))
    have hposq : (0 : ℚ) < n := by exact_mod_cast hpos
    obtain ⟨h1, h2⟩ := log_bounds hposq
    set e := Int.log 2 (n : ℚ)
    have hex : ∃ z : ℤ, (n : ℚ) / (2 : ℚ) ^ (e - 23) = z := by
      by_cases he : e ≤ 23
      · refine ⟨n * 2 ^ (23 - e).toNat, ?_⟩
        have : (2 : ℚ) ^ (e - 23) = ((2 : ℚ) ^ (23 - e).toNat)⁻¹ := by
          rw [← zpow_natCast, ← zpow_neg]; congr 1; omega
        rw [this]; push_cast; field_simp
      · have h3 : (2 : ℚ) ^ (24 : ℤ) ≤ 2 ^ e := zpow_le_zpow_right₀ (by norm_num) (by omega)
        have h4 : (n : ℚ) ≤ 2 ^ 24 := by exact_mod_cast hn
        have h5 : (2 : ℚ) ^ e = 2 ^ (24 : ℤ) := by
          apply le_antisymm _ h3
          refine h1.trans (h4.trans (le_of_eq ?_)); norm_cast
        have h6 : (n : ℚ) = 2 ^ (24 : ℤ) := by
          apply le_antisymm
          · refine h4.trans (le_of_eq ?_); norm_cast
          · rw [← h5]; exact h1
        have h7 : e = 24 := zpow_right_injective₀ (by norm_num : (0 : ℚ) < 2) (by norm_num) h5
        refine ⟨2 ^ 23, ?_⟩
        rw [h6, h7]; norm_num
    obtain ⟨z, hz⟩ := hex
    rw [hz, roundEven_int, ← hz]
    field_simp

/-- Up to `2^24` items the float computation of the number of nodes of the next level is exact. -/
theorem nextLevelSize_exact {N n : ℕ} (hN : 1 ≤ N) (hN' : N ≤ 2 ^ 24) (hn : n ≤ 2 ^ 24) :
    nextLevelSize N n = (n + N - 1) / N := by
  unfold nextLevelSize
  rw [f32_nat hn, f32_nat hN']
  have hNq : (0 : ℚ) < N := by exact_mod_cast hN
  have key : ⌈f32 ((n : ℚ) / N)⌉₊ = ⌈((n : ℚ) / N)⌉₊ := by
    rcases Nat.eq_zero_or_pos n with rfl | hnpos
    · simp [f32]
    have hnq : (0 : ℚ) < n := by exact_mod_cast hnpos
    set q := (n : ℚ) / N with hq
    have hqpos : 0 < q := by positivity
    set k := ⌈q⌉₊ with hk
    have hk1 : q ≤ k := Nat.le_ceil q
    have hk0 : 0 < k := Nat.ceil_pos.mpr hqpos
    have hk2 : (k : ℚ) - 1 < q := by
      have := Nat.ceil_lt_add_one hqpos.le; linarith
    have hkn : k ≤ n := by
      apply Nat.ceil_le.mpr
      rw [hq, div_le_iff₀ hNq]
      have : (1 : ℚ) ≤ N := by exact_mod_cast hN
      nlinarith
    by_cases heq : q = k
    · rw [heq, f32_nat (hkn.trans hn)]; simp
    · have hlt : q < k := lt_of_le_of_ne hk1 heq
      have herr := f32_err hqpos
      obtain ⟨hl1, hl2⟩ := log_bounds hqpos
      have hle : (2 : ℚ) ^ Int.log 2 q / 2 ^ 24 ≤ 1 / N := by
        rw [div_le_div_iff₀ (by norm_num) hNq]
        have h4 : (n : ℚ) ≤ 2 ^ 24 := by exact_mod_cast hn
        calc (2 : ℚ) ^ Int.log 2 q * N ≤ q * N := by nlinarith
          _ = n := by rw [hq]; field_simp
          _ ≤ 1 * 2 ^ 24 := by linarith
      -- the gap to the integers around is at least 1/N
      have hqN : q * N = n := by rw [hq]; field_simp
      have hup : q + 1 / N ≤ k := by
        have h1 : (n : ℚ) < k * N := by rw [← hqN]; exact mul_lt_mul_of_pos_right hlt hNq
        have h2 : n + 1 ≤ k * N := by
          have : n < k * N := by exact_mod_cast h1
          omega
        have h3 : (n : ℚ) + 1 ≤ k * N := by exact_mod_cast h2
        rw [hq, ← add_div, div_le_iff₀ hNq]; exact h3
      have hlo : (k : ℚ) - 1 + 1 / N ≤ q := by
        have h1 : ((k : ℚ) - 1) * N < n := by rw [← hqN]; exact mul_lt_mul_of_pos_right hk2 hNq
        have h2 : (k - 1) * N + 1 ≤ n := by
          have : (((k - 1 : ℕ) : ℚ)) * N < n := by
            rw [Nat.cast_sub hk0]; simpa using h1
          have : (k - 1) * N < n := by exact_mod_cast this
          omega
        have h3 : ((k : ℚ) - 1) * N + 1 ≤ n := by
          have : (((k - 1 : ℕ) : ℚ)) * N + 1 ≤ n := by exact_mod_cast h2
          rw [Nat.cast_sub hk0] at this; simpa using this
        rw [hq, le_div_iff₀ hNq, add_mul, one_div, inv_mul_cancel₀ hNq.ne']; exact h3
      rw [abs_le] at herr
      have hf_up : f32 q ≤ k := by linarith [herr.2]
      have hf_lo : (k : ℚ) - 1 < f32 q := by
        by_cases hpow : q = (2 : ℚ) ^ Int.log 2 q
        · -- a power of two is represented exactly
          have : f32 q = q := by
            unfold f32
            rw [if_neg hqpos.ne']
            set e := Int.log 2 q
            have h1 : q / (2 : ℚ) ^ (e - 23) = ((2 ^ 23 : ℤ) : ℚ) := by
              rw [hpow, ← zpow_sub₀ (by norm_num)]
              rw [show e - (e - 23) = (23 : ℤ) by ring]; norm_cast
            rw [h1, roundEven_int, ← h1]; field_simp
          rw [this]; exact hk2
        · have hlt' : (2 : ℚ) ^ Int.log 2 q < q := lt_of_le_of_ne hl1 (Ne.symm hpow)
          have : (2 : ℚ) ^ Int.log 2 q / 2 ^ 24 < 1 / N := by
            rw [div_lt_div_iff₀ (by norm_num) hNq]
            have h4 : (n : ℚ) ≤ 2 ^ 24 := by exact_mod_cast hn
            calc (2 : ℚ) ^ Int.log 2 q * N < q * N := mul_lt_mul_of_pos_right hlt' hNq
              _ = n := hqN
              _ ≤ 1 * 2 ^ 24 := by linarith
          linarith [herr.1]
      apply le_antisymm
      · exact Nat.ceil_le.mpr hf_up
      · have : k - 1 < ⌈f32 q⌉₊ := by
          rw [Nat.lt_ceil, Nat.cast_sub hk0]; simpa using hf_lo
        omega
  rw [key]
  have hN0 : 0 < N := hN
  have h1 : (n + N - 1) / N * N ≤ n + N - 1 := Nat.div_mul_le_self _ _
  have h2 : n + N - 1 < ((n + N - 1) / N + 1) * N := by
    rw [mul_comm]; exact Nat.lt_mul_div_succ _ hN0
  set d := (n + N - 1) / N
  have h3 : n ≤ d * N := by rw [add_mul] at h2; omega
  apply le_antisymm
  · apply Nat.ceil_le.mpr
    rw [div_le_iff₀ hNq]; exact_mod_cast h3
  · rcases Nat.eq_zero_or_pos d with h0 | h0
    · omega
    · have h4 : d - 1 < ⌈(n : ℚ) / N⌉₊ := by
        rw [Nat.lt_ceil, lt_div_iff₀ hNq]
        have h5 : 1 * N ≤ d * N := Nat.mul_le_mul_right _ h0
        have : (d - 1) * N < n := by rw [Nat.sub_mul]; omega
        exact_mod_cast this
      omega

end Cavc
