import Verif.Lemmas.Binary64

/-!
Errors of sums in double precision.
-/

namespace Fog.Spec

variable {fl : ℝ → ℝ}

/-- The relative error of a rounding, whatever the sign. -/
theorem IsRounding.relative_abs (hfl : IsRounding fl) {x : ℝ} (h : (2 : ℝ) ^ (-1022 : ℤ) ≤ |x|) : |fl x - x| ≤ |x| / 2 ^ 53 := by
  have hx : 0 < |x| := lt_of_lt_of_le (two_zpow_pos _) h
  have h1 := Int.zpow_log_le_self (b := 2) (r := |x|) (by norm_num) hx
  have h2 := Int.lt_zpow_succ_log_self (b := 2) (by norm_num) |x|
  have hk : -1022 ≤ Int.log 2 |x| := by
    have := Int.log_mono_right (b := 2) (two_zpow_pos (-1022)) h
    have e : Int.log 2 ((2 : ℝ) ^ (-1022 : ℤ)) = -1022 := by
      have := Int.log_zpow (R := ℝ) (b := 2) (by norm_num) (-1022)
      exact_mod_cast this
    omega
  push_cast at h1 h2
  have := hfl.abs_error (x := x) (k := Int.log 2 |x| + 1) (by omega) h2.le
  refine this.trans ?_
  rw [show Int.log 2 |x| + 1 - 54 = Int.log 2 |x| - 53 by ring, zpow_sub₀ two_ne_zero, le_div_iff₀ (by norm_num)]
  rw [show ((2 : ℝ) ^ (53 : ℤ)) = 2 ^ 53 by norm_cast, div_mul_cancel₀ _ (by norm_num)]
  exact h1

/-- A double is a multiple of the least one. -/
theorem IsDouble.least {x : ℝ} (h : IsDouble x) : ∃ n : ℤ, x = n * (2 : ℝ) ^ (-1074 : ℤ) := by
  obtain ⟨m, e, _, h2, rfl⟩ := h
  refine ⟨m * 2 ^ (e + 1074).toNat, ?_⟩
  push_cast
  rw [mul_assoc, ← zpow_natCast, ← zpow_add₀ two_ne_zero]
  congr 2
  omega

/-- The sum of two doubles has a relative error, even when it is tiny. -/
theorem IsRounding.add_error (hfl : IsRounding fl) {x y : ℝ} (hx : IsDouble x) (hy : IsDouble y) :
    |fl (x + y) - (x + y)| ≤ |x + y| / 2 ^ 53 := by
  rcases le_or_gt ((2 : ℝ) ^ (-1022 : ℤ)) |x + y| with h | h
  · exact hfl.relative_abs h
  · obtain ⟨n, hn⟩ := hx.least
    obtain ⟨m, hm⟩ := hy.least
    have e : x + y = ((n + m : ℤ) : ℝ) * (2 : ℝ) ^ (-1074 : ℤ) := by rw [hn, hm]; push_cast; ring
    have hd : IsDouble (x + y) := by
      rw [e]
      refine isDouble_of_le ?_ le_rfl
      rw [e, abs_mul, abs_of_pos (two_zpow_pos _)] at h
      have h' : |((n + m : ℤ) : ℝ)| < 2 ^ 52 := by
        have e2 : (2 : ℝ) ^ (-1022 : ℤ) = 2 ^ 52 * (2 : ℝ) ^ (-1074 : ℤ) := by
          rw [show (2 : ℝ) ^ 52 = (2 : ℝ) ^ (52 : ℤ) by norm_cast, ← zpow_add₀ two_ne_zero]
          norm_num
        rw [e2] at h
        exact lt_of_mul_lt_mul_right h (two_zpow_pos _).le
      have h'' : |n + m| < 2 ^ 52 := by exact_mod_cast h'
      omega
    rw [hfl.of_double hd, sub_self, abs_zero]
    positivity

end Fog.Spec
