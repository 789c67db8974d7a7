import Verif.Lemmas.Binary64
import Mathlib.Tactic.FieldSimp
import Mathlib.Tactic.Linarith

/-!
# Fractions and their roundings
-/

namespace Fog.Spec

open IsRounding

variable {fl : ℝ → ℝ}

/-- Two fractions which differ do so by one over the product of their denominators at least. -/
theorem fraction_gap {p q a b : ℕ} (hq : 0 < q) (hb : 0 < b) (h : (p : ℝ) / q < (a : ℝ) / b) :
    (p : ℝ) / q + 1 / ((q * b : ℕ) : ℝ) ≤ (a : ℝ) / b := by
  have hq' : (0 : ℝ) < q := by exact_mod_cast hq
  have hb' : (0 : ℝ) < b := by exact_mod_cast hb
  rw [div_lt_div_iff₀ hq' hb'] at h
  have h1 : p * b + 1 ≤ a * q := by exact_mod_cast h
  have h2 : (p : ℝ) * b + 1 ≤ a * q := by exact_mod_cast h1
  have h3 : (p : ℝ) / q + 1 / ((q * b : ℕ) : ℝ) = (p * b + 1) / (q * b) := by
    push_cast
    field_simp
  rw [h3, div_le_div_iff₀ (mul_pos hq' hb') hb']
  calc ((p : ℝ) * b + 1) * b ≤ (a * q) * b := mul_le_mul_of_nonneg_right h2 hb'.le
    _ = a * (q * b) := by ring

/-- A number of absolute value at most one is rounded by at most `2 ^ -54`. -/
theorem error_unit (hfl : IsRounding fl) {x : ℝ} (h : |x| ≤ 1) : |fl x - x| ≤ 1 / 2 ^ 54 := by
  have := hfl.abs_error (k := 0) (by norm_num) (x := x) (by simpa using h)
  refine this.trans (le_of_eq ?_)
  norm_num

theorem error_two (hfl : IsRounding fl) {x : ℝ} (h : |x| ≤ 2) : |fl x - x| ≤ 1 / 2 ^ 53 := by
  have := hfl.abs_error (k := 1) (by norm_num) (x := x) (by simpa using h)
  refine this.trans (le_of_eq ?_)
  norm_num

/-- `x` is within `e` of a fraction, and the threshold is another fraction: `x` is on the same side of the rounded threshold when `e` is
small. -/
theorem near_fraction (hfl : IsRounding fl) {p q a b N : ℕ} {x : ℝ} (hq : 0 < q) (hb : 0 < b) (hab : a ≤ b) (hN : q * b < N)
    (hx : |x - (p : ℝ) / q| ≤ 1 / N - 1 / 2 ^ 54) (hne : (p : ℝ) / q ≠ (a : ℝ) / b) :
    fl ((a : ℝ) / b) ≤ x ↔ (a : ℝ) / b ≤ (p : ℝ) / q := by
  have hb' : (0 : ℝ) < b := by exact_mod_cast hb
  have hqb : (0 : ℝ) < ((q * b : ℕ) : ℝ) := by exact_mod_cast Nat.mul_pos hq hb
  have hlt : 1 / (N : ℝ) < 1 / ((q * b : ℕ) : ℝ) := one_div_lt_one_div_of_lt hqb (by exact_mod_cast hN)
  have he := error_unit hfl (x := (a : ℝ) / b) (by
    rw [abs_of_nonneg (by positivity), div_le_one hb']
    exact_mod_cast hab)
  rw [abs_le] at he hx
  rcases lt_or_gt_of_ne hne with h | h
  · have := fraction_gap hq hb h
    constructor
    · intro h1
      linarith
    · intro h1
      linarith
  · have h2 := fraction_gap hb hq h
    rw [Nat.mul_comm b q] at h2
    constructor
    · intro _
      exact h.le
    · intro _
      linarith

/-- A fraction is at least a fraction of the unit exactly when they are so once rounded, as long as the product of their denominators is below
`2 ^ 53`. -/
theorem fraction_threshold (hfl : IsRounding fl) {p q a b : ℕ} (hq : 0 < q) (hb : 0 < b) (hab : a ≤ b) (hN : q * b < 2 ^ 53) :
    fl ((a : ℝ) / b) ≤ fl ((p : ℝ) / q) ↔ (a : ℝ) / b ≤ (p : ℝ) / q := by
  rcases le_or_gt ((a : ℝ) / b) ((p : ℝ) / q) with h | h
  · exact ⟨fun _ => h, fun h => hfl.mono h⟩
  · have hb' : (0 : ℝ) < b := by exact_mod_cast hb
    have h1 : (a : ℝ) / b ≤ 1 := by
      rw [div_le_one hb']
      exact_mod_cast hab
    refine near_fraction hfl hq hb hab hN ?_ h.ne
    refine (error_unit hfl (x := (p : ℝ) / q) ?_).trans ?_
    · rw [abs_of_nonneg (by positivity)]
      linarith
    · norm_num

end Fog.Spec
