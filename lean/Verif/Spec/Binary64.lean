import Mathlib.Data.Real.Basic

/-!
# Specification: floating point numbers of double precision

Independent of the code. Infinities and the largest exponent are left out: they matter for numbers above 2 ^ 1023 only.
-/

namespace Fog.Spec

/-- A number with 53 significant binary digits, and an exponent which is not below the least one of the IEEE 754 binary64 format. -/
def IsDouble (x : ℝ) : Prop := ∃ m e : ℤ, |m| < 2 ^ 53 ∧ -1074 ≤ e ∧ x = (m : ℝ) * (2 : ℝ) ^ e

/-- Rounding to a nearest double, whatever is chosen when two are as near. -/
structure IsRounding (fl : ℝ → ℝ) : Prop where
  double : ∀ x, IsDouble (fl x)
  nearest : ∀ x y, IsDouble y → |fl x - x| ≤ |y - x|

end Fog.Spec
