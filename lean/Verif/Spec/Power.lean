import Verif.Spec.Binary64
import Mathlib.Analysis.SpecialFunctions.Pow.Real

/-!
# Specification: powers of doubles

Independent of the code.
-/

namespace Fog.Spec

/-- A power of doubles, up to less than a unit in the last place: no double is between the power and what is computed, and the power is exact
when it is a double. -/
structure IsPower (pw : ℝ → ℝ → ℝ) : Prop where
  double : ∀ x y, IsDouble x → IsDouble y → 0 < x → IsDouble (pw x y)
  above : ∀ x y z, IsDouble x → IsDouble y → 0 < x → IsDouble z → z ≤ x ^ y → z ≤ pw x y
  below : ∀ x y z, IsDouble x → IsDouble y → 0 < x → IsDouble z → x ^ y ≤ z → pw x y ≤ z

end Fog.Spec
