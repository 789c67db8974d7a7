import Verif.Spec.Binary64
import Mathlib.Analysis.SpecialFunctions.Log.Base

/-!
# Specification: logarithms of doubles

Independent of the code.
-/

namespace Fog.Spec

/-- The logarithm in base two of doubles, up to less than a unit in the last place: no double is between the logarithm and what is computed, and
the logarithm is exact when it is a double. -/
structure IsLog2 (lg : ℝ → ℝ) : Prop where
  double : ∀ x, IsDouble x → 0 < x → IsDouble (lg x)
  above : ∀ x z, IsDouble x → 0 < x → IsDouble z → z ≤ Real.logb 2 x → z ≤ lg x
  below : ∀ x z, IsDouble x → 0 < x → IsDouble z → Real.logb 2 x ≤ z → lg x ≤ z

/-- The same of natural logarithms. -/
structure IsLog (ln : ℝ → ℝ) : Prop where
  double : ∀ x, IsDouble x → 0 < x → IsDouble (ln x)
  above : ∀ x z, IsDouble x → 0 < x → IsDouble z → z ≤ Real.log x → z ≤ ln x
  below : ∀ x z, IsDouble x → 0 < x → IsDouble z → Real.log x ≤ z → ln x ≤ z

end Fog.Spec
