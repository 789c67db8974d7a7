import Mathlib.Data.Real.Basic

/-!
# Specification: sums in double precision

Independent of the code.
-/

namespace Fog.Spec

/-- The sum of numbers which are added one after the other, rounding by `fl` each time. -/
noncomputable def roundedSum (fl : ℝ → ℝ) (l : List ℝ) : ℝ := l.foldl (fun s x => fl (s + x)) 0

end Fog.Spec
