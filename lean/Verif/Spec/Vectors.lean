import Mathlib.Algebra.BigOperators.Group.Finset.Defs
import Mathlib.Algebra.Field.Defs
import Mathlib.Order.Defs.LinearOrder
import Mathlib.Analysis.Real.Sqrt

/-!
# Specification: weighted similarities

Independent of the code. A sparse vector is a function which is zero outside of a finite set of keys.
-/

namespace Fog.Spec

variable {κ : Type _}

/-- The weighted Jaccard index over a set of keys: sum of the minima over sum of the maxima. -/
def weightedJaccard {K : Type _} [Field K] [LinearOrder K] (S : Finset κ) (f g : κ → K) : K :=
  (∑ k ∈ S, min (f k) (g k)) / (∑ k ∈ S, max (f k) (g k))

/-- The dot product. -/
noncomputable def dot (S : Finset κ) (f g : κ → ℝ) : ℝ := ∑ k ∈ S, f k * g k

/-- The norm. -/
noncomputable def norm (S : Finset κ) (f : κ → ℝ) : ℝ := Real.sqrt (dot S f f)

/-- The cosine of the angle of two vectors. -/
noncomputable def cosine (S : Finset κ) (f g : κ → ℝ) : ℝ := dot S f g / (norm S f * norm S g)

end Fog.Spec
