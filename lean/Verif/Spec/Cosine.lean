import Mathlib.Data.Finset.Card
import Mathlib.Analysis.Real.Sqrt

/-!
# Specification: cosine similarity

Independent of the code.
-/

namespace Fog.Spec

variable {τ : Type _} [DecidableEq τ]

/-- The cosine similarity of two sets seen as vectors of zeros and ones. -/
noncomputable def binaryCosine (A B : Finset τ) : ℝ := ((A ∩ B).card : ℝ) / Real.sqrt ((A.card : ℝ) * B.card)

end Fog.Spec
