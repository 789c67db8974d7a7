import Mathlib.Data.Fintype.Card
import Mathlib.Data.Real.Basic
import Mathlib.Algebra.BigOperators.Group.Finset.Defs

/-!
# Chances and means over a finite set of outcomes, all as likely
-/

namespace Fog.Spec

open Classical in
/-- The share of the outcomes for which `E` holds. -/
noncomputable def share {Ω : Type _} [Fintype Ω] (E : Ω → Prop) : ℝ :=
  ((Finset.univ.filter E).card : ℝ) / (Fintype.card Ω : ℝ)

/-- The mean of `X` over the outcomes. -/
noncomputable def average {Ω : Type _} [Fintype Ω] (X : Ω → ℝ) : ℝ := (∑ o, X o) / (Fintype.card Ω : ℝ)

end Fog.Spec
