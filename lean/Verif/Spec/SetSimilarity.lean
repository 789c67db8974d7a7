import Mathlib.Data.Finset.Card
import Mathlib.Data.Rat.Defs

/-!
# Specification: similarity of sets

Independent of the code.
-/

namespace Fog.Spec

variable {τ : Type _} [DecidableEq τ]

/-- The Jaccard index of two sets: the size of the intersection over the size of the union. -/
def jaccard (A B : Finset τ) : ℚ := ((A ∩ B).card : ℚ) / ((A ∪ B).card : ℚ)

/-- The overlap coefficient of two sets: the size of the intersection over the size of the smaller one. -/
def overlap (A B : Finset τ) : ℚ := ((A ∩ B).card : ℚ) / ((min A.card B.card : ℕ) : ℚ)

/-- The Dice coefficient of two sets. -/
def dice (A B : Finset τ) : ℚ := (2 * (A ∩ B).card : ℚ) / ((A.card + B.card : ℕ) : ℚ)

/-- The set of tokens of record `i`. -/
def tokenSet (records : List (List τ)) (i : Nat) : Finset τ := ((records[i]?).getD []).toFinset

end Fog.Spec
