import Verif.Spec.SuperMinhash
import Mathlib.Data.Real.Archimedean

/-!
# Specification: signatures made of least ranks

Independent of the code. Without the numbers after the point, what a SuperMinHash signature keeps of a token is the rank at which its
shuffle puts each position.
-/

namespace Fog.Spec

/-- The ranks given to a position by the shuffles of the tokens, the one of `token` swapping `j` and `pick token j` at each turn `j`. -/
def ranksGiven (pick : Nat → Nat → Nat) (m : Nat) (tokens : List Nat) (pos : Nat) : Set Nat :=
  {j | j < m ∧ ∃ token ∈ tokens, (fisherYates (pick token) m m)[j]? = some pos}

/-- The signature keeps the least rank of each position, or `m + 1` when there are no tokens. -/
def IsRankSignature (pick : Nat → Nat → Nat) (m : Nat) (tokens : List Nat) (signature : List Int) : Prop :=
  signature.length = m ∧ ∀ pos < m,
    (tokens = [] → signature[pos]? = some ((m : Int) + 1)) ∧
    (tokens ≠ [] → ∃ j, IsLeast (ranksGiven pick m tokens pos) j ∧ signature[pos]? = some (j : Int))

/-- The position drawn at turn `j` among those from `j` to `m - 1`, when the random number is `r` and the product is rounded by `fl`. -/
noncomputable def roundedDraw (fl : ℝ → ℝ) (r : ℝ) (m j : Nat) : Nat := j + ⌊fl (r * ((m : ℝ) - j))⌋.toNat

/-- A number of `random.random()`: a multiple of `2 ** -53` from 0 to 1 (excluded). -/
def IsRandomNumber (r : ℝ) : Prop := ∃ k : Nat, k < 2 ^ 53 ∧ r = (k : ℝ) / 2 ^ 53

end Fog.Spec
