import Mathlib.Order.Bounds.Basic
import Mathlib.Algebra.Order.Floor.Ring
import Mathlib.Data.Rat.Floor

/-!
# Specification: SuperMinHash signatures

From the article of Otmar Ertl: each token shuffles the positions at random, and gives the position at rank `j` the value `j` plus a random
number. The signature keeps the least value of each position.
-/

namespace Fog.Spec

/-- The list `l` with the items at `i` and `j` swapped. -/
def swapAt (l : List Nat) (i j : Nat) : List Nat := (l.set i (l.getD j 0)).set j (l.getD i 0)

/-- The first `n` turns of the shuffle of Fisher and Yates on `0, ..., m - 1`: turn `j` swaps the positions `j` and `k j`. -/
def fisherYates (k : Nat → Nat) (m : Nat) : Nat → List Nat
  | 0 => List.range m
  | n + 1 => swapAt (fisherYates k m n) n (k n)

/-- The position drawn at turn `j` among those from `j` to `m - 1`, when the random number is `r j`. -/
def drawn (r : Nat → ℚ) (m j : Nat) : Nat := j + ⌊r j * ((m : ℚ) - j)⌋.toNat

/-- The values given to a position by a token whose random numbers are `r`. -/
def GivesValue (r : Nat → ℚ) (m pos : Nat) (v : ℚ) : Prop :=
  ∃ j, j < m ∧ (fisherYates (drawn r m) m m)[j]? = some pos ∧ v = r j + j

/-- The values considered for a position: those given by the tokens, and `m + 1`. -/
def candidateValues (rand : Nat → Nat → ℚ) (m : Nat) (tokens : List Nat) (pos : Nat) : Set ℚ :=
  {v | v = m + 1 ∨ ∃ token ∈ tokens, GivesValue (rand token) m pos v}

/-- The signature keeps the integer part of the least value of each position. -/
def IsSuperSignature (rand : Nat → Nat → ℚ) (m : Nat) (tokens : List Nat) (signature : List Int) : Prop :=
  signature.length = m ∧ ∀ pos < m, ∃ v, IsLeast (candidateValues rand m tokens pos) v ∧ signature[pos]? = some ⌊v⌋

end Fog.Spec
