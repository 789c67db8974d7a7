import Mathlib.Algebra.BigOperators.Group.List.Basic
import Mathlib.Order.Defs.LinearOrder

/-!
# Specification: greedy choice of far away points

Independent of the code.
-/

namespace Fog.Spec

variable {K : Type _} [AddCommMonoid K] [LinearOrder K]

/-- The indices `bs` (below `n`) are chosen one after the other: each is not among the `taken` ones, and its sum of distances
`w` to the `used` ones is the largest among the not taken. A chosen index is then both used and taken. -/
def Greedy (w : Nat → Nat → K) (n : Nat) : (used taken bs : List Nat) → Prop
  | _, _, [] => True
  | used, taken, b :: bs =>
      (b < n ∧ b ∉ taken ∧
        ∀ j : Nat, j < n → j ∉ taken → (used.map fun u => w u j).sum ≤ (used.map fun u => w u b).sum) ∧
      Greedy w n (used ++ [b]) (taken ++ [b]) bs

/-- The same with any score of an index given the used ones, in place of the sum of the distances. -/
def GreedyBy {L : Type _} [LinearOrder L] (score : List Nat → Nat → L) (n : Nat) : (used taken bs : List Nat) → Prop
  | _, _, [] => True
  | used, taken, b :: bs =>
      (b < n ∧ b ∉ taken ∧ ∀ j : Nat, j < n → j ∉ taken → score used j ≤ score used b) ∧
      GreedyBy score n (used ++ [b]) (taken ++ [b]) bs

/-- `x` is one of the items whose indices are `p`. -/
def IsPivot {α : Type _} (data : List α) (p : List Nat) (x : α) : Prop := ∃ u ∈ p, data[u]? = some x

end Fog.Spec
