import Mathlib.Order.Defs.LinearOrder

/-!
# Specification: approximate nearest neighbors

Independent of the code.
-/

namespace Fog.Spec

variable {α K : Type} [LinearOrder K]

/-- A table of neighbors: every item of `V` has `k` of them, each another item with a similarity accepted by `Ok`. -/
structure IsTable (V : List α) (Ok : α → α → K → Prop) (k : Nat) (B : List (List (K × Nat))) : Prop where
  length : B.length = V.length
  size : ∀ (i : Nat) (l : List (K × Nat)), B[i]? = some l → l.length = k
  entry : ∀ (i : Nat) (l : List (K × Nat)) (s : K) (j : Nat), B[i]? = some l → (s, j) ∈ l →
    j ≠ i ∧ ∃ x y, V[i]? = some x ∧ V[j]? = some y ∧ Ok x y s

/-- One is among the neighbors of the other. -/
def Near (B : List (List (K × Nat))) (i j : Nat) : Prop :=
  (∃ l s, B[i]? = some l ∧ (s, j) ∈ l) ∨ ∃ l s, B[j]? = some l ∧ (s, i) ∈ l

/-- No neighbor of a neighbor of an item is more similar to it than any of its neighbors. -/
def LocallyOptimal (V : List α) (similarity : α → α → K) (B : List (List (K × Nat))) : Prop :=
  ∀ i j m x y, Near B i j → Near B j m → i ≠ m → V[i]? = some x → V[m]? = some y →
    ∀ l s n, B[i]? = some l → (s, n) ∈ l → similarity x y ≤ s

/-- `pairs` are the neighbors which are similar enough. -/
def LinksOf (radius : K) (B : List (List (K × Nat))) (pairs : List (Nat × Nat)) : Prop :=
  ∀ i j, (i, j) ∈ pairs ↔ ∃ l s, B[i]? = some l ∧ (s, j) ∈ l ∧ radius ≤ s

end Fog.Spec
