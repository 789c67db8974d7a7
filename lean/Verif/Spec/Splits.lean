import Mathlib.Algebra.Field.Defs
import Mathlib.Order.Defs.LinearOrder

/-!
# Specification: lists split around pivots

Independent of the code.
-/

namespace Fog.Spec

/-- A list is split until it fits in `size` items: around a pivot, the items which are more similar to it than `beta` times what another
item is go to one side, the others to the other side. -/
inductive Splits {α K : Type _} [Field K] [LinearOrder K] (similarity : α → α → K) (beta : K) (size : Nat) :
    List α → List (List α) → Prop where
  | leaf (S : List α) : S.length ≤ size → Splits similarity beta size S [S]
  | node (S : List α) (p q : α) (near far : List (List α)) : size < S.length → p ∈ S → q ∈ S →
      Splits similarity beta size (S.filter fun x => decide (beta * similarity p q < similarity p x)) near →
      Splits similarity beta size (S.filter fun x => decide (similarity p x ≤ beta * similarity p q)) far →
      Splits similarity beta size S (near ++ far)

end Fog.Spec
