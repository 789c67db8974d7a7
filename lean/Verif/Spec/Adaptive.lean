import Mathlib.Data.List.Basic

/-!
# The blocks of the adaptive sorted neighborhood method

Nothing here refers to the model. Items are in order, and blocks are of positions.
-/

namespace Fog.Spec

variable {α : Type _}

/-- The items at two positions are similar. -/
def SimilarAt (similarity : α → α → Bool) (S : List α) (i j : Nat) : Prop :=
  ∃ a b, S[i]? = some a ∧ S[j]? = some b ∧ similarity a b = true

/-- The ends of the windows which begin at `first`: it, then a whole window, and then twice as far each time. -/
def reach (window first : Nat) : Nat → Nat
  | 0 => first
  | k + 1 => first + (window - 1) * 2 ^ k

/-- The window which begins at `first` grows `k` times: each of its ends is similar to the one before. -/
def Grows (similarity : α → α → Bool) (S : List α) (window first k : Nat) : Prop :=
  ∀ i < k, SimilarAt similarity S (reach window first i) (reach window first (i + 1))

/-- The position `last` is where the window shrinks to, from `stop`: the last one which is similar to the one before, or the end of the first
window. -/
structure ShrinksTo (similarity : α → α → Bool) (S : List α) (window first stop last : Nat) : Prop where
  lower : first + (window - 1) ≤ last
  upper : last ≤ stop
  here : last = first + (window - 1) ∨ SimilarAt similarity S (last - 1) last
  after : ∀ q, last < q → q ≤ stop → ¬ SimilarAt similarity S (q - 1) q

/-- The blocks from `first` on; `none` when an end of a window which grows is beyond the items. -/
inductive BlocksFrom (similarity : α → α → Bool) (S : List α) (window : Nat) : Nat → Option (List (Nat × Nat)) → Prop
  | done {first : Nat} : S.length ≤ first → BlocksFrom similarity S window first (some [])
  | rest {first : Nat} : first < S.length → S.length ≤ first + (window - 1) →
      BlocksFrom similarity S window first (some [(first, S.length - 1)])
  | beyond {first : Nat} (k : Nat) : Grows similarity S window first (k + 1) → S.length ≤ reach window first (k + 2) →
      BlocksFrom similarity S window first none
  | block {first : Nat} (k last : Nat) (r : Option (List (Nat × Nat))) : Grows similarity S window first k →
      reach window first (k + 1) < S.length → ¬ SimilarAt similarity S (reach window first k) (reach window first (k + 1)) →
      ShrinksTo similarity S window first (reach window first (k + 1)) last → BlocksFrom similarity S window (last + 1) r →
      BlocksFrom similarity S window first (r.map ((first, last) :: ·))

end Fog.Spec
