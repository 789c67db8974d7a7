import Verif.Model.Hashjoin

/-!
# Model of `fog/join/hashjoin.py`: the calls of the key function

The loops of `Verif.Model.Hashjoin`, as the list of what they do.
-/

namespace Fog.Hashjoin

variable {α κ : Type _} [DecidableEq κ]

/-- A step of the loops: a call of `key` or `keys` (hashjoin.py l. 51, 54, 66, 69), or a pair which is yielded (l. 59, 61, 74, 76). -/
inductive Step (α : Type _)
  | call (item : α)
  | pair (p : α × α)

/-- The item on which the key function is called. -/
def Step.called? : Step α → Option α
  | .call item => some item
  | .pair _ => none

/-- The pair which is yielded. -/
def Step.pair? : Step α → Option (α × α)
  | .call _ => none
  | .pair p => some p

/-- The two nested loops (hashjoin.py l. 50-61 and l. 65-76), as `loops`. -/
def loopsSteps (A B : Iterable α) (invert : Bool) (before : Nat) (matches_ : Nat → α → α → Bool) : List (Step α) :=
  (A.again before).zipIdx.flatMap fun (a, i) =>
    .call a :: (B.again (before + i)).zipIdx.flatMap fun (b, j) =>
      .call b :: if matches_ j a b then [.pair (if invert then (b, a) else (a, b))] else []

/-- `hashjoin(left, right, key, keys)` (hashjoin.py l. 11-76), as `hashjoin`. -/
def hashjoinSteps (left right : Iterable α) (key : Option (α → κ)) (keys : Option (α → Keys κ)) : List (Step α) :=
  let invert := swaps left right
  let A := if invert then right else left
  let B := if invert then left else right
  let first := match key with
    | some key => loopsSteps A B invert 0 fun _ a b => decide (key a = key b)
    | none => []
  let before := if key.isSome then 1 else 0
  let second := match keys with
    | some keys => loopsSteps A B invert before fun j a b => shareKey j (keys a) (keys b)
    | none => []
  first ++ second

end Fog.Hashjoin
