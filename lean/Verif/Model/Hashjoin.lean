import Verif.Model.Py

/-!
# Model of `fog/join/hashjoin.py`

Left out: the warning of l. 40-46.
-/

namespace Fog.Hashjoin

variable {α κ : Type _} [DecidableEq κ]

/-- An iterable: a list, or a one-shot iterator, which has no length and is empty after a first iteration (hashjoin.py l. 19-22). -/
structure Iterable (α : Type _) where
  items : List α
  oneShot : Bool

/-- What is given by iterating upon `B` after `n` other iterations (hashjoin.py l. 53, 68). -/
def Iterable.again (B : Iterable α) (n : Nat) : List α := if B.oneShot && decide (n ≠ 0) then [] else B.items

/-- The two nested loops (hashjoin.py l. 50-61 and l. 65-76), once `A` and `B` have both been iterated upon `before` times.
`matches_ j a b` is the condition for the `j`-th iteration of the inner loop. -/
def loops (A B : Iterable α) (invert : Bool) (before : Nat) (matches_ : Nat → α → α → Bool) : List (α × α) :=
  (A.again before).zipIdx.flatMap fun (a, i) =>
    (B.again (before + i)).zipIdx.flatMap fun (b, j) =>
      if matches_ j a b then [if invert then (b, a) else (a, b)] else []

/-- Whether `left` and `right` are swapped (hashjoin.py l. 29-38): `len` raises a `TypeError` on one-shot iterators. -/
def swaps (left right : Iterable α) : Bool :=
  !left.oneShot && !right.oneShot && decide (left.items.length > right.items.length)

/-- `keys(x)`: the keys, and whether they are given by a generator (hashjoin.py l. 66, 69). -/
structure Keys (κ : Type _) where
  items : List κ
  oneShot : Bool

/-- `len(list(set(key_a) & set(key_b))) > 0` (hashjoin.py l. 71): the generator `key_a` has been consumed by the previous
iterations of the inner loop; `key_b` is new. -/
def shareKey (j : Nat) (key_a key_b : Keys κ) : Bool :=
  (if key_a.oneShot && decide (j ≠ 0) then [] else key_a.items).any fun k => decide (k ∈ key_b.items)

/-- `hashjoin(left, right, key, keys)` (hashjoin.py l. 11-76). -/
def hashjoin (left right : Iterable α) (key : Option (α → κ)) (keys : Option (α → Keys κ)) : List (α × α) :=
  let invert := swaps left right
  let A := if invert then right else left
  let B := if invert then left else right
  let first := match key with
    | some key => loops A B invert 0 fun _ a b => decide (key a = key b)
    | none => []
  let before := if key.isSome then 1 else 0
  let second := match keys with
    | some keys => loops A B invert before fun j a b => shareKey j (keys a) (keys b)
    | none => []
  first ++ second

end Fog.Hashjoin
