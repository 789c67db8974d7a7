import Mathlib.Data.List.Nodup

/-!
# What a turn of NN-Descent compares and keeps

Nothing here refers to the model. A neighbor is `(s, j, flag)`: its similarity, which item it is, and whether it is new.
-/

namespace Fog.Spec

variable {K : Type}

/-- The item `j`, of similarity `s`, is in the list, or all of the list is at least as similar. -/
def Kept [LE K] (l : List (K × Nat)) (s : K) (j : Nat) : Prop := (s, j) ∈ l ∨ ∀ e ∈ l, s ≤ e.1

/-- `s` has `n` different members of `all`, or all of them if there are less. -/
structure SampleOf (n : Nat) (all s : List Nat) : Prop where
  nodup : s.Nodup
  mem : ∀ x ∈ s, x ∈ all
  length : s.length = min n all.length

/-- The places of a list which have a new neighbor. -/
def newPlaces (l : List (K × Nat × Bool)) : List Nat :=
  (List.range l.length).filter fun p => match l[p]? with
    | some e => e.2.2
    | none => false

/-- The pairs compared by a turn, for some places sampled among new neighbors: `old i` and `new i` are the neighbors which are old, and those at the
sampled places, and `old' i` and `new' i` are a sample of the items of which `i` is such a neighbor. The new ones are compared between them, and
with the old ones. -/
def Compared (n : Nat) (B : List (List (K × Nat × Bool))) (places : Nat → List Nat) (pairs : List (Nat × Nat)) : Prop :=
  ∃ old new old' new' : Nat → List Nat,
    (∀ i l, B[i]? = some l → SampleOf n (newPlaces l) (places i) ∧ (∀ j, j ∈ old i ↔ ∃ s, (s, j, false) ∈ l) ∧
      ∀ j, j ∈ new i ↔ ∃ p ∈ places i, ∃ s, l[p]? = some (s, j, true)) ∧
    (∀ i < B.length, SampleOf n ((List.range B.length).filter fun a => decide (i ∈ old a)) (old' i) ∧
      SampleOf n ((List.range B.length).filter fun a => decide (i ∈ new a)) (new' i)) ∧
    ∀ u v, (u, v) ∈ pairs ↔ ∃ i < B.length, (u ∈ new i ∨ u ∈ new' i) ∧
      (((v ∈ new i ∨ v ∈ new' i) ∧ u < v) ∨ ((v ∈ old i ∨ v ∈ old' i) ∧ u ≠ v))

end Fog.Spec
