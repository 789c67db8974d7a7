/-!
# Specification: the pieces of a string and where they are looked for

Independent of the code.
-/

namespace Fog.Spec

/-- Where the piece `i` starts when `n` characters are cut in `m` pieces, of equal lengths but for the last ones which are longer by one. -/
def cut (m n i : Nat) : Nat := i * (n / m) + (i - (m - n % m))

/-- The piece `i` of a string cut in `m` pieces. -/
def piece {α : Type _} (m : Nat) (s : List α) (i : Nat) : List α :=
  (s.drop (cut m s.length i)).take (cut m s.length (i + 1) - cut m s.length i)

/-- A string has `p` at a place. -/
def HasAt {α : Type _} (s p : List α) (j : Nat) : Prop := (s.drop j).take p.length = p

/-- The place `j` of a string of `s` characters is one where a piece is looked for: the piece `i` of `k + 1`, which starts at `c` and has `p`
characters, of a string of `n` characters. It moves by `i` at most, and what remains by `k - i` at most. -/
def Reachable (k s n i c p j : Nat) : Prop :=
  c ≤ j + i ∧ j ≤ c + i ∧ c + s ≤ j + n + (k - i) ∧ j + n ≤ c + s + (k - i) ∧ j + p ≤ s

/-- The piece `i` of `b` is found in `a` at a place. -/
def FoundAt {α : Type _} (k : Nat) (a b : List α) (i j : Nat) : Prop :=
  Reachable k a.length b.length i (cut (k + 1) b.length i) (piece (k + 1) b i).length j ∧ HasAt a (piece (k + 1) b i) j

open Classical in
/-- How many times the pieces of `b` are found in `a`; when a piece is found at consecutive places, only the first one counts. -/
noncomputable def finds {α : Type _} (k : Nat) (a b : List α) : Nat :=
  ((List.range (k + 1)).map fun i =>
    (List.range (a.length + 1)).countP fun j => decide (FoundAt k a b i j ∧ ∀ j', j = j' + 1 → ¬ FoundAt k a b i j')).sum

end Fog.Spec
