/-!
# Specification: edit distance

Independent of the code.  A string is a list over any alphabet.
-/

namespace Fog.Spec

variable {α : Type _}

/-- One Levenshtein edit: insert, delete or substitute one character anywhere. -/
inductive Edit : List α → List α → Prop
  | insert (u v : List α) (c : α) : Edit (u ++ v) (u ++ c :: v)
  | delete (u v : List α) (c : α) : Edit (u ++ c :: v) (u ++ v)
  | subst (u v : List α) (c d : α) : Edit (u ++ c :: v) (u ++ d :: v)

/-- One Damerau-Levenshtein edit: a Levenshtein edit, or a swap of two adjacent characters. -/
inductive DEdit : List α → List α → Prop
  | edit {a b : List α} : Edit a b → DEdit a b
  | swap (u v : List α) (c d : α) : DEdit (u ++ c :: d :: v) (u ++ d :: c :: v)

/-- `Chain R n a b`: `b` is reached from `a` by exactly `n` steps of `R`. -/
inductive Chain (R : List α → List α → Prop) : Nat → List α → List α → Prop
  | nil (a : List α) : Chain R 0 a a
  | cons {n : Nat} {a b c : List α} : R a b → Chain R n b c → Chain R (n + 1) a c

/-- `n` is the smallest number of edits turning `a` into `b`. -/
def IsEditDistance (a b : List α) (n : Nat) : Prop :=
  Chain Edit n a b ∧ ∀ m, Chain Edit m a b → n ≤ m

/-- The edit distance of `a` and `b` is at most `n`. -/
def WithinEdits (n : Nat) (a b : List α) : Prop :=
  ∃ m, m ≤ n ∧ Chain Edit m a b

/-- At most `n` Damerau-Levenshtein edits turn `a` into `b`. -/
def WithinDEdits (n : Nat) (a b : List α) : Prop :=
  ∃ m, m ≤ n ∧ Chain DEdit m a b

/-- The last letter before the cut `u | v` is the first one after it. -/
def Doubled (u v : List α) : Prop := ∃ x, u.getLast? = some x ∧ v.head? = some x

/-- `B` is `A` with one letter replaced. -/
def ReplacesLetter (A B : List α) : Prop := ∃ u c d v, A = u ++ c :: v ∧ B = u ++ d :: v

/-- `B` is `A` with one letter added, at a place which is not between two equal letters of `A`. -/
def AddsLetter (A B : List α) : Prop := ∃ u c v, A = u ++ v ∧ B = u ++ c :: v ∧ ¬ Doubled u v

/-- `B` is `A` with two different adjacent letters swapped. -/
def SwapsLetters (A B : List α) : Prop := ∃ u c d v, c ≠ d ∧ A = u ++ c :: d :: v ∧ B = u ++ d :: c :: v

/-- Two strings of the same length which differ in at most `n` places. -/
inductive Differ : Nat → List α → List α → Prop
  | nil (n : Nat) : Differ n [] []
  | same {n : Nat} {a b : List α} (x : α) : Differ n a b → Differ n (x :: a) (x :: b)
  | diff {n : Nat} {a b : List α} (x y : α) : Differ n a b → Differ (n + 1) (x :: a) (y :: b)

/-- `B` is `A` with a letter taken away and another put elsewhere. -/
def MovesLetter (A B : List α) : Prop :=
  ∃ u c v d w, (A = u ++ c :: v ++ w ∧ B = u ++ v ++ d :: w) ∨ (B = u ++ c :: v ++ w ∧ A = u ++ v ++ d :: w)

/-- `B` is `A` with the two letters around the end of the first `h` letters swapped, and the two around the start of the last `h` too, in
strings of `3 h + 1` letters. -/
def SwapsBorders (A B : List α) : Prop :=
  ∃ u a b v c d w, u.length = v.length ∧ v.length = w.length ∧ A = u ++ a :: b :: v ++ c :: d :: w ∧ B = u ++ b :: a :: v ++ d :: c :: w

end Fog.Spec
