/-!
# Python values used by all models

Not tied to one file: the exceptions that modelled functions may raise.
-/

namespace Fog

/-- Python exceptions, as values (for instance clustering/utils.py l. 128). -/
inductive PyErr
  | indexError | keyError | typeError | valueError | zeroDivisionError | attributeError | assertionError
  | runtimeError | stopIteration | statisticsError
  deriving DecidableEq, Repr

/-- Outcome of a Python function that may raise (for instance ngrams.py l. 40-48). -/
abbrev Py (α : Type _) := Except PyErr α

/-- Python slice `s[i:j]` for `0 ≤ i` and `0 ≤ j` (for instance clustering/utils.py l. 214-215). -/
def slice {α : Type _} (s : List α) (i j : Nat) : List α := (s.take j).drop i

/-- Python `range(a, b)` for natural numbers (for instance clustering/utils.py l. 139, 142). -/
def pyRange (a b : Nat) : List Nat := List.range' a (b - a)

/-- The elements of `set(l)`, each once (for instance intersection_index.py l. 77). The order is the one of the last occurrences; models which iterate over a set
apply an arbitrary reordering to it. -/
def dedup {α : Type _} [DecidableEq α] : List α → List α
  | [] => []
  | a :: l => if a ∈ l then dedup l else a :: dedup l

end Fog
