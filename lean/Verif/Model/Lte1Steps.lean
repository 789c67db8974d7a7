import Verif.Model.Levenshtein

/-!
# Model of the predicates of `cfog/metrics/levenshtein.pyx`: the steps

The functions of `Verif.Model.Levenshtein` which tell whether the distance is at most one, which also count the turns of their loops.
-/

namespace Fog.Levenshtein

variable {α : Type _} [DecidableEq α]

/-- One more turn. -/
def turn (r : Bool × Nat) : Bool × Nat := (r.1, r.2 + 1)

/-- Loop searching for an addition (levenshtein.pyx l. 309-322 and 386-399), with its turns. -/
def additionSteps : List α → List α → Bool → Bool × Nat
  | [], _, _ => (true, 0)
  | _ :: _, [], _ => (false, 0)
  | a :: as, b :: bs, cost1 =>
      if a = b then turn (additionSteps as bs cost1)
      else if cost1 then (false, 1)
      else turn (additionSteps (a :: as) bs true)
termination_by _ bs => bs.length

/-- Loop searching for a substitution (levenshtein.pyx l. 327-339), with its turns. -/
def substitutionSteps : List α → List α → Bool → Bool × Nat
  | a :: as, b :: bs, cost1 =>
      if a ≠ b then (if cost1 then (false, 1) else turn (substitutionSteps as bs true))
      else turn (substitutionSteps as bs cost1)
  | _, _, _ => (true, 0)

/-- Loop searching for a substitution or a transposition (levenshtein.pyx l. 404-422), with its turns. -/
def transpositionSteps : List α → List α → Bool → Bool × Nat
  | a :: a' :: as, b :: b' :: bs, cost1 =>
      if a ≠ b then
        if cost1 then (false, 1)
        else if a' = b ∧ b' = a then turn (transpositionSteps as bs true)
        else turn (transpositionSteps (a' :: as) (b' :: bs) true)
      else turn (transpositionSteps (a' :: as) (b' :: bs) cost1)
  | [a], b :: _, cost1 => (if a ≠ b then !cost1 else true, 1)
  | _, _, _ => (true, 0)
termination_by as => as.length

/-- Common shape of both predicates once lengths are ordered (levenshtein.pyx l. 293-341 and 370-424), with the turns. -/
def lte1OrderedSteps (same_length : List α → List α → Bool → Bool × Nat) (A B : List α) : Bool × Nat :=
  if A.length = 0 then (decide (B.length = 1), 0)
  else if B.length - A.length > 1 then (false, 0)
  else if B.length - A.length = 1 then additionSteps A B false
  else same_length A B false

/-- `levenshtein_distance_lte1(A, B)` (levenshtein.pyx l. 267-341), with its turns. -/
def levenshteinLte1Steps (identical : Bool) (A B : List α) : Bool × Nat :=
  if identical then (true, 0)
  else if A.length > B.length then lte1OrderedSteps substitutionSteps B A
  else lte1OrderedSteps substitutionSteps A B

/-- `damerau_levenshtein_distance_lte1(A, B)` (levenshtein.pyx l. 344-424), with its turns. -/
def damerauLte1Steps (identical : Bool) (A B : List α) : Bool × Nat :=
  if identical then (true, 0)
  else if A.length > B.length then lte1OrderedSteps transpositionSteps B A
  else lte1OrderedSteps transpositionSteps A B

end Fog.Levenshtein
