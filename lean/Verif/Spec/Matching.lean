import Mathlib.Algebra.Order.Ring.Rat
import Mathlib.Algebra.Field.Rat

/-!
# Matching of clusters
-/

namespace Fog.Spec

variable {α : Type _} [DecidableEq α]

/-- The number of items of `t` which are in `c`. -/
def hits (t c : List α) : Nat := (t.filter fun x => decide (x ∈ c)).length

/-- The number of items of the predicted cluster `c` which exist in the truth. -/
def known (truth : List (List α)) (c : List α) : Nat := (c.filter fun x => decide (∃ t ∈ truth, x ∈ t)).length

/-- Precision of the predicted cluster `c` for the truth cluster `t`. -/
def precision (truth : List (List α)) (t c : List α) : Rat := hits t c / known truth c

/-- Recall of the predicted cluster `c` for the truth cluster `t`. -/
def recall (t c : List α) : Rat := hits t c / t.length

/-- F1 score of the predicted cluster `c` for the truth cluster `t`. -/
def f1 (truth : List (List α)) (t c : List α) : Rat := 2 * hits t c / (t.length + known truth c)

/-- `c` is a best predicted cluster for `t`: it has an item in common with it, and no other has a greater F1 score. -/
def IsBest (truth predicted : List (List α)) (t c : List α) : Prop :=
  c ∈ predicted ∧ 0 < hits t c ∧ ∀ c' ∈ predicted, f1 truth t c' ≤ f1 truth t c

/-- `c` is the first best predicted cluster for `t`, in the order of the items of `t`. -/
def IsFirstBest (truth predicted : List (List α)) (t c : List α) : Prop :=
  IsBest truth predicted t c ∧ ∃ pre x post, t = pre ++ x :: post ∧ x ∈ c ∧
    ∀ y ∈ pre, ∀ c' ∈ predicted, y ∈ c' → f1 truth t c' < f1 truth t c

/-- What truth and predicted clusters have to satisfy. -/
structure Comparable (truth predicted : List (List α)) (additional : Bool) : Prop where
  truth_ne : truth ≠ []
  predicted_ne : predicted ≠ []
  truth_clusters : ∀ t ∈ truth, t ≠ []
  predicted_clusters : ∀ c ∈ predicted, c ≠ []
  no_additional : additional = false → ∀ c ∈ predicted, ∀ x ∈ c, ∃ t ∈ truth, x ∈ t
  covered : ∀ t ∈ truth, ∀ x ∈ t, ∃ c ∈ predicted, x ∈ c
  disjoint : (predicted.flatten.filter fun x => decide (∃ t ∈ truth, x ∈ t)).Nodup

/-- The mean of some numbers. -/
def mean (l : List Rat) : Rat := l.sum / l.length

end Fog.Spec
