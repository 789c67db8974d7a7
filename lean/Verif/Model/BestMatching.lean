import Verif.Model.Dict
import Verif.Model.Utils
import Mathlib.Algebra.Order.Ring.Rat
import Mathlib.Algebra.Field.Rat

/-!
# Model of `fog/evaluation/best_matching.py`

Scores are rational numbers instead of floats.
-/

namespace Fog.BestMatching

open Utils

variable {α : Type _} [DecidableEq α]

/-- A precision, a recall and an F1 score (best_matching.py l. 123, 131-135). -/
abbrev Scores := Rat × Rat × Rat

/-- The division `a / b` (best_matching.py l. 117-119). -/
def div (a b : Rat) : Py Rat := if b = 0 then .error .zeroDivisionError else .ok (a / b)

/-- `truth_items` (best_matching.py l. 53-57). -/
def truthItems (truth : List (List α)) : List α := dedup truth.flatten

/-- One turn of the loop on the items of the predicted cluster `i` (best_matching.py l. 69-80). The state is `index` and `l`. -/
def indexItem (truth_items : List α) (allow : Bool) (i : Nat) (st : Dict α Nat × Nat) (item : α) : Py (Dict α Nat × Nat) :=
  if item ∉ truth_items then (if allow = false then .error .typeError else .ok st)
  else if (Dict.get? st.1 item).isSome then .error .typeError
  else .ok (Dict.set st.1 item i, st.2 + 1)

/-- One turn of the loop on predicted clusters (best_matching.py l. 63-82). The state is `index` and `predicted_cluster_sizes`. -/
def indexCluster (truth_items : List α) (allow : Bool) (st : Dict α Nat × Dict Nat Nat) (p : List α × Nat) :
    Py (Dict α Nat × Dict Nat Nat) :=
  if p.1 = [] then .error .typeError
  else match p.1.foldlM (indexItem truth_items allow p.2) (st.1, 0) with
    | .error e => .error e
    | .ok (index, l) => .ok (index, Dict.set st.2 p.2 l)

/-- One turn of the loop on the items of a truth cluster (best_matching.py l. 98-105). The state is `candidates` and
`cluster_size`. -/
def countItem (index : Dict α Nat) (st : Dict Nat Nat × Nat) (item : α) : Py (Dict Nat Nat × Nat) :=
  match index.get? item with
  | none => .error .typeError
  | some candidate => .ok (Dict.update st.1 candidate 0 (· + 1), st.2 + 1)

/-- One turn of the loop on candidates (best_matching.py l. 111-123). The state is `best_f1` and `best`. -/
def tryCandidate (sizes : Dict Nat Nat) (cluster_size : Nat) (st : Rat × Option Scores) (p : Nat × Nat) : Py (Rat × Option Scores) :=
  match sizes.get? p.1 with
  | none => .error .keyError
  | some size => do
    let false_positives : Rat := (size : Rat) - p.2
    let false_negatives : Rat := (cluster_size : Rat) - p.2
    let precision ← div p.2 (p.2 + false_positives)
    let recall ← div p.2 (p.2 + false_negatives)
    let f1 ← div (2 * precision * recall) (precision + recall)
    if st.1 < f1 then pure (f1, some (precision, recall, f1)) else pure st

/-- The best scores of a truth cluster (best_matching.py l. 91-125). -/
def matchCluster (index : Dict α Nat) (sizes : Dict Nat Nat) (cluster : List α) : Py Scores :=
  if cluster = [] then .error .typeError
  else match cluster.foldlM (countItem index) ([], 0) with
    | .error e => .error e
    | .ok (candidates, cluster_size) =>
      match candidates.foldlM (tryCandidate sizes cluster_size) (-1, none) with
      | .error e => .error e
      | .ok (_, none) => .error .assertionError
      | .ok (_, some best) => .ok best

/-- One turn of the loop on truth clusters (best_matching.py l. 90-129). The state is `P`, `R` and `F`. -/
def addScores (index : Dict α Nat) (sizes : Dict Nat Nat) (st : OnlineMean Rat × OnlineMean Rat × OnlineMean Rat) (cluster : List α) :
    Py (OnlineMean Rat × OnlineMean Rat × OnlineMean Rat) :=
  match matchCluster index sizes cluster with
  | .error e => .error e
  | .ok best => .ok (st.1.add best.1, st.2.1.add best.2.1, st.2.2.add best.2.2)

/-- `best_matching_macro_average(truth, predicted, allow_additional_items)` (best_matching.py l. 21-135). -/
def bestMatching (truth predicted : List (List α)) (allow : Bool) : Py Scores :=
  if truth.length = 0 then .error .typeError
  else if predicted.length = 0 then .error .typeError
  else match predicted.zipIdx.foldlM (indexCluster (truthItems truth) allow) ([], []) with
    | .error e => .error e
    | .ok (index, sizes) =>
      match truth.foldlM (addScores index sizes) (OnlineMean.new, OnlineMean.new, OnlineMean.new) with
      | .error e => .error e
      | .ok (P, R, F) => do
        let p ← P.peek
        let r ← R.peek
        let f ← F.peek
        pure (p, r, f)

end Fog.BestMatching
