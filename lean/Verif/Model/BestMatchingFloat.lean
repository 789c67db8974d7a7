import Verif.Model.BestMatching
import Mathlib.Data.Real.Basic

/-!
# Model of `fog/evaluation/best_matching.py` in double precision

`fl` is the rounding done after each operation on floats, as in `Verif/Model/MetricsFloat.lean`: the division of two integers is
rounded once, and integers are converted to the nearest double before they are mixed with floats. Overflow is left out. What is
done on integers (the indices and the counts) is that of `Verif/Model/BestMatching.lean`.
-/

namespace Fog.BestMatchingFloat

open Utils BestMatching

variable {α : Type _} [DecidableEq α]

/-- A precision, a recall and an F1 score (best_matching.py l. 123, 131-135). -/
abbrev Scores := ℝ × ℝ × ℝ

/-- The division `a / b` (best_matching.py l. 117-119). -/
noncomputable def div (fl : ℝ → ℝ) (a b : ℝ) : Py ℝ := if b = 0 then .error .zeroDivisionError else .ok (fl (a / b))

/-- One turn of the loop on candidates (best_matching.py l. 111-123). The state is `best_f1` and `best`. -/
noncomputable def tryCandidate (fl : ℝ → ℝ) (sizes : Dict Nat Nat) (cluster_size : Nat) (st : ℝ × Option Scores) (p : Nat × Nat) :
    Py (ℝ × Option Scores) :=
  match sizes.get? p.1 with
  | none => .error .keyError
  | some size => do
    let false_positives : Int := (size : Int) - p.2
    let false_negatives : Int := (cluster_size : Int) - p.2
    let precision ← div fl (p.2 : ℝ) (((p.2 : Int) + false_positives : Int) : ℝ)
    let recall ← div fl (p.2 : ℝ) (((p.2 : Int) + false_negatives : Int) : ℝ)
    let f1 ← div fl (fl (fl (2 * precision) * recall)) (fl (precision + recall))
    if st.1 < f1 then pure (f1, some (precision, recall, f1)) else pure st

/-- The best scores of a truth cluster (best_matching.py l. 91-125). -/
noncomputable def matchCluster (fl : ℝ → ℝ) (index : Dict α Nat) (sizes : Dict Nat Nat) (cluster : List α) : Py Scores :=
  if cluster = [] then .error .typeError
  else match cluster.foldlM (countItem index) ([], 0) with
    | .error e => .error e
    | .ok (candidates, cluster_size) =>
      match candidates.foldlM (tryCandidate fl sizes cluster_size) (-1, none) with
      | .error e => .error e
      | .ok (_, none) => .error .assertionError
      | .ok (_, some best) => .ok best

/-- `add(x)` of `OnlineMean` (utils.py l. 44-46), `x` being a double. -/
noncomputable def add (fl : ℝ → ℝ) (m : OnlineMean ℝ) (x : ℝ) : OnlineMean ℝ := ⟨fl (m.sum + x), m.n + 1⟩

/-- `peek()` of `OnlineMean` (utils.py l. 72-76), the sum being a double. -/
noncomputable def peek (fl : ℝ → ℝ) (m : OnlineMean ℝ) : Py ℝ :=
  if m.n = 0 then .error .statisticsError else .ok (fl (m.sum / fl m.n))

/-- One turn of the loop on truth clusters (best_matching.py l. 90-129). The state is `P`, `R` and `F`. -/
noncomputable def addScores (fl : ℝ → ℝ) (index : Dict α Nat) (sizes : Dict Nat Nat)
    (st : OnlineMean ℝ × OnlineMean ℝ × OnlineMean ℝ) (cluster : List α) : Py (OnlineMean ℝ × OnlineMean ℝ × OnlineMean ℝ) :=
  match matchCluster fl index sizes cluster with
  | .error e => .error e
  | .ok best => .ok (add fl st.1 best.1, add fl st.2.1 best.2.1, add fl st.2.2 best.2.2)

/-- `best_matching_macro_average(truth, predicted, allow_additional_items)` (best_matching.py l. 21-135). -/
noncomputable def bestMatching (fl : ℝ → ℝ) (truth predicted : List (List α)) (allow : Bool) : Py Scores :=
  if truth.length = 0 then .error .typeError
  else if predicted.length = 0 then .error .typeError
  else match predicted.zipIdx.foldlM (indexCluster (truthItems truth) allow) ([], []) with
    | .error e => .error e
    | .ok (index, sizes) =>
      match truth.foldlM (addScores fl index sizes) (OnlineMean.new, OnlineMean.new, OnlineMean.new) with
      | .error e => .error e
      | .ok (P, R, F) => do
        let p ← peek fl P
        let r ← peek fl R
        let f ← peek fl F
        pure (p, r, f)

end Fog.BestMatchingFloat
