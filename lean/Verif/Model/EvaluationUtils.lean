import Verif.Model.Dict
import Verif.Model.Py

/-!
# Model of `fog/evaluation/utils.py`
-/

namespace Fog.EvaluationUtils

variable {ι lbl κ α : Type _} [DecidableEq lbl] [DecidableEq κ]

/-- The loop of `labels_to_clusters` (evaluation/utils.py l. 25-34), on the pairs of an item and its label: those of a mapping,
those of `enumerate` for a sequence, or those of any iterable. -/
def labelsToClusters (iterator : List (ι × lbl)) : List (List ι) :=
  let clusters : Dict lbl (List ι) := iterator.foldl (fun clusters p =>
    match clusters.get? p.2 with
    | none => clusters.set p.2 [p.1]
    | some c => clusters.set p.2 (c ++ [p.1])) []
  clusters.map Prod.snd

/-- `enumerate(labels)` (evaluation/utils.py l. 23). -/
def enumerate (labels : List lbl) : List (Nat × lbl) := labels.zipIdx.map fun p => (p.2, p.1)

/-- `clusters_to_labels(clusters, key=key)` (evaluation/utils.py l. 37-47 and l. 57). -/
def clustersToLabels (key : α → κ) (clusters : List (List α)) : Dict κ Nat :=
  clusters.zipIdx.foldl (fun labels p => p.1.foldl (fun labels item => labels.set (key item) p.2) labels) []

/-- `clusters_to_labels(clusters, key=key, flat=True)` (evaluation/utils.py l. 49-55), for keys which are natural numbers. -/
def clustersToFlatLabels (key : α → Nat) (clusters : List (List α)) : Py (List Int) :=
  let labels := clustersToLabels key clusters
  labels.foldlM (fun (flat_labels : List Int) p =>
    if p.1 < flat_labels.length then Except.ok (flat_labels.set p.1 p.2) else .error .indexError)
    (List.replicate labels.length (-1))

end Fog.EvaluationUtils
