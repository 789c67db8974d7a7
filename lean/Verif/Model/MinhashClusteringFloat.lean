import Verif.Model.MinhashClustering
import Verif.Model.MetricsFloat

/-!
# Model of `minhash` of `fog/clustering/minhash.py` with a similarity in floating point numbers

As in `Verif.Model.MinhashClustering`, but the Jaccard similarity of `double_check` is rounded by `fl`. Simplified: the number of bands is
given.
-/

namespace Fog.MinhashClusteringFloat

open Minhash KeyCollision ClusteringUtils MinhashClustering

variable {α τ : Type _} [DecidableEq α] [DecidableEq τ]

open Classical in
/-- `minhash(data, h, key, radius, bands, seed=seed)` (clustering/minhash.py l. 94-157), without numpy and with a number of bands. -/
noncomputable def minhash (fl : ℝ → ℝ) (ord : α → List α → List α) (setOrd : List Nat → List Nat) (hash : τ → Nat)
    (params : List (Nat × Nat)) (same : α → α → Bool) (keyOf : α → List τ) (data : List α) (radius : ℝ) (bands : Nat) : Py (List (List α)) :=
  let h := params.length
  if bands = 0 then .error .zeroDivisionError
  else
    let rows := h / bands
    if data ≠ [] ∧ rows = 0 then .error .valueError
    else
      let entries := data.flatMap fun item =>
        (bandKeys bands rows (createSignature setOrd hash params (keyOf item))).map fun k => (k, item)
      clustersFromBuckets ord ((bucketsOf entries).map Prod.snd) 2 none .connectedComponents
        (some fun A B => decide (radius ≤ MetricsFloat.jaccardSimilarity fl (same A B) (keyOf A) (keyOf B))) false

end Fog.MinhashClusteringFloat
