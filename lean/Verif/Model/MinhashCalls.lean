import Verif.Model.MinhashClustering

/-!
# Model of `minhash` of `fog/clustering/minhash.py`: the calls of `double_check`

What `Verif.Model.MinhashClustering` does, listing the pairs given to `double_check` in the order of the calls, each with its answer.
-/

namespace Fog.MinhashClustering

open Minhash Metrics KeyCollision ClusteringUtils

variable {α τ : Type _} [DecidableEq α] [DecidableEq τ]

/-- The calls of `double_check` (clustering/minhash.py l. 136-157, clustering/utils.py l. 172-177) once the number of bands is known. -/
def bandCalls (setOrd : List Nat → List Nat) (hash : τ → Nat) (params : List (Nat × Nat)) (same : α → α → Bool) (keyOf : α → List τ) (data : List α)
    (radius : ℚ) (bands rows : Nat) : List ((α × α) × Bool) :=
  let buckets := bucketsOf (data.flatMap fun item => (bandKeys bands rows (createSignature setOrd hash params (keyOf item))).map fun k => (k, item))
  (pairsFromBuckets (buckets.map Prod.snd)).map fun p =>
    (p, decide (radius ≤ jaccardSimilarity (same p.1 p.2) (keyOf p.1) (keyOf p.2)))

/-- The calls made by `minhash(data, h, key, radius, bands, seed=seed)` when its clusters are read (clustering/minhash.py l. 124-157), without numpy. -/
noncomputable def minhashCalls (setOrd : List Nat → List Nat) (hash : τ → Nat) (params : List (Nat × Nat)) (same : α → α → Bool) (keyOf : α → List τ)
    (data : List α) (radius : ℚ) (bands : Option Nat) : Py (List ((α × α) × Bool)) :=
  let h := params.length
  let bands := match bands with | none => guessBands h radius | some bands => bands
  if bands = 0 then .error .zeroDivisionError
  else
    let rows := h / bands
    if data ≠ [] ∧ rows = 0 then .error .valueError
    else .ok (bandCalls setOrd hash params same keyOf data radius bands rows)

end Fog.MinhashClustering
