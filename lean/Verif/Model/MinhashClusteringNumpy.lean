import Verif.Model.MinhashClustering
import Verif.Model.MinhashNumpy

/-!
# Model of `fog/clustering/minhash.py` with `use_numpy=True`

The same conventions as in `Model/MinhashClustering.lean`. The coefficients of `MinHash(h, use_numpy=True, seed=seed)` are parameters, and `h`
is their number. `str` of an element of an array of `uint32` is the decimal writing of it, in the version of numpy of `requirements.txt`.
-/

namespace Fog.MinhashClustering

open Minhash Metrics KeyCollision ClusteringUtils

variable {α τ : Type _} [DecidableEq α] [DecidableEq τ]

/-- `minhash(data, h, key, radius, bands, use_numpy=True, seed=seed)` (clustering/minhash.py l. 94-157). `same a b` is whether the keys of the
two items are the same object. `range` raises when its step is zero. -/
noncomputable def minhashNumpy (ord : α → List α → List α) (setOrd : List Nat → List Nat) (hash : τ → Nat) (A B : List Nat)
    (same : α → α → Bool) (keyOf : α → List τ) (data : List α) (radius : ℚ) (bands : Option Nat) : Py (List (List α)) :=
  let h := A.length
  let bands := match bands with | none => guessBands h radius | some bands => bands
  if bands = 0 then .error .zeroDivisionError
  else
    let rows := h / bands
    if data ≠ [] ∧ rows = 0 then .error .valueError
    else
      let entries := data.flatMap fun item =>
        (bandKeys bands rows (createSignatureNumpy setOrd hash A B (keyOf item))).map fun k => (k, item)
      clustersFromBuckets ord ((bucketsOf entries).map Prod.snd) 2 none .connectedComponents
        (some fun A B => decide (radius ≤ jaccardSimilarity (same A B) (keyOf A) (keyOf B))) false

end Fog.MinhashClustering
