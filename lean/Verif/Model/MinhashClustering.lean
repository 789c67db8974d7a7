import Verif.Model.Minhash
import Verif.Model.Metrics
import Verif.Model.KeyCollision
import Mathlib.Analysis.SpecialFunctions.Pow.Real

/-!
# Model of `fog/clustering/minhash.py`

Floats are real numbers. `keyOf` is `key`, or the identity without it, and gives the sequence of tokens of an item. The
coefficients of `MinHash(h, seed=seed)` are a parameter, and `h` is their number.
-/

namespace Fog.MinhashClustering

open Minhash Metrics KeyCollision ClusteringUtils

variable {α τ : Type _} [DecidableEq α] [DecidableEq τ]

/-- `match_probability(h, bands, similarity)` (clustering/minhash.py l. 32-47), for `bands` other than zero. -/
noncomputable def matchProbability (h bands : Nat) (similarity : ℝ) : ℝ :=
  1 - (1 - similarity ^ ((h : ℝ) / bands)) ^ bands

/-- `similarity_threshold(h, bands)` (clustering/minhash.py l. 50-63), for `h` and `bands` other than zero. -/
noncomputable def similarityThreshold (h bands : Nat) : ℝ := (1 / (bands : ℝ)) ^ (1 / ((h : ℝ) / bands))

open Classical in
/-- The loop of `guess_bands` (clustering/minhash.py l. 81-89). -/
noncomputable def guessLoop (h : Nat) (threshold : ℝ) (bands : Nat) : Nat :=
  if bands ≤ h then
    let t := similarityThreshold h bands
    if t ≤ threshold then bands else guessLoop h threshold (bands + 1)
  else bands
termination_by h + 1 - bands

/-- `guess_bands(h, threshold)` (clustering/minhash.py l. 66-91). -/
noncomputable def guessBands (h : Nat) (threshold : ℝ) : Nat := guessLoop h threshold 1

/-- The keys of the bands of an item (clustering/minhash.py l. 143-144). `range(0, bands * rows, rows)` is the list of the
multiples of `rows` when it is not zero. -/
def bandKeys (bands rows : Nat) (signature : List Nat) : List (Nat × String) :=
  ((List.range bands).map fun i => i * rows).map fun band =>
    (band, String.intercalate "%" ((slice signature band (band + rows)).map toString))

/-- `minhash(data, h, key, radius, bands, seed=seed)` (clustering/minhash.py l. 94-157), without numpy. `same a b` is whether the
keys of the two items are the same object. `range` raises when its step is zero. -/
noncomputable def minhash (ord : α → List α → List α) (setOrd : List Nat → List Nat) (hash : τ → Nat) (params : List (Nat × Nat))
    (same : α → α → Bool) (keyOf : α → List τ) (data : List α) (radius : ℚ) (bands : Option Nat) : Py (List (List α)) :=
  let h := params.length
  let bands := match bands with | none => guessBands h radius | some bands => bands
  if bands = 0 then .error .zeroDivisionError
  else
    let rows := h / bands
    if data ≠ [] ∧ rows = 0 then .error .valueError
    else
      let entries := data.flatMap fun item =>
        (bandKeys bands rows (createSignature setOrd hash params (keyOf item))).map fun k => (k, item)
      clustersFromBuckets ord ((bucketsOf entries).map Prod.snd) 2 none .connectedComponents
        (some fun A B => decide (radius ≤ jaccardSimilarity (same A B) (keyOf A) (keyOf B))) false

end Fog.MinhashClustering
