import Verif.Model.MinhashClusteringFloat

/-!
# Model of `match_probability` and `guess_bands` of `fog/clustering/minhash.py` with floating point numbers

As in `Verif.Model.MinhashClustering`, but divisions are rounded by `fl`, and powers are those of the C library, `pw`.
-/

namespace Fog.GuessBandsFloat

/-- `match_probability(h, bands, similarity)` (clustering/minhash.py l. 32-47), for `bands` other than zero and a similarity from zero to one. -/
noncomputable def matchProbability (fl : ℝ → ℝ) (pw : ℝ → ℝ → ℝ) (h bands : Nat) (similarity : ℝ) : ℝ :=
  fl (1 - pw (fl (1 - pw similarity (fl ((h : ℝ) / bands)))) bands)

/-- `similarity_threshold(h, bands)` (clustering/minhash.py l. 50-63), for `h` and `bands` other than zero. -/
noncomputable def similarityThreshold (fl : ℝ → ℝ) (pw : ℝ → ℝ → ℝ) (h bands : Nat) : ℝ :=
  pw (fl (1 / (bands : ℝ))) (fl (1 / fl ((h : ℝ) / bands)))

open Classical in
/-- The loop of `guess_bands` (clustering/minhash.py l. 81-89). -/
noncomputable def guessLoop (fl : ℝ → ℝ) (pw : ℝ → ℝ → ℝ) (h : Nat) (threshold : ℝ) (bands : Nat) : Nat :=
  if bands ≤ h then
    let t := similarityThreshold fl pw h bands
    if t ≤ threshold then bands else guessLoop fl pw h threshold (bands + 1)
  else bands
termination_by h + 1 - bands

/-- `guess_bands(h, threshold)` (clustering/minhash.py l. 66-91). -/
noncomputable def guessBands (fl : ℝ → ℝ) (pw : ℝ → ℝ → ℝ) (h : Nat) (threshold : ℝ) : Nat := guessLoop fl pw h threshold 1

variable {α τ : Type _} [DecidableEq α] [DecidableEq τ]

/-- `minhash(data, h, key, radius, seed=seed)` (clustering/minhash.py l. 94-157), without numpy, where the number of bands is guessed. -/
noncomputable def minhash (fl : ℝ → ℝ) (pw : ℝ → ℝ → ℝ) (ord : α → List α → List α) (setOrd : List Nat → List Nat) (hash : τ → Nat)
    (params : List (Nat × Nat)) (same : α → α → Bool) (keyOf : α → List τ) (data : List α) (radius : ℝ) : Py (List (List α)) :=
  MinhashClusteringFloat.minhash fl ord setOrd hash params same keyOf data radius (guessBands fl pw params.length radius)

end Fog.GuessBandsFloat
