import Verif.Model.DefaultsFloat
import Verif.Model.MetricsFloat

/-!
# Model of `fog/clustering/fagin.py` in double precision

As in `Verif.Model.Fagin`, but each operation on floats is rounded by `fl`. The weights are reals, which the theorems ask to be doubles when
it matters. `fagin_k1` and `naive_cosine_pairs` compute nothing with them.
-/

namespace Fog.FaginRounded

open Fagin

variable {κ : Type} [DecidableEq κ] (fl : ℝ → ℝ)

/-- `sparse_cosine_similarity(vector, vectors[j])` (fagin.py l. 114 and 165). `same i j` is whether these are the same object. -/
noncomputable def cosineOf (same : Nat → Nat → Bool) (vectors : List (Dict κ ℝ)) (i j : Nat) : Py ℝ :=
  match vectors[i]?, vectors[j]? with
  | some A, some B => MetricsFloat.sparseCosineSimilarity fl (same i j) A B
  | _, _ => .error .indexError

/-- `sparse_cosine_similarity(vector, t_vector)` (fagin.py l. 125). -/
noncomputable def cosineTo (vectors : List (Dict κ ℝ)) (i : Nat) (t : Dict κ ℝ) : Py ℝ :=
  match vectors[i]? with
  | some A => MetricsFloat.sparseCosineSimilarity fl false A t
  | none => .error .indexError

/-- `threshold_algorithm_k1(vectors)` (fagin.py l. 68-131). The rest of it compares floats and computes nothing. -/
noncomputable def thresholdAlgorithmK1 (same : Nat → Nat → Bool) (fuel : Nat) (vectors : List (Dict κ ℝ)) : Py (List (Nat × Option Nat)) :=
  Fagin.thresholdAlgorithmK1 (cosineOf fl same vectors) (cosineTo fl vectors) fuel vectors

/-- `min(leaders, key=...)` (fagin.py l. 165): the first leader with the least key, `1.0 - cs` being rounded. -/
noncomputable def closest (similarity : Nat → Nat → Py ℝ) (i : Nat) : List Nat → Option (ℝ × Nat) → Py Nat
  | [], none => .error .valueError
  | [], some b => .ok b.2
  | x :: leaders, b =>
      match similarity i x with
      | .error e => .error e
      | .ok cs =>
          closest similarity i leaders (if b.all fun b => decide (fl (1 - cs) < b.1) then some (fl (1 - cs), x) else b)

/-- The loop of `sqrt_indexation_pairs` (fagin.py l. 164-174), with `proximities` and the indices which remain. -/
noncomputable def leaderLoop (similarity : Nat → Nat → Py ℝ) (leaders : List Nat) : List Nat → Dict Nat (List Nat) → Py (List (Nat × Nat))
  | [], _ => .ok []
  | i :: is, proximities =>
      match closest fl similarity i leaders none with
      | .error e => .error e
      | .ok leader =>
          match leaderLoop similarity leaders is (proximities.update leader [] (· ++ [i])) with
          | .error e => .error e
          | .ok rest => .ok ((i, leader) :: ((proximities.get? leader).getD []).map (fun j => (i, j)) ++ rest)

/-- `sqrt_indexation_pairs(vectors)` (fagin.py l. 154-174). `indices` is the shuffled list of the indices. -/
noncomputable def sqrtIndexationPairs (same : Nat → Nat → Bool) (indices : List Nat) (vectors : List (Dict κ ℝ)) : Py (List (Nat × Nat)) :=
  leaderLoop fl (cosineOf fl same vectors) (indices.take (FaginFloat.leadersCount fl vectors.length)) (List.range vectors.length) []

end Fog.FaginRounded
