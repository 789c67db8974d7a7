import Verif.Model.Metrics

/-!
# Model of `fog/metrics/jaccard.py`, `dice.py`, `overlap.py` and `cosine.py` in floating point numbers

The same functions as in `Verif.Model.Metrics`, every operation on floats being followed by the rounding `fl`. Python divides two
integers with a single rounding. Infinities are not modelled: simplification, sizes and weights are meant to be far from 2 ^ 1023.
`weight ** 2` is rounded once, as a product is: simplification, the C library is free to be less accurate.
-/

namespace Fog.MetricsFloat

open Metrics

variable {α κ : Type _} [DecidableEq α] [DecidableEq κ]

/-- `jaccard_similarity(A, B)` (jaccard.py l. 20-68). -/
noncomputable def jaccardSimilarity (fl : ℝ → ℝ) (same : Bool) (A B : List α) : ℝ :=
  if same then 1
  else
    let A := dedup A
    let B := dedup B
    if A.length = 0 ∨ B.length = 0 then 0
    else
      let (A, B) := swapped A B
      let I := countIn A B
      let U := A.length + B.length - I
      fl ((I : ℝ) / (U : ℝ))

/-- `dice_coefficient(A, B)` (dice.py l. 17-65). -/
noncomputable def diceCoefficient (fl : ℝ → ℝ) (same : Bool) (A B : List α) : ℝ :=
  if same then 1
  else
    let (A, B) := swapped (dedup A) (dedup B)
    let la := A.length
    let lb := B.length
    if la = 0 then (if lb = 0 then 1 else 0)
    else fl (((2 * countIn A B : Nat) : ℝ) / ((la + lb : Nat) : ℝ))

/-- `overlap_coefficient(A, B)` (overlap.py l. 13-51). -/
noncomputable def overlapCoefficient (fl : ℝ → ℝ) (same : Bool) (A B : List α) : ℝ :=
  if same then 1
  else
    let A := dedup A
    let B := dedup B
    if A.length = 0 ∨ B.length = 0 then 0
    else
      let (A, B) := swapped A B
      fl ((countIn A B : ℝ) / ((min A.length B.length : Nat) : ℝ))

/-- The first loop of `weighted_jaccard_similarity` (jaccard.py l. 109-121): `I`, `U` and `done`. -/
noncomputable def weightedStep (fl : ℝ → ℝ) (B : Dict κ ℝ) (s : ℝ × ℝ × List κ) (item : κ × ℝ) : ℝ × ℝ × List κ :=
  let (I, U, done) := s
  let weight_A := item.2
  let weight_B := (B.get? item.1).getD 0
  let done := if weight_B ≠ 0 then item.1 :: done else done
  if weight_A < weight_B then (fl (I + weight_A), fl (U + weight_B), done)
  else (fl (I + weight_B), fl (U + weight_A), done)

/-- The second loop of `weighted_jaccard_similarity` (jaccard.py l. 123-128). -/
noncomputable def weightedRest (fl : ℝ → ℝ) (done : List κ) (U : ℝ) (item : κ × ℝ) : ℝ :=
  if item.1 ∈ done then U else fl (U + item.2)

/-- `weighted_jaccard_similarity(A, B)` (jaccard.py l. 71-130), once the maps are in order. -/
noncomputable def weightedOrdered (fl : ℝ → ℝ) (A B : Dict κ ℝ) : Py ℝ :=
  let (I, U, done) := A.foldl (weightedStep fl B) (0, 0, [])
  let U := B.foldl (weightedRest fl done) U
  if U = 0 then .error .zeroDivisionError else .ok (fl (I / U))

/-- `weighted_jaccard_similarity(A, B)` (jaccard.py l. 71-130). -/
noncomputable def weightedJaccardSimilarity (fl : ℝ → ℝ) (same : Bool) (A B : Dict κ ℝ) : Py ℝ :=
  if same then .ok 1
  else if A.length = 0 ∨ B.length = 0 then .ok 0
  else
    let (A, B) := swapped A B
    weightedOrdered fl A B

/-- `xy / math.sqrt(xx * yy)` (cosine.py l. 69 and 111). -/
noncomputable def cosineRatio (fl : ℝ → ℝ) (xx xy yy : ℝ) : Py ℝ :=
  let norm := fl (Real.sqrt (fl (xx * yy)))
  if norm = 0 then .error .zeroDivisionError else .ok (fl (xy / norm))

/-- The loop of `sparse_cosine_similarity` over the smaller vector (cosine.py l. 56-63): `xx` and `xy`. -/
noncomputable def cosineStep (fl : ℝ → ℝ) (B : Dict κ ℝ) (s : ℝ × ℝ) (item : κ × ℝ) : ℝ × ℝ :=
  let (xx, xy) := s
  let weight := item.2
  (fl (xx + fl (weight ^ 2)), match B.get? item.1 with | some v2 => fl (xy + fl (weight * v2)) | none => xy)

/-- `sparse_cosine_similarity(A, B)` (cosine.py l. 18-69). -/
noncomputable def sparseCosineSimilarity (fl : ℝ → ℝ) (same : Bool) (A B : Dict κ ℝ) : Py ℝ :=
  if same then .ok 1
  else if A.length = 0 ∨ B.length = 0 then .ok 0
  else
    let (A, B) := swapped A B
    let (xx, xy) := A.foldl (cosineStep fl B) (0, 0)
    let yy := B.foldl (fun yy item => fl (yy + fl (item.2 ^ 2))) 0
    cosineRatio fl xx xy yy

/-- `sparse_binary_cosine_similarity(A, B)` (cosine.py l. 72-111), on sets. -/
noncomputable def sparseBinaryCosineSimilarity (fl : ℝ → ℝ) (same : Bool) (A B : List α) : Py ℝ :=
  if same then .ok 1
  else if A.length = 0 ∨ B.length = 0 then .ok 0
  else
    let (A, B) := swapped A B
    let (xx, xy) := A.foldl (fun (s : ℝ × ℝ) k => (fl (s.1 + 1), if k ∈ B then fl (s.2 + 1) else s.2)) (0, 0)
    let yy : ℝ := fl (0 + B.length)
    cosineRatio fl xx xy yy

/-- `cosine_similarity(A, B)` (cosine.py l. 163-185) on sequences. The counts are integers. -/
noncomputable def cosineSimilarity (fl : ℝ → ℝ) (A B : List κ) : Py ℝ := sparseCosineSimilarity fl false (counter A) (counter B)

/-- `binary_cosine_similarity(A, B)` (cosine.py l. 188-210): `same` is that of the sets. -/
noncomputable def binaryCosineSimilarity (fl : ℝ → ℝ) (same : Bool) (A B : List α) : Py ℝ :=
  sparseBinaryCosineSimilarity fl same (dedup A) (dedup B)

end Fog.MetricsFloat
