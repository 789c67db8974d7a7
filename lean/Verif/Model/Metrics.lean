import Verif.Model.Py
import Verif.Model.Dict
import Mathlib.Algebra.Field.Defs
import Mathlib.Order.Defs.LinearOrder
import Mathlib.Data.Rat.Defs
import Mathlib.Analysis.Real.Sqrt

/-!
# Model of `fog/metrics/jaccard.py`, `dice.py`, `overlap.py`, `cosine.py` and `utils.py`

A collection is the list of its elements; a `set` or the keys of a `dict` is a list without duplicates, on which `dedup` does
nothing, so that the `isinstance` tests need not be told apart. `same` is the outcome of `A is B`. Floats are rational or real
numbers.
-/

namespace Fog.Metrics

variable {α κ : Type _} [DecidableEq α] [DecidableEq κ]

/-- The loop counting the intersection (jaccard.py l. 59-63, dice.py l. 59-63, overlap.py l. 45-49, utils.py l. 26-32). -/
def countIn (A B : List α) : Nat := A.foldl (fun i v => if v ∈ B then i + 1 else i) 0

/-- The swap `if len(A) > len(B): A, B = B, A` (jaccard.py l. 55-56, dice.py l. 49-50, overlap.py l. 41-42, cosine.py l. 53-54, utils.py l. 20-21). -/
abbrev swapped {β : Type _} (A B : List β) : List β × List β := if A.length > B.length then (B, A) else (A, B)

/-- `intersection_size(A, B)` (utils.py l. 10-32). -/
def intersectionSize (same : Bool) (A B : List α) : Nat :=
  if same then A.length
  else
    let (A, B) := swapped (dedup A) (dedup B)
    if A.length = 0 then 0 else countIn A B

/-- `jaccard_similarity(A, B)` (jaccard.py l. 20-68). -/
def jaccardSimilarity (same : Bool) (A B : List α) : ℚ :=
  if same then 1
  else
    let A := dedup A
    let B := dedup B
    if A.length = 0 ∨ B.length = 0 then 0
    else
      let (A, B) := swapped A B
      let I := countIn A B
      let U := A.length + B.length - I
      (I : ℚ) / (U : ℚ)

/-- `dice_coefficient(A, B)` (dice.py l. 17-65). -/
def diceCoefficient (same : Bool) (A B : List α) : ℚ :=
  if same then 1
  else
    let (A, B) := swapped (dedup A) (dedup B)
    let la := A.length
    let lb := B.length
    if la = 0 then (if lb = 0 then 1 else 0)
    else (2 * countIn A B : ℚ) / ((la + lb : Nat) : ℚ)

/-- `overlap_coefficient(A, B)` (overlap.py l. 13-51). -/
def overlapCoefficient (same : Bool) (A B : List α) : ℚ :=
  if same then 1
  else
    let A := dedup A
    let B := dedup B
    if A.length = 0 ∨ B.length = 0 then 0
    else
      let (A, B) := swapped A B
      (countIn A B : ℚ) / ((min A.length B.length : Nat) : ℚ)

section weighted

variable {K : Type _} [Field K] [LinearOrder K]

/-- The first loop of `weighted_jaccard_similarity` (jaccard.py l. 109-121): `I`, `U` and `done`. -/
def weightedStep (B : Dict κ K) (s : K × K × List κ) (item : κ × K) : K × K × List κ :=
  let (I, U, done) := s
  let weight_A := item.2
  let weight_B := (B.get? item.1).getD 0
  let done := if weight_B ≠ 0 then item.1 :: done else done
  if weight_A < weight_B then (I + weight_A, U + weight_B, done) else (I + weight_B, U + weight_A, done)

/-- `weighted_jaccard_similarity(A, B)` (jaccard.py l. 71-130). -/
def weightedJaccardSimilarity (same : Bool) (A B : Dict κ K) : Py K :=
  if same then .ok 1
  else if A.length = 0 ∨ B.length = 0 then .ok 0
  else
    let (A, B) := swapped A B
    let (I, U, done) := A.foldl (weightedStep B) (0, 0, [])
    let U := B.foldl (fun U item => if item.1 ∈ done then U else U + item.2) U
    if U = 0 then .error .zeroDivisionError else .ok (I / U)

end weighted

/-- The loop of `sparse_cosine_similarity` over the smaller vector (cosine.py l. 56-63): `xx` and `xy`. -/
noncomputable def cosineStep (B : Dict κ ℝ) (s : ℝ × ℝ) (item : κ × ℝ) : ℝ × ℝ :=
  let (xx, xy) := s
  let weight := item.2
  (xx + weight ^ 2, match B.get? item.1 with | some v2 => xy + weight * v2 | none => xy)

/-- `sparse_cosine_similarity(A, B)` (cosine.py l. 18-69). -/
noncomputable def sparseCosineSimilarity (same : Bool) (A B : Dict κ ℝ) : Py ℝ :=
  if same then .ok 1
  else if A.length = 0 ∨ B.length = 0 then .ok 0
  else
    let (A, B) := swapped A B
    let (xx, xy) := A.foldl (cosineStep B) (0, 0)
    let yy := B.foldl (fun yy item => yy + item.2 ^ 2) 0
    if Real.sqrt (xx * yy) = 0 then .error .zeroDivisionError else .ok (xy / Real.sqrt (xx * yy))

/-- `sparse_binary_cosine_similarity(A, B)` (cosine.py l. 72-111), on sets. -/
noncomputable def sparseBinaryCosineSimilarity (same : Bool) (A B : List α) : Py ℝ :=
  if same then .ok 1
  else if A.length = 0 ∨ B.length = 0 then .ok 0
  else
    let (A, B) := swapped A B
    let (xx, xy) := A.foldl (fun (s : ℝ × ℝ) k => (s.1 + 1, if k ∈ B then s.2 + 1 else s.2)) (0, 0)
    let yy : ℝ := 0 + B.length
    if Real.sqrt (xx * yy) = 0 then .error .zeroDivisionError else .ok (xy / Real.sqrt (xx * yy))

/-- `sparse_dot_product(A, B)` (cosine.py l. 114-142). -/
noncomputable def sparseDotProduct (A B : Dict κ ℝ) : ℝ :=
  let (A, B) := swapped A B
  A.foldl (fun product item =>
    match Dict.get? B item.1 with | some w2 => product + item.2 * w2 | none => product) 0

/-- `sparse_norm(A)` (cosine.py l. 145-146). -/
noncomputable def sparseNorm (A : Dict κ ℝ) : ℝ := Real.sqrt ((A.map fun item => item.2 * item.2).sum)

/-- `sparse_normalize(A)` (cosine.py l. 149-160). -/
noncomputable def sparseNormalize (A : Dict κ ℝ) : Dict κ ℝ :=
  let length := sparseNorm A
  if length = 0 then [] else A.foldl (fun N item => N.set item.1 (item.2 / length)) []

/-- `Counter(A)` (cosine.py l. 180, 183). -/
noncomputable def counter (A : List κ) : Dict κ ℝ := A.foldl (fun c k => c.update k 0 (· + 1)) []

/-- `cosine_similarity(A, B)` (cosine.py l. 163-185) on sequences. Two new counters are never the same object. -/
noncomputable def cosineSimilarity (A B : List κ) : Py ℝ := sparseCosineSimilarity false (counter A) (counter B)

/-- `binary_cosine_similarity(A, B)` (cosine.py l. 188-210): `same` is that of the sets. -/
noncomputable def binaryCosineSimilarity (same : Bool) (A B : List α) : Py ℝ :=
  sparseBinaryCosineSimilarity same (dedup A) (dedup B)

end Fog.Metrics
