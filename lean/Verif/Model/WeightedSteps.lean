import Verif.Model.Metrics

/-!
# Model of the weighted metrics of `fog/metrics`: the steps

The functions of `Verif.Model.Metrics` on weighted sets, which also list the keys their loops go through, in order: one for each
turn of a loop, which makes at most one lookup.
-/

namespace Fog.Metrics

variable {α κ : Type _} [DecidableEq α] [DecidableEq κ]

section weighted

variable {K : Type _} [Field K] [LinearOrder K]

/-- `weighted_jaccard_similarity(A, B)` (jaccard.py l. 71-130), with the keys of both loops (l. 110-121, 124-128). -/
def weightedJaccardSteps (same : Bool) (A B : Dict κ K) : Py K × List κ :=
  if same then (.ok 1, [])
  else if A.length = 0 ∨ B.length = 0 then (.ok 0, [])
  else
    let (A, B) := swapped A B
    let s := A.foldl (fun (s : (K × K × List κ) × List κ) item => (weightedStep B s.1 item, s.2 ++ [item.1])) ((0, 0, []), [])
    let t := B.foldl (fun (t : K × List κ) item => (if item.1 ∈ s.1.2.2 then t.1 else t.1 + item.2, t.2 ++ [item.1])) (s.1.2.1, s.2)
    (if t.1 = 0 then .error .zeroDivisionError else .ok (s.1.1 / t.1), t.2)

end weighted

/-- `sparse_cosine_similarity(A, B)` (cosine.py l. 18-69), with the keys of both loops (l. 56-63, 65-67). -/
noncomputable def sparseCosineSteps (same : Bool) (A B : Dict κ ℝ) : Py ℝ × List κ :=
  if same then (.ok 1, [])
  else if A.length = 0 ∨ B.length = 0 then (.ok 0, [])
  else
    let (A, B) := swapped A B
    let s := A.foldl (fun (s : (ℝ × ℝ) × List κ) item => (cosineStep B s.1 item, s.2 ++ [item.1])) ((0, 0), [])
    let t := B.foldl (fun (t : ℝ × List κ) item => (t.1 + item.2 ^ 2, t.2 ++ [item.1])) (0, s.2)
    (if Real.sqrt (s.1.1 * t.1) = 0 then .error .zeroDivisionError else .ok (s.1.2 / Real.sqrt (s.1.1 * t.1)), t.2)

/-- `sparse_binary_cosine_similarity(A, B)` (cosine.py l. 72-111), with the elements of its loop (l. 103-107). -/
noncomputable def sparseBinaryCosineSteps (same : Bool) (A B : List α) : Py ℝ × List α :=
  if same then (.ok 1, [])
  else if A.length = 0 ∨ B.length = 0 then (.ok 0, [])
  else
    let (A, B) := swapped A B
    let s := A.foldl (fun (s : (ℝ × ℝ) × List α) k => ((s.1.1 + 1, if k ∈ B then s.1.2 + 1 else s.1.2), s.2 ++ [k])) ((0, 0), [])
    let yy : ℝ := 0 + B.length
    (if Real.sqrt (s.1.1 * yy) = 0 then .error .zeroDivisionError else .ok (s.1.2 / Real.sqrt (s.1.1 * yy)), s.2)

/-- `sparse_dot_product(A, B)` (cosine.py l. 114-142), with the keys of its loop (l. 136-140). -/
noncomputable def sparseDotSteps (A B : Dict κ ℝ) : ℝ × List κ :=
  let (A, B) := swapped A B
  A.foldl (fun (s : ℝ × List κ) item =>
    (match Dict.get? B item.1 with | some w2 => s.1 + item.2 * w2 | none => s.1, s.2 ++ [item.1])) (0, [])

end Fog.Metrics
