import Verif.Model.MetricsFloat

/-!
# Model of the normalization of `fog/metrics/cosine.py` in double precision

As in `Verif/Model/Metrics.lean`, every operation on floats being followed by the rounding `fl`. Simplification: the sum of the norm is rounded
at each step; it is exact when the weights are integers, and more precise with floats since Python 3.12.
-/

namespace Fog.MetricsFloat

open Metrics

variable {κ : Type _} [DecidableEq κ]

/-- `sparse_dot_product(A, B)` (cosine.py l. 114-142). -/
noncomputable def sparseDotProduct (fl : ℝ → ℝ) (A B : Dict κ ℝ) : ℝ :=
  let (A, B) := swapped A B
  A.foldl (fun product item =>
    match Dict.get? B item.1 with | some w2 => fl (product + fl (item.2 * w2)) | none => product) 0

/-- `sparse_norm(A)` (cosine.py l. 145-146). -/
noncomputable def sparseNorm (fl : ℝ → ℝ) (A : Dict κ ℝ) : ℝ :=
  fl (Real.sqrt (A.foldl (fun s item => fl (s + fl (item.2 * item.2))) 0))

/-- `sparse_normalize(A)` (cosine.py l. 149-160). -/
noncomputable def sparseNormalize (fl : ℝ → ℝ) (A : Dict κ ℝ) : Dict κ ℝ :=
  let length := sparseNorm fl A
  if length = 0 then [] else A.foldl (fun N item => N.set item.1 (fl (item.2 / length))) []

end Fog.MetricsFloat
