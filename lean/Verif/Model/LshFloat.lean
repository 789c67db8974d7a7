import Verif.Model.Minhash
import Verif.Model.Simhash
import Mathlib.Data.Real.Basic

/-!
# Model of the similarities of `fog/lsh/minhash.py` and `fog/lsh/simhash.py` in floating point numbers

Every operation on floats is followed by the rounding `fl`; Python divides two integers with a single rounding. The counts are those of the
exact models.
-/

namespace Fog.LshFloat

open LshUtils

/-- `minhash_similarity(A, B)` (minhash.py l. 33-41). -/
noncomputable def minhashSimilarity {β : Type _} [DecidableEq β] (fl : ℝ → ℝ) (A B : List β) : Py ℝ :=
  match Minhash.minhashSimilarity.loop 0 A B with
  | .error e => .error e
  | .ok hamming => if A.length = 0 then .error .zeroDivisionError else .ok (fl (1 - fl ((hamming : ℝ) / A.length)))

/-- `lsb_minhash_similarity(A, B)` (minhash.py l. 44-52). -/
noncomputable def lsbMinhashSimilarity (fl : ℝ → ℝ) (A B : List Nat) : Py ℝ :=
  match Minhash.lsbMinhashSimilarity.loop 0 A B with
  | .error e => .error e
  | .ok hamming =>
      let h := fl (fl A.length * 64)
      if A.length = 0 then .error .zeroDivisionError else .ok (fl (1 - fl (fl (2 * fl hamming) / h)))

/-- `simhash_distance(A, B, f)` (simhash.py l. 66-67). -/
noncomputable def simhashDistance (fl : ℝ → ℝ) (A B f : Nat) : Py ℝ :=
  if f = 0 then .error .zeroDivisionError else .ok (fl ((popcount (A ^^^ B) : ℝ) / f))

/-- `simhash_similarity(A, B, f)` (simhash.py l. 70-71). -/
noncomputable def simhashSimilarity (fl : ℝ → ℝ) (A B f : Nat) : Py ℝ :=
  if f = 0 then .error .zeroDivisionError else .ok (fl (1 - fl ((popcount (A ^^^ B) : ℝ) / f)))

end Fog.LshFloat
