import Verif.Model.KeyMisc
import Mathlib.Algebra.Order.Floor.Ring
import Mathlib.Data.Real.Archimedean

/-!
# Model of `fog/key/misc.py` in double precision

As in `Verif.Model.KeyMisc`, but the threshold is a double and the product is rounded by `fl`.
-/

namespace Fog.KeyMiscFloat

open Ngrams KeyMisc

variable {α : Type _}

/-- `l = max(1, math.floor(k * threshold))` (misc.py l. 47): `k` is converted to the nearest double. -/
noncomputable def leastSize (fl : ℝ → ℝ) (k : Int) (threshold : ℝ) : Int := max 1 ⌊fl (fl k * threshold)⌋

/-- `ngram_keys(n, string, threshold)` (misc.py l. 28-62). -/
noncomputable def ngramKeys (fl : ℝ → ℝ) (n : Nat) (string : List α) (threshold : ℝ) : List (List α) :=
  let k : Int := string.length - (n - 1)
  let l : Int := leastSize fl k threshold
  let grams := ngrams n string
  grams.flatten :: (combinationsDown grams k (k - l).toNat).map List.flatten

end Fog.KeyMiscFloat
