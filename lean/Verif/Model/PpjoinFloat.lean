import Verif.Model.Ppjoin

/-!
# Model of the helpers of `fog/clustering/ppjoin.py` in double precision

`fl` is the rounding done after each operation on floats, as in `Verif/Model/MetricsFloat.lean`: integers are converted to the
nearest double before they are mixed with floats, and the division of two integers is rounded once. The threshold is a double.
Overflow is left out. The rest of the file (the join itself) is that of `Verif/Model/Ppjoin.lean`, which is generic in the helper.
-/

namespace Fog.PpjoinFloat

open Fog.Ppjoin

/-- `EPSILON` (ppjoin.py l. 24): the literal `1e-6` is the nearest double. -/
noncomputable def epsilon (fl : ℝ → ℝ) : ℝ := fl (1 / 1000000)

/-- `x * l + 1 + EPSILON`, on which `int` is called (ppjoin.py l. 40, 43, 60, 63, 80, 83). -/
noncomputable def prefixFloat (fl : ℝ → ℝ) (x : ℝ) (l : Nat) : ℝ := fl (fl (fl (x * fl l) + 1) + epsilon fl)

/-- `JaccardHelper` (ppjoin.py l. 38-55). -/
noncomputable def jaccardHelper (fl : ℝ → ℝ) (threshold : ℝ) : Helper ℝ where
  threshold := threshold
  indexLength l := pyInt (prefixFloat fl (fl (1 - fl (fl (2 * threshold) / fl (1 + threshold)))) l)
  probeLength l := pyInt (prefixFloat fl (fl (1 - threshold)) l)
  requireOverlap l1 l2 := ⌈fl (fl (fl (threshold / fl (1 + threshold)) * fl ((l1 : ℝ) + l2)) - epsilon fl)⌉
  computeSimilarity l1 l2 overlap := fl (fl ((overlap : ℝ) / ((l1 : ℝ) + l2 - overlap)) + epsilon fl)
  maxPossibleLength l := pyInt (fl (fl (fl l / threshold) + epsilon fl))
  minPossibleLength l := ⌈fl (fl (fl l * threshold) - epsilon fl)⌉

/-- `DiceHelper` (ppjoin.py l. 58-75). -/
noncomputable def diceHelper (fl : ℝ → ℝ) (threshold : ℝ) : Helper ℝ where
  threshold := threshold
  indexLength l := pyInt (prefixFloat fl (fl (1 - threshold)) l)
  probeLength l := pyInt (prefixFloat fl (fl (1 - fl (threshold / fl (2 - threshold)))) l)
  requireOverlap l1 l2 := ⌈fl (fl (fl (fl ((l1 : ℝ) + l2) * threshold) / 2) - epsilon fl)⌉
  computeSimilarity l1 l2 overlap := fl (fl (2 * (overlap : ℝ) / ((l1 : ℝ) + l2)) + epsilon fl)
  maxPossibleLength l := pyInt (fl (fl (fl (fl l / threshold) * fl (2 - threshold)) + epsilon fl))
  minPossibleLength l := ⌈fl (fl (fl (fl l * threshold) / fl (2 - threshold)) - epsilon fl)⌉

/-- `BinaryCosineHelper` (ppjoin.py l. 78-95). -/
noncomputable def binaryCosineHelper (fl : ℝ → ℝ) (threshold : ℝ) : Helper ℝ where
  threshold := threshold
  indexLength l := pyInt (prefixFloat fl (fl (1 - threshold)) l)
  probeLength l := pyInt (prefixFloat fl (fl (1 - fl (threshold * threshold))) l)
  requireOverlap l1 l2 := ⌈fl (fl (threshold * fl (Real.sqrt (fl ((l1 : ℝ) * l2)))) - epsilon fl)⌉
  computeSimilarity l1 l2 overlap := fl (fl (fl (overlap : ℝ) / fl (Real.sqrt (fl ((l1 : ℝ) * l2)))) + epsilon fl)
  maxPossibleLength l := pyInt (fl (fl (fl (fl l / threshold) / threshold) + epsilon fl))
  minPossibleLength l := ⌈fl (fl (fl (fl l * threshold) * threshold) - epsilon fl)⌉

end Fog.PpjoinFloat
