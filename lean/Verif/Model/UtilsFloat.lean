import Verif.Model.Utils
import Mathlib.Data.Real.Basic

/-!
# Model of `OnlineMean` of `fog/utils.py` in double precision

The values added are floats. As in `Verif/Model/Utils.lean`, but each operation on them is rounded by `fl`; the count is an integer, which is exact.
-/

namespace Fog.UtilsFloat

open Fog.Utils (OnlineMean)

variable (fl : ℝ → ℝ)

/-- `add(x)` (utils.py l. 44-46). -/
def add (m : OnlineMean ℝ) (x : ℝ) : OnlineMean ℝ := ⟨fl (m.sum + x), m.n + 1⟩

/-- `subtract(x)` (utils.py l. 48-51). -/
def subtract (m : OnlineMean ℝ) (x : ℝ) : Py (OnlineMean ℝ) :=
  if m.n = 0 then .error .assertionError else .ok ⟨fl (m.sum - x), m.n - 1⟩

/-- `m += other` (utils.py l. 60-67), `other` being an `OnlineMean`. -/
def iadd (m other : OnlineMean ℝ) : OnlineMean ℝ := ⟨fl (m.sum + other.sum), m.n + other.n⟩

/-- `m + other` (utils.py l. 53-58). -/
noncomputable def plus (m other : OnlineMean ℝ) : OnlineMean ℝ := iadd fl (iadd fl OnlineMean.new m) other

/-- `peek()` and `float(m)` (utils.py l. 72-79). -/
noncomputable def peek (m : OnlineMean ℝ) : Py ℝ := if m.n = 0 then .error .statisticsError else .ok (fl (m.sum / m.n))

end Fog.UtilsFloat
