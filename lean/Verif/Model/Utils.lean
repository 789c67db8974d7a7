import Verif.Model.Py
import Mathlib.Algebra.Field.Defs

/-!
# Model of `fog/utils.py`
-/

namespace Fog.Utils

/-! ## squeeze -/

/-- `re.sub(r'(c)\1+', r'\1', string)` (utils.py l. 27), where `c` is a class of characters: from left to right, each run of a
character of the class is replaced by the character. -/
def subRuns (cls : Char → Bool) : List Char → List Char
  | [] => []
  | c :: s => if cls c then c :: subRuns cls (s.dropWhile (· == c)) else c :: subRuns cls s
termination_by s => s.length
decreasing_by
  · have := (List.dropWhile_suffix (fun x => x == c) (l := s)).length_le
    simp only [List.length_cons]; omega
  · simp

/-- `squeeze(string, keep_roman_numerals)` (utils.py l. 10-27). The dot of `SQUEEZE_RE` is anything but a newline. -/
def squeeze (string : List Char) (keep_roman_numerals : Bool) : List Char :=
  subRuns (if keep_roman_numerals then fun c => !(['I', 'X', 'C', 'M', 'i', 'x', 'c', 'm'].contains c) else fun c => c != '\n') string

/-! ## OnlineMean -/

/-- An `OnlineMean` (utils.py l. 30-42). Numbers are in a field, not floats. -/
structure OnlineMean (K : Type _) where
  sum : K
  n : Nat

variable {K : Type _} [Field K]

/-- `OnlineMean()` (utils.py l. 40-42). -/
def OnlineMean.new : OnlineMean K := ⟨0, 0⟩

/-- `add(x)` (utils.py l. 44-46). -/
def OnlineMean.add (m : OnlineMean K) (x : K) : OnlineMean K := ⟨m.sum + x, m.n + 1⟩

/-- `subtract(x)` (utils.py l. 48-51). -/
def OnlineMean.subtract (m : OnlineMean K) (x : K) : Py (OnlineMean K) :=
  if m.n = 0 then .error .assertionError else .ok ⟨m.sum - x, m.n - 1⟩

/-- `m += other` (utils.py l. 60-67), `other` being an `OnlineMean`. -/
def OnlineMean.iadd (m other : OnlineMean K) : OnlineMean K := ⟨m.sum + other.sum, m.n + other.n⟩

/-- `m + other` (utils.py l. 53-58). -/
def OnlineMean.plus (m other : OnlineMean K) : OnlineMean K := (OnlineMean.new.iadd m).iadd other

/-- `peek()` and `float(m)` (utils.py l. 72-79). -/
def OnlineMean.peek (m : OnlineMean K) : Py K := if m.n = 0 then .error .statisticsError else .ok (m.sum / m.n)

end Fog.Utils
