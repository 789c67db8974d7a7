import Verif.Model.LshUtils
import Mathlib.Data.Rat.Defs

/-!
# Model of `fog/lsh/simhash.py`

The three functions of `hashlib` are one parameter: `hexdigest n token` is the list of the values of the hexadecimal digits of the
digest of `n` bits of the encoded token. Its laws are hypotheses of the theorems.
-/

namespace Fog.Simhash

open LshUtils

variable {τ : Type _}

/-- `int(digits, 16)`: a `ValueError` on the empty string (simhash.py l. 51). -/
def parseHex (digits : List Nat) : Py Nat :=
  if digits = [] then .error .valueError else .ok (digits.foldl (fun n d => 16 * n + d) 0)

/-- The number of bits of the digest which is used (simhash.py l. 40-46): `md5` unless `f` is 256 or 512. -/
def digestSize (f : Nat) : Nat := if f = 256 then 256 else if f = 512 then 512 else 128

/-- The hash of one token (simhash.py l. 49-51). -/
def tokenHash (hexdigest : Nat → τ → List Nat) (f : Nat) (token : τ) : Py Nat :=
  parseHex ((hexdigest (digestSize f) token).take (f >>> 2))

/-- The inner loop for one hash (simhash.py l. 53-55). -/
def addHash (h : Nat) (histogram : List Int) : List Int :=
  histogram.mapIdx fun i x => x + (((h >>> i) &&& 1 : Nat) - (((h >>> i) &&& 1) ^^^ 1 : Nat) : Int)

/-- The loop over tokens (simhash.py l. 48-55). -/
def histogramOf (hexdigest : Nat → τ → List Nat) (f : Nat) : List τ → List Int → Py (List Int)
  | [], histogram => .ok histogram
  | token :: tokens, histogram => do
      let h ← tokenHash hexdigest f token
      histogramOf hexdigest f tokens (addHash h histogram)

/-- `simhash(tokens, f)` (simhash.py l. 34-63). -/
def simhash (hexdigest : Nat → τ → List Nat) (tokens : List τ) (f : Nat) : Py Nat :=
  if ¬ (f ≤ 512 ∧ isPowerOfTwo f = 0) then .error .assertionError
  else do
    let histogram ← histogramOf hexdigest f tokens (List.replicate f 0)
    return (List.range f).foldl (fun signature i => if histogram.getD i 0 > 0 then signature ||| (1 <<< i) else signature) 0

/-- `simhash_distance(A, B, f)` (simhash.py l. 66-67). Simplified: the division is exact. -/
def simhashDistance (A B f : Nat) : Py ℚ :=
  if f = 0 then .error .zeroDivisionError else .ok ((popcount (A ^^^ B) : ℚ) / f)

/-- `simhash_similarity(A, B, f)` (simhash.py l. 70-71). Simplified: the division is exact. -/
def simhashSimilarity (A B f : Nat) : Py ℚ :=
  if f = 0 then .error .zeroDivisionError else .ok (1 - (popcount (A ^^^ B) : ℚ) / f)

end Fog.Simhash
