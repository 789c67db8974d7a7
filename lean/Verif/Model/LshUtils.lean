import Verif.Model.Py

/-!
# Model of `fog/lsh/utils.py`

Integers are natural numbers; those of any sign are in `Verif.Model.LshUtilsInt`. `crc32` is a parameter of the models which use it, and is in `Verif.Model.Crc32`.
-/

namespace Fog.LshUtils

/-- `POPCOUNT_TABLE16` (lsh/utils.py l. 10-13): `[0] * (2 ** 16)`, then each entry in turn is set from a previous one. -/
def popcountTable16 : List Nat :=
  (List.range (2 ^ 16)).foldl (fun table i => table.set i ((i &&& 1) + table.getD (i >>> 1) 0)) (List.replicate (2 ^ 16) 0)

/-- `is_power_of_two(x)` (lsh/utils.py l. 16-17): an integer, used as a condition. -/
def isPowerOfTwo (x : Nat) : Nat := x &&& (x - 1)

/-- `popcount(x)` (lsh/utils.py l. 24-25): the number of characters `'1'` in `bin(x)`. -/
def popcount (x : Nat) : Nat := ('0' :: 'b' :: Nat.toDigits 2 x).count '1'

/-- `popcount16(x)` (lsh/utils.py l. 28-29). The table is never read out of bounds. -/
def popcount16 (x : Nat) : Nat := popcountTable16.getD (x &&& 0xFFFF) 0

/-- `popcount32(x)` (lsh/utils.py l. 32-35). -/
def popcount32 (x : Nat) : Nat :=
  popcountTable16.getD (x &&& 0xFFFF) 0 + popcountTable16.getD ((x >>> 16) &&& 0xFFFF) 0

/-- `popcount64(x)` (lsh/utils.py l. 38-42). The first subtraction is never negative. -/
def popcount64 (x : Nat) : Nat :=
  let x := x - ((x >>> 1) &&& 0x5555555555555555)
  let x := (x &&& 0x3333333333333333) + ((x >>> 2) &&& 0x3333333333333333)
  let x := (x + (x >>> 4)) &&& 0x0f0f0f0f0f0f0f0f
  ((x * 0x0101010101010101) &&& 0xffffffffffffffff) >>> 56

end Fog.LshUtils
