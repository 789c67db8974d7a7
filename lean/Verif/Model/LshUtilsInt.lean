import Verif.Model.LshUtils
import Mathlib.Data.Int.Bitwise

/-!
# Model of `fog/lsh/utils.py` on integers of any sign

As in `Verif.Model.LshUtils`. The operations on bits are those of the two's complement with infinitely many digits, as in Python.
-/

namespace Fog.LshUtilsInt

open LshUtils

/-- `is_power_of_two(x)` (lsh/utils.py l. 16-17). -/
def isPowerOfTwo (x : Int) : Int := Int.land x (x - 1)

/-- `bin(x)`, called at lsh/utils.py l. 25. -/
def bin (x : Int) : List Char := (if x < 0 then ['-'] else []) ++ '0' :: 'b' :: Nat.toDigits 2 x.natAbs

/-- `popcount(x)` (lsh/utils.py l. 24-25). -/
def popcount (x : Int) : Nat := (bin x).count '1'

/-- `popcount16(x)` (lsh/utils.py l. 28-29). The index is never negative nor out of bounds. -/
def popcount16 (x : Int) : Nat := popcountTable16.getD (Int.land x 0xFFFF).toNat 0

/-- `popcount32(x)` (lsh/utils.py l. 32-35). -/
def popcount32 (x : Int) : Nat :=
  popcountTable16.getD (Int.land x 0xFFFF).toNat 0 + popcountTable16.getD (Int.land (x >>> (16 : Nat)) 0xFFFF).toNat 0

/-- `popcount64(x)` (lsh/utils.py l. 38-42). -/
def popcount64 (x : Int) : Int :=
  let x := x - Int.land (x >>> (1 : Nat)) 0x5555555555555555
  let x := Int.land x 0x3333333333333333 + Int.land (x >>> (2 : Nat)) 0x3333333333333333
  let x := Int.land (x + (x >>> (4 : Nat))) 0x0f0f0f0f0f0f0f0f
  (Int.land (x * 0x0101010101010101) 0xffffffffffffffff) >>> (56 : Nat)

end Fog.LshUtilsInt
