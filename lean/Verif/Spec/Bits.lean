/-!
# Specification: number of one bits

Independent of the code.
-/

namespace Fog.Spec

/-- The number of one bits among the `w` lowest bits of `x`. -/
def bitCount (w x : Nat) : Nat := (List.range w).countP x.testBit

/-- The number of one bits among the `w` lowest bits of the two's complement of an integer `x`. -/
def intBitCount (w : Nat) (x : Int) : Nat := (List.range w).countP fun i => decide (x / 2 ^ i % 2 = 1)

end Fog.Spec
