import Mathlib.Algebra.Polynomial.Basic
import Mathlib.Algebra.Field.ZMod

/-!
# Specification: CRC-32

The cyclic redundancy check of IEEE 802.3, by remainders of polynomials over the field with two elements. Independent of the code.
-/

namespace Fog.Spec

open Polynomial

/-- The polynomial of CRC-32. -/
noncomputable def crcGenerator : (ZMod 2)[X] :=
  X ^ 32 + X ^ 26 + X ^ 23 + X ^ 22 + X ^ 16 + X ^ 12 + X ^ 11 + X ^ 10 + X ^ 8 + X ^ 7 + X ^ 5 + X ^ 4 + X ^ 2 + X + 1

/-- The polynomial whose coefficients are these bits, that of the highest degree first. -/
noncomputable def bitsPoly : List Bool → (ZMod 2)[X]
  | [] => 0
  | b :: l => (if b then X ^ l.length else 0) + bitsPoly l

/-- The bits of a sequence of bytes in the order in which they are sent: the lowest bit of each byte first. -/
def messageBits (data : List UInt8) : List Bool := data.flatMap fun b => (List.range 8).map fun k => b.toNat.testBit k

/-- `c` is the CRC-32 of `data`. Put 32 zeros after the message and complement its first 32 bits; the remainder of the division by the generator,
complemented, has the bits of `c`, the lowest one first. -/
def IsCrc32 (data : List UInt8) (c : Nat) : Prop :=
  c < 2 ^ 32 ∧ crcGenerator ∣
    (bitsPoly (messageBits data ++ List.replicate 32 false) + X ^ (8 * data.length) * bitsPoly (List.replicate 32 true)) -
    (bitsPoly ((List.range 32).map c.testBit) + bitsPoly (List.replicate 32 true))

end Fog.Spec
