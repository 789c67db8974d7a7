/-!
# Specification: short strings of 16-bit characters

Independent of the code.
-/

namespace Fog.Spec

/-- A string whose characters are below 65536 and which has less than 2 ^ 32 of them. -/
def Plain16 (s : List Nat) : Prop := (∀ c ∈ s, c < 65536) ∧ s.length < 2 ^ 32

end Fog.Spec
