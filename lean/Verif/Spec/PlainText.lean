/-!
# Specification: the plain text of an ASCII text

Independent of the code.
-/

namespace Fog.Spec

/-- The white space of ASCII, as Python has it. -/
def asciiSpace (c : Char) : Bool := c.toNat = 32 || (9 ≤ c.toNat && c.toNat ≤ 13) || (28 ≤ c.toNat && c.toNat ≤ 31)

/-- What becomes of a character: separators are spaces, digits are kept or not, letters are made lower case, white space is kept and
everything else is dropped. -/
def plainChar (keepDigits : Bool) (separators : List Char) (c : Char) : Option Char :=
  if c ∈ separators then some ' '
  else if c.isDigit then (if keepDigits then some c else none)
  else if c.isUpper then some c.toLower
  else if c.isLower then some c
  else if asciiSpace c then some c
  else none

/-- The plain text of a text. -/
def plainText (keepDigits : Bool) (separators : List Char) (s : List Char) : List Char := s.filterMap (plainChar keepDigits separators)

end Fog.Spec
