/-!
# Specification: Cologne phonetics

The table of https://en.wikipedia.org/wiki/Cologne_phonetics, which depends on the letters before and after. Independent of the code.
-/

namespace Fog.Spec.Cologne

/-- The code of a letter between two letters. -/
def code (prev : Option Char) (c : Char) (next : Option Char) : List Char :=
  if c = 'A' ∨ c = 'E' ∨ c = 'I' ∨ c = 'J' ∨ c = 'O' ∨ c = 'U' ∨ c = 'Y' then ['0']
  else if c = 'B' then ['1']
  else if c = 'P' then if next = some 'H' then ['3'] else ['1']
  else if c = 'D' ∨ c = 'T' then if ∃ x ∈ ['C', 'S', 'Z'], next = some x then ['8'] else ['2']
  else if c = 'F' ∨ c = 'V' ∨ c = 'W' then ['3']
  else if c = 'G' ∨ c = 'K' ∨ c = 'Q' then ['4']
  else if c = 'C' then
    if prev = none then if ∃ x ∈ ['A', 'H', 'K', 'L', 'O', 'Q', 'R', 'U', 'X'], next = some x then ['4'] else ['8']
    else if prev = some 'S' ∨ prev = some 'Z' then ['8']
    else if ∃ x ∈ ['A', 'H', 'K', 'O', 'Q', 'U', 'X'], next = some x then ['4'] else ['8']
  else if c = 'X' then if ∃ x ∈ ['C', 'K', 'Q'], prev = some x then ['8'] else ['4', '8']
  else if c = 'L' then ['5']
  else if c = 'M' ∨ c = 'N' then ['6']
  else if c = 'R' then ['7']
  else if c = 'S' ∨ c = 'Z' then ['8']
  else []

/-- The codes of the letters of a name, from left to right. -/
def codes : Option Char → List Char → List (List Char)
  | _, [] => []
  | prev, c :: s => code prev c s.head? :: codes (some c) s

/-- One digit for each run of equal digits. -/
def collapse : List Char → List Char
  | [] => []
  | [c] => [c]
  | c :: d :: s => if c = d then collapse (d :: s) else c :: collapse (d :: s)

/-- Zeros are dropped, but for the first digit. -/
def dropZeros : List Char → List Char
  | [] => []
  | c :: s => c :: s.filter (· ≠ '0')

/-- The code of a name. -/
def cologne (name : List Char) : List Char := dropZeros (collapse (codes none name).flatten)

end Fog.Spec.Cologne
