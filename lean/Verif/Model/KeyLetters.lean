import Verif.Model.Py

/-!
# Model of `fog/key/omission.py` and `fog/key/skeleton.py`

A string is the list of its characters. `unidecode` is a parameter; its result is ASCII, on which `str.upper` is `Char.toUpper`.
-/

namespace Fog.KeyLetters

/-- The beginning of both functions (omission.py l. 43-50, skeleton.py l. 41-48): deburring, upper case, and dropping what is not in
`A-Z`. -/
def letters (unidecode : List Char → List Char) (string : List Char) : List Char :=
  ((unidecode string).map Char.toUpper).filter fun c => decide ('A' ≤ c ∧ c ≤ 'Z')

/-- `CONSONANTS` (omission.py l. 19). -/
def CONSONANTS : List Char :=
  ['J', 'K', 'Q', 'X', 'Z', 'V', 'W', 'Y', 'B', 'F', 'M', 'G', 'P', 'D', 'H', 'C', 'L', 'N', 'T', 'S', 'R']

/-- `VOWELS` (omission.py l. 20, skeleton.py l. 19). -/
def VOWELS : List Char := ['A', 'E', 'I', 'O', 'U']

/-- The first loop of `omission_key` (omission.py l. 61-65): `vowels` and `letters`. -/
def omissionLoop : List Char → List Char → List Char → List Char × List Char
  | [], vowels, letters => (vowels, letters)
  | letter :: string, vowels, letters =>
      if letter ∈ VOWELS ∧ letter ∉ vowels then omissionLoop string (vowels ++ [letter]) letters
      else omissionLoop string vowels (if letter ∈ letters then letters else letter :: letters)

/-- `omission_key(string)` (omission.py l. 23-72). -/
def omissionKey (unidecode : List Char → List Char) (string : List Char) : List Char :=
  let string := letters unidecode string
  if string.isEmpty then []
  else
    let (vowels, letters) := omissionLoop string [] []
    let consonants := CONSONANTS.foldl (fun consonants c => if c ∈ letters then consonants ++ [c] else consonants) []
    consonants ++ vowels

/-- `l.insert(i, x)` for `0 <= i` (skeleton.py l. 73). -/
def insert (l : List Char) (i : Nat) (x : Char) : List Char := l.take i ++ x :: l.drop i

/-- The loop of `skeleton_key` (skeleton.py l. 60-73): `key`, `consonants` and `vowels`. The subtraction `len(key) - len(vowels)` is
never negative. -/
def skeletonLoop (first_letter : Char) : List Char → List Char → List Char → List Char → List Char
  | [], key, _, _ => key
  | letter :: string, key, consonants, vowels =>
      if letter = first_letter then skeletonLoop first_letter string key consonants vowels
      else if letter ∈ VOWELS then
        if letter ∉ vowels then skeletonLoop first_letter string (key ++ [letter]) consonants (letter :: vowels)
        else skeletonLoop first_letter string key consonants vowels
      else if letter ∉ consonants then
        skeletonLoop first_letter string (insert key (key.length - vowels.length) letter) (letter :: consonants) vowels
      else skeletonLoop first_letter string key consonants vowels

/-- `skeleton_key(string)` (skeleton.py l. 22-75). -/
def skeletonKey (unidecode : List Char → List Char) (string : List Char) : List Char :=
  match letters unidecode string with
  | [] => []
  | first_letter :: rest => skeletonLoop first_letter rest [first_letter] [] []

end Fog.KeyLetters
