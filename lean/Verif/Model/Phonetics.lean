import Verif.Model.Utils

/-!
# Model of `fog/phonetics/cologne.py` and `fog/phonetics/rusalka.py`

A string is the list of its characters. `str.upper`, `str.lower` and `unidecode` are parameters.
-/

namespace Fog.Phonetics

/-- `re.sub(pattern, r, string)` for a pattern given by the length of its match at a position: `m first s` is the length of the match at the
beginning of `s`, `0` when there is none, and `first` tells whether it is the beginning of the string (rusalka.py l. 88, 94, 101, 104, 111). `skip` is what remains of the current
match. It is also `string.replace(p, r)`. -/
def subst (m : Bool → List Char → Nat) (r : List Char) : Nat → Bool → List Char → List Char
  | _, _, [] => []
  | 0, first, c :: s =>
      match m first (c :: s) with
      | 0 => c :: subst m r 0 false s
      | k + 1 => r ++ subst m r k false s
  | skip + 1, _, _ :: s => subst m r skip false s

/-- The match of a literal pattern (rusalka.py l. 88, 101). -/
def literal (p : List Char) (_ : Bool) (s : List Char) : Nat := if p.isPrefixOf s then p.length else 0

/-- `string.replace(p, r)` where `p` is not empty (cologne.py l. 85, 124). -/
def replace (p r s : List Char) : List Char := subst (literal p) r 0 true s

/-! ### Cologne -/

/-- `CODES.get(letter)` (cologne.py l. 21-52). -/
def codes (c : Char) : Option Char :=
  if c ∈ ['A', 'E', 'I', 'O', 'U', 'J', 'Y'] then some '0'
  else if c ∈ ['B', 'P'] then some '1'
  else if c ∈ ['F', 'V', 'W'] then some '3'
  else if c ∈ ['G', 'K', 'Q'] then some '4'
  else if c = 'L' then some '5'
  else if c ∈ ['M', 'N'] then some '6'
  else if c = 'R' then some '7'
  else if c ∈ ['S', 'Z'] then some '8'
  else none

/-- cologne.py l. 54. -/
def DT : List Char := ['C', 'S', 'Z']
/-- cologne.py l. 55. -/
def CFOLLOWING1 : List Char := ['A', 'H', 'K', 'L', 'O', 'Q', 'R', 'U', 'X']
/-- cologne.py l. 56. -/
def CFOLLOWING2 : List Char := ['A', 'H', 'K', 'O', 'Q', 'U', 'X']
/-- cologne.py l. 57. -/
def CPREVIOUS : List Char := ['S', 'Z']
/-- cologne.py l. 58. -/
def XS : List Char := ['C', 'Q', 'K']

/-- `name[i - 1]`: the last letter when `i` is zero (cologne.py l. 110, 118). -/
def before (name : List Char) (i : Nat) : Option Char := if i = 0 then name.getLast? else name[i - 1]?

/-- The code appended for the letter at index `i` (cologne.py l. 94-118); `none` when nothing is appended. -/
def codeAt (name : List Char) (i : Nat) (letter : Char) : Option (List Char) :=
  let last_i := name.length - 1
  match codes letter with
  | some d => some [d]
  | none =>
      if letter = 'D' ∨ letter = 'T' then
        if i < last_i ∧ name[i + 1]?.any DT.contains then some ['8'] else some ['2']
      else if letter = 'C' then
        if (name.length > 1 ∧ (i = 0 ∧ name[i + 1]?.any CFOLLOWING1.contains)) ∨
            (i < last_i ∧ name[i + 1]?.any CFOLLOWING2.contains ∧ (before name i).all fun p => !CPREVIOUS.contains p) then some ['4']
        else some ['8']
      else if letter = 'X' then
        if i > 0 ∧ (before name i).any XS.contains then some ['8'] else some ['4', '8']
      else none

/-- The list `code` (cologne.py l. 90-118). -/
def codeList (name : List Char) : List (List Char) := (name.zipIdx).filterMap fun x => codeAt name x.2 x.1

/-- The end of `cologne` (cologne.py l. 120-126). -/
def finishCode : List (List Char) → List Char
  | [] => []
  | c :: code => c ++ (Utils.squeeze code.flatten false).filter (· ≠ '0')

/-- The preparation of the name (cologne.py l. 82-88). `upper` leaves no `ß`, but its substitution is kept. -/
def prepare (upper unidecode : List Char → List Char) (name : List Char) : List Char :=
  let name := upper name
  let name := replace ['Ä'] ['A'] name
  let name := replace ['Ö'] ['O'] name
  let name := replace ['Ü'] ['U'] name
  let name := replace ['ß'] ['S', 'S'] name
  let name := replace ['P', 'H'] ['F'] name
  (unidecode name).filter fun c => decide ('A' ≤ c ∧ c ≤ 'Z')

/-- `cologne(name)` (cologne.py l. 69-126). -/
def cologne (upper unidecode : List Char → List Char) (name : List Char) : List Char :=
  finishCode (codeList (prepare upper unidecode name))

/-! ### Rusalka -/

/-- `i[jy]$` (rusalka.py l. 67): on a string without newlines, only the last two characters. -/
def dropEnd : List Char → List Char
  | [] => []
  | [c] => [c]
  | c :: d :: s => if c = 'i' ∧ (d = 'j' ∨ d = 'y') ∧ s = [] then [] else c :: dropEnd (d :: s)

/-- `[fvw]|ph` (rusalka.py l. 68). -/
def mF (_ : Bool) : List Char → Nat
  | 'f' :: _ => 1
  | 'v' :: _ => 1
  | 'w' :: _ => 1
  | 'p' :: 'h' :: _ => 2
  | _ => 0

/-- `^[jy]?e` (rusalka.py l. 69). -/
def mE : Bool → List Char → Nat
  | true, 'j' :: 'e' :: _ => 2
  | true, 'y' :: 'e' :: _ => 2
  | true, 'e' :: _ => 1
  | _, _ => 0

/-- `[dt]?[cs]h|tz` (rusalka.py l. 70). -/
def mCh (_ : Bool) : List Char → Nat
  | 'd' :: 'c' :: 'h' :: _ => 3
  | 'd' :: 's' :: 'h' :: _ => 3
  | 't' :: 'c' :: 'h' :: _ => 3
  | 't' :: 's' :: 'h' :: _ => 3
  | 'c' :: 'h' :: _ => 2
  | 's' :: 'h' :: _ => 2
  | 't' :: 'z' :: _ => 2
  | _ => 0

/-- `[dt]?(?:zh|j)` (rusalka.py l. 71). -/
def mZh (_ : Bool) : List Char → Nat
  | 'd' :: 'z' :: 'h' :: _ => 3
  | 't' :: 'z' :: 'h' :: _ => 3
  | 'd' :: 'j' :: _ => 2
  | 't' :: 'j' :: _ => 2
  | 'z' :: 'h' :: _ => 2
  | 'j' :: _ => 1
  | _ => 0

/-- `^y(?=[aeiou])|iou` (rusalka.py l. 73). -/
def mY : Bool → List Char → Nat
  | first, 'y' :: c :: _ => if first ∧ c ∈ ['a', 'e', 'i', 'o', 'u'] then 1 else 0
  | _, 'i' :: 'o' :: 'u' :: _ => 3
  | _, _ => 0

/-- `[cg]` (rusalka.py l. 74). -/
def mK (_ : Bool) : List Char → Nat
  | 'c' :: _ => 1
  | 'g' :: _ => 1
  | _ => 0

/-- The rules, in order (rusalka.py l. 65-76). -/
def rules (name : List Char) : List Char :=
  let name := replace ['c', 'z'] ['t', 's'] name
  let name := dropEnd name
  let name := subst mF ['f'] 0 true name
  let name := subst mE ['J'] 0 true name
  let name := subst mCh ['ʃ'] 0 true name
  let name := subst mZh ['ʒ'] 0 true name
  let name := replace ['k', 's'] ['x'] name
  let name := subst mY ['j'] 0 true name
  let name := subst mK ['k'] 0 true name
  name.filter (· ≠ 'h')

/-- `[aeiouy]` (rusalka.py l. 57). -/
def vowel (c : Char) : Bool := ['a', 'e', 'i', 'o', 'u', 'y'].contains c

/-- The end of `rusalka`, once irrelevant characters are dropped (rusalka.py l. 94-117). `lower` is `str.lower`; `(.)\1+` matches no newline,
but there is none. -/
def finishName (lower : List Char → List Char) (name : List Char) : Py (List Char) :=
  if name.length < 2 then pure (lower name)
  else
    match lower (Utils.subRuns (fun _ => true) (rules name)) with
    | [] => .error .indexError
    | c :: rest => pure ((if vowel c then 'a' else c) :: rest.filter fun c => !vowel c)

/-- The phonetic notation rules (rusalka.py l. 59-63 and 87-88). -/
def notationRules (name : List Char) : List Char :=
  let name := name.flatMap fun c => if c ∈ ['č', 'š', 'ŝ'] then ['c', 'h'] else [c]
  let name := name.flatMap fun c => if c = 'û' then ['i', 'o', 'u'] else [c]
  name.flatMap fun c => if c = 'ž' then ['z', 'h'] else [c]

/-- `rusalka(name)` (rusalka.py l. 81-117). -/
def rusalka (lower unidecode : List Char → List Char) (name : List Char) : Py (List Char) :=
  finishName lower ((unidecode (notationRules (lower name))).filter fun c => decide ('a' ≤ c ∧ c ≤ 'z'))

end Fog.Phonetics
