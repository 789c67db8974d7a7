import Verif.Model.Utils
import Verif.Model.Ngrams
import Mathlib.Data.List.Lex
import Mathlib.Data.Char

/-!
# Model of `fog/tokenizers/fingerprint.py` and `fog/key/fingerprint.py`

A string is the list of its characters. What depends on the Unicode tables is a parameter: `str.lower`, `unidecode`, and the classes
`\d`, `\w` and `\s` of regular expressions (`str.strip` removes the characters of `\s`).
-/

namespace Fog.Fingerprint

/-- The Unicode tables (fingerprint.py l. 45-47, 100, 107). -/
structure Unicode where
  lower : List Char → List Char
  unidecode : List Char → List Char
  isDigit : Char → Bool
  isWord : Char → Bool
  isSpace : Char → Bool

/-- A `FingerprintTokenizer` (fingerprint.py l. 50-83). `split` is the joined list of characters; an empty one makes the constructor
raise and is not modelled. `stopwords` is the substitution by the regular expression of the stopwords, see `stopwordsSub`. -/
structure Options where
  keep_digits : Bool := true
  min_token_size : Nat := 1
  split : Option (List Char) := none
  stopwords : Option (List Char → List Char) := none
  squeeze : Bool := false

variable (u : Unicode)

/-- Where `\b\S{1,n}\b` (fingerprint.py l. 83) matches at the beginning of `s`: `prev` is whether the character before is a word
character. The quantifier is greedy. -/
def shortMatch (n : Nat) (prev : Bool) : List Char → Option Nat
  | [] => none
  | c :: s =>
      if prev = u.isWord c then none
      else (List.range n).reverse.findSome? fun k =>
        if k < (c :: s).length ∧ ((c :: s).take (k + 1)).all (fun x => !u.isSpace x) ∧
            ((c :: s)[k]?.any u.isWord) ≠ ((c :: s)[k + 1]?.any u.isWord) then some (k + 1)
        else none

/-- `re.sub(self.min_token_size_re, '', string)` (fingerprint.py l. 103-104). `skip` is what remains of the current match. -/
def dropShort (n : Nat) : Nat → Bool → List Char → List Char
  | _, _, [] => []
  | 0, prev, c :: s =>
      match shortMatch u n prev (c :: s) with
      | some k => dropShort n (k - 1) (u.isWord c) s
      | none => c :: dropShort n 0 (u.isWord c) s
  | skip + 1, _, c :: s => dropShort n skip (u.isWord c) s

/-- What is not in `BLACKLIST_RE` (fingerprint.py l. 47). -/
def allowed (c : Char) : Bool := decide (('a' ≤ c ∧ c ≤ 'z') ∨ ('0' ≤ c ∧ c ≤ '9')) || u.isSpace c

/-- `string.strip()` (fingerprint.py l. 113, 166). -/
def strip (s : List Char) : List Char := ((s.dropWhile u.isSpace).reverse.dropWhile u.isSpace).reverse

/-- The text before trimming, in both classes (fingerprint.py l. 87-110 and 140-163). -/
def clean (o : Options) (string : List Char) : List Char :=
  let string := match o.split with
    | none => string
    | some chars => string.map fun c => if c ∈ chars then ' ' else c
  let string := match o.stopwords with
    | none => string
    | some sub => sub string
  let string := if o.keep_digits then string else string.filter fun c => !u.isDigit c
  let string := u.lower string
  let string := if o.min_token_size > 1 then dropShort u o.min_token_size 0 false string else string
  let string := u.unidecode string
  string.filter (allowed u)

/-- Trimming and squeezing (fingerprint.py l. 113-117 and 166-170). -/
def trim (o : Options) (string : List Char) : List Char :=
  let string := strip u string
  if o.squeeze then Utils.squeeze string false else string

/-- The loop of `re.split(WHITESPACE_RE, string)`: `cur` is the current piece, `sep` whether the last character was a separator (fingerprint.py l. 120). -/
def splitLoop : List Char → Bool → List Char → List (List Char)
  | cur, _, [] => [cur]
  | cur, sep, c :: s =>
      if u.isSpace c then
        if sep then splitLoop cur true s else cur :: splitLoop [] true s
      else splitLoop (cur ++ [c]) false s

/-- `sorted(set(tokens))` (fingerprint.py l. 123-126 and 177-180). -/
def sortedSet (tokens : List (List Char)) : List (List Char) := (dedup tokens).mergeSort fun a b => decide (a ≤ b)

/-- `FingerprintTokenizer.tokenize(string)` (fingerprint.py l. 85-128). -/
def tokenize (o : Options) (string : List Char) : List (List Char) :=
  sortedSet (splitLoop u [] false (trim u o (clean u o string)))

/-- `FingerprintTokenizer.key(string)` (fingerprint.py l. 133-134), that is `fingerprint` (key/fingerprint.py l. 13-15). -/
def key (o : Options) (string : List Char) : List Char := [' '].intercalate (tokenize u o string)

/-- `NgramsFingerprintTokenizer.tokenize(n, string)` (fingerprint.py l. 138-182). -/
def ngramsTokenize (o : Options) (n : Nat) (string : List Char) : List (List Char) :=
  sortedSet (Ngrams.ngrams n ((trim u o (clean u o string)).filter fun c => !u.isSpace c))

/-- `NgramsFingerprintTokenizer.key(n, string)` (fingerprint.py l. 187-188). -/
def ngramsKey (o : Options) (n : Nat) (string : List Char) : List Char := (ngramsTokenize u o n string).flatten

end Fog.Fingerprint
