import Verif.Model.Fingerprint

/-!
# Model of the stopwords of `fog/tokenizers/fingerprint.py`

The regular expression of the stopwords ignores case: whether two characters are the same but for their case depends on the Unicode tables
and is a parameter.
-/

namespace Fog.Fingerprint

variable (u : Unicode) (same : Char → Char → Bool)

/-- Whether the escaped word matches at the beginning of the text, ignoring case (fingerprint.py l. 73-75). -/
def samePrefix : List Char → List Char → Bool
  | [], _ => true
  | _ :: _, [] => false
  | a :: w, c :: s => same a c && samePrefix w s

/-- Whether `\bword\b` (fingerprint.py l. 74) matches at the beginning of `s`: `prev` is whether the character before is a word character. -/
def wordMatch (prev : Bool) (s w : List Char) : Bool :=
  (prev != s.head?.any u.isWord) && samePrefix same w s && ((s.take w.length).getLast?.any u.isWord != (s.drop w.length).head?.any u.isWord)

/-- Where the alternatives (fingerprint.py l. 73-76) match: the first one which does. An empty stopword matches without removing anything and
is passed over, as Python does since its version 3.7. -/
def stopMatch (stopwords : List (List Char)) (prev : Bool) (s : List Char) : Option Nat :=
  stopwords.findSome? fun w => if w ≠ [] ∧ wordMatch u same prev s w = true then some w.length else none

/-- `re.sub(self.stopwords_re, '', string)` (fingerprint.py l. 92-93 and 145-146). `skip` is what remains of the current match. -/
def dropStop (stopwords : List (List Char)) : Nat → Bool → List Char → List Char
  | _, _, [] => []
  | 0, prev, c :: s =>
      match stopMatch u same stopwords prev (c :: s) with
      | some k => dropStop stopwords (k - 1) (u.isWord c) s
      | none => c :: dropStop stopwords 0 (u.isWord c) s
  | skip + 1, _, c :: s => dropStop stopwords skip (u.isWord c) s

/-- The substitution made with the given stopwords (fingerprint.py l. 73-77). -/
def stopwordsSub (stopwords : List (List Char)) (string : List Char) : List Char := dropStop u same stopwords 0 false string

end Fog.Fingerprint
