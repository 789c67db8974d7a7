/-!
# Specification: the words which the tokenizer treats apart

Independent of the code: the lists of abbreviations, contractions and pronouns, and how addresses begin.
-/

namespace Fog.Spec

/-- Abbreviations which keep the point that follows them. -/
def abbreviations : List (List Char) :=
  ["apt", "appt", "dr", "etc", "jr", "m", "mgr", "min", "mr", "mrs", "ms", "mme", "mlle", "no", "p", "pp", "prof", "sr", "st",
    "vs"].map String.toList

/-- What may follow the apostrophe of an English contraction which is a token of its own. -/
def contractions : List (List Char) := ["ll", "re", "m", "s", "ve", "d"].map String.toList

/-- The old contractions which begin with an apostrophe. -/
def archaisms : List (List Char) := ["tis", "twas"].map String.toList

/-- The French pronouns which may be joined to a verb by a hyphen. -/
def pronouns : List (List Char) :=
  ["je", "tu", "il", "ils", "elle", "elles", "nous", "vous", "on", "le", "la", "les", "moi", "toi", "lui", "y"].map String.toList

/-- The signs which may stand once inside a number. -/
def decimalSigns : List Char := ['.', ',']

/-- Control characters. -/
def Control (c : Char) : Prop := c.toNat < 32

instance (c : Char) : Decidable (Control c) := inferInstanceAs (Decidable (c.toNat < 32))

/-- Apostrophes. -/
def Apostrophe (c : Char) : Prop := c = '\'' ∨ c = '’'

/-- The signs which begin hashtags and mentions. -/
def Sigil (c : Char) : Prop := c = '#' ∨ c = '@' ∨ c = '$'

/-- Letters of ASCII. -/
def AsciiLetter (c : Char) : Prop := ('A' ≤ c ∧ c ≤ 'Z') ∨ ('a' ≤ c ∧ c ≤ 'z')

/-- Characters of the names of accounts: letters, digits and underscores. -/
def NameChar (c : Char) : Prop := AsciiLetter c ∨ ('0' ≤ c ∧ c ≤ '9') ∨ c = '_'

/-- What the tokenizer accepts before the `@` of an address. -/
def LocalChar (c : Char) : Prop :=
  AsciiLetter c ∨ ('0' ≤ c ∧ c ≤ '9') ∨
  c ∈ ['!', '#', '$', '%', '&', '*', '+', '-', '/', '=', '?', '^', '_', '`', '{', '|', '}', '~']

/-- The text begins as an e-mail address: one to sixty-three characters, then `@`. -/
def MailStart (t : List Char) : Prop :=
  ∃ loc rest, t = loc ++ '@' :: rest ∧ 1 ≤ loc.length ∧ loc.length ≤ 63 ∧ ∀ c ∈ loc, LocalChar c

/-- The text begins as the address of a page. -/
def UrlStart (t : List Char) : Prop := "http://".toList <+: t ∨ "https://".toList <+: t

end Fog.Spec
