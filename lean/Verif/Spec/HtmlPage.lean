/-!
# Specification: reading an HTML page, numbers with thousands separators, durations

A reader of the part of HTML made of tags without attributes and of texts. As browsers do, `<` is text unless a letter, `/`, `!` or `?`
follows, white space is shown as one space at most, and the references `&amp;`, `&lt;`, `&gt;` and `&quot;` are replaced. Other references are
left as they are.
-/

namespace Fog.Spec.Html

/-- Whether a tag begins when `<` is before this character. -/
def opens (c : Char) : Bool := c.isAlpha || c == '/' || c == '!' || c == '?'

/-- Tags and characters. -/
inductive Token
  | tag (name : List Char)
  | char (c : Char)
  deriving DecidableEq

/-- The tokens of a text, outside of a tag or inside of one whose name, read backwards, begins with what is given. -/
def tokens : Option (List Char) → List Char → List Token
  | _, [] => []
  | some name, c :: text => if c = '>' then .tag name.reverse :: tokens none text else tokens (some (c :: name)) text
  | none, c :: text =>
      if c = '<' ∧ text.head?.any opens then tokens (some []) text
      else .char c :: tokens none text

/-- The text before the first tag. -/
def before : List Token → List Char
  | .char c :: l => c :: before l
  | _ => []

/-- The tags, each with the text between it and the next one. -/
def sections : List Token → List (List Char × List Char)
  | [] => []
  | .tag name :: l => (name, before l) :: sections l
  | .char _ :: l => sections l

/-- White space. -/
def blank (c : Char) : Bool := c == ' ' || c == '\n' || c == '\t' || c == '\r' || c == '\x0c'

/-- A text with its white space reduced: none at both ends, one space between words. The first argument tells whether a word
was read, the second one whether there was white space after it. -/
def squeeze : Bool → Bool → List Char → List Char
  | _, _, [] => []
  | started, due, c :: text =>
      if blank c then squeeze started true text
      else if started ∧ due then ' ' :: c :: squeeze true false text
      else c :: squeeze true false text

/-- A text with its references replaced. -/
def unescape : List Char → List Char
  | '&' :: 'a' :: 'm' :: 'p' :: ';' :: text => '&' :: unescape text
  | '&' :: 'l' :: 't' :: ';' :: text => '<' :: unescape text
  | '&' :: 'g' :: 't' :: ';' :: text => '>' :: unescape text
  | '&' :: 'q' :: 'u' :: 'o' :: 't' :: ';' :: text => '"' :: unescape text
  | c :: text => c :: unescape text
  | [] => []

/-- A text as shown. -/
def shown (text : List Char) : List Char := unescape (squeeze false false text)

/-- The elements of some name: their sections up to the closing tag or to the next element of this name, as rows, cells and items do not
nest. -/
def elements (name : List Char) : List (List Char × List Char) → List (List (List Char × List Char))
  | [] => []
  | s :: l => if s.1 = name then (s :: l.takeWhile fun x => x.1 ≠ name ∧ x.1 ≠ '/' :: name) :: elements name l else elements name l

/-- The text of an element as shown. -/
def content (element : List (List Char × List Char)) : List Char := shown (element.flatMap (·.2))

/-- The sections of a page. -/
def page (text : List Char) : List (List Char × List Char) := sections (tokens none text)

/-- The rows of the tables of a page. -/
def rows (text : List Char) : List (List (List Char)) :=
  (elements "tr".toList (page text)).map fun r => (elements "td".toList r).map content

/-- The first line of the paragraphs of a page: what is between `<p>` and the next tag. -/
def paragraphs (text : List Char) : List (List Char) := ((page text).filter fun s => s.1 = "p".toList).map fun s => shown s.2

/-- The lists of a page, with their items. -/
def lists (text : List Char) : List (List (List Char)) :=
  (elements "ul".toList (page text)).map fun l => (elements "li".toList l).map content

/-- No tag begins in the text, whatever follows it. -/
def NoTag (text : List Char) : Prop := ∀ a c b, text = a ++ '<' :: c :: b → opens c = false

end Fog.Spec.Html

namespace Fog.Spec

/-- `n` written with digits, by groups of three with commas between them: the first group has one to three digits. -/
def Thousands (n : Nat) (text : List Char) : Prop :=
  ∃ first groups, text = [','].intercalate (first :: groups) ∧ 0 < first.length ∧ first.length ≤ 3 ∧ (∀ g ∈ groups, g.length = 3) ∧
    (∀ g ∈ first :: groups, ∀ c ∈ g, c.isDigit = true) ∧ (first.head? = some '0' → first = ['0'] ∧ groups = []) ∧
    Nat.ofDigitChars 10 (first :: groups).flatten 0 = n

/-- `n` written on `k` digits. -/
def Digits (k n : Nat) (text : List Char) : Prop :=
  text.length = k ∧ (∀ c ∈ text, c.isDigit = true) ∧ Nat.ofDigitChars 10 text 0 = n

/-- A number of microseconds written as days, hours, minutes, seconds and microseconds: the days only when there are some, and the microseconds
only when there are some. -/
def Duration (us : Nat) (text : List Char) : Prop :=
  ∃ days hours minutes seconds rest : Nat, ∃ d h m s r : List Char,
    us = (((days * 24 + hours) * 60 + minutes) * 60 + seconds) * 1000000 + rest ∧
    hours < 24 ∧ minutes < 60 ∧ seconds < 60 ∧ rest < 1000000 ∧
    (if days = 0 then d = [] else ∃ k w, Digits k days w ∧ d = w ++ if days = 1 then " day, ".toList else " days, ".toList) ∧
    (Digits 1 hours h ∨ Digits 2 hours h) ∧ Digits 2 minutes m ∧ Digits 2 seconds s ∧
    (if rest = 0 then r = [] else ∃ w, Digits 6 rest w ∧ r = '.' :: w) ∧
    text = d ++ h ++ ':' :: m ++ ':' :: s ++ r

end Fog.Spec
