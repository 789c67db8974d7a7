import Verif.Model.Words

/-!
`WordTokenizer` of `fog/tokenizers/words.py` as it is called: the constructor with all its arguments, token types being given as strings,
and `tokenize` with the options which prepare the string.
-/

namespace Fog.Words

/-- The string by which a type of token is known (words.py l. 90-100). -/
def Kind.name : Kind → String
  | .word => "word"
  | .number => "number"
  | .punct => "punct"
  | .emoji => "emoji"
  | .smiley => "smiley"
  | .url => "url"
  | .email => "email"
  | .hashtag => "hashtag"
  | .mention => "mention"

/-- `TOKEN_TYPES` (words.py l. 90-100). -/
def tokenTypes : List String := ["word", "number", "punct", "emoji", "smiley", "url", "email", "hashtag", "mention"]

/-- The arguments of the constructor (words.py l. 239-255). The bounds on the length of words are taken to be natural numbers; collections
are lists. -/
structure Arguments where
  lower : Bool := false
  unidecode : Bool := false
  reduce_words : Bool := false
  decode_html_entities : Bool := false
  normalize_mentions : Bool := false
  normalize_hashtags : Bool := false
  mentions_as_words : Bool := false
  hashtags_as_words : Bool := false
  split_hashtags : Bool := false
  min_word_length : Option Nat := none
  max_word_length : Option Nat := none
  stoplist : Option (List (List Char)) := none
  keep : Option (List String) := none
  drop : Option (List String) := none

/-- The tokenizer: its attributes (words.py l. 256-269), with `__only_defaults` (l. 293). -/
structure Tokenizer where
  args : Arguments
  only_defaults : Bool

/-- `validate_token_types(types)` (words.py l. 170-173), for the types in the order in which the set gives them. -/
def validateTokenTypes : List String → Py Unit
  | [] => pure ()
  | t :: ts => if t ∉ tokenTypes then throw .typeError else validateTokenTypes ts

/-- What the constructor does of `keep` or of `drop`, when it is neither `None` nor empty (words.py l. 285-291). The set is kept as the
list given. -/
def checkTypes : Option (List String) → Py Unit
  | none => pure ()
  | some ts => if ts.isEmpty then pure () else validateTokenTypes ts

/-- The bounds on the length of words, when both are given (words.py l. 274-276). -/
def checkLengths : Option Nat → Option Nat → Py Unit
  | some lo, some hi => if lo ≥ hi then throw .typeError else pure ()
  | _, _ => pure ()

/-- The stoplist which is kept (words.py l. 278-283). -/
def keptStoplist (lower : List Char → List Char) (a : Arguments) : Option (List (List Char)) :=
  a.stoplist.map fun l => if a.lower then l.map lower else l

/-- Whether one of the options of words.py l. 295-306 is given. -/
def anyTokenOption (a : Arguments) : Bool :=
  a.lower || a.normalize_mentions || a.normalize_hashtags || a.mentions_as_words || a.hashtags_as_words ||
    a.min_word_length.isSome || a.max_word_length.isSome || a.stoplist.isSome || a.keep.isSome || a.drop.isSome

variable (u : Unicode)

/-- `WordTokenizer.__init__` (words.py l. 239-307). -/
def init (a : Arguments) : Py Tokenizer := do
  if a.keep.isSome && a.drop.isSome then throw .typeError
  checkLengths a.min_word_length a.max_word_length
  checkTypes a.keep
  checkTypes a.drop
  pure { args := { a with stoplist := keptStoplist u.lower a }, only_defaults := !anyTokenOption a }

/-- What is called on the string before it is read: `html.unescape`, `unidecode_expect_ascii`, and the class `[^\W\d]` of
`LENGTHENING_RE` (words.py l. 14-43). -/
structure Preparation where
  unescape : List Char → List Char
  unidecode : List Char → List Char
  letter : Char → Bool

/-- The string which is read (words.py l. 603-610). -/
def prepare (p : Preparation) (a : Arguments) (s : List Char) : List Char :=
  let s := if a.decode_html_entities then p.unescape s else s
  let s := if a.unidecode then p.unidecode s else s
  if a.reduce_words then reduceLengthening p.letter s else s

/-- The turn of the loop for a token (words.py l. 616-667), its type being a string. -/
def turn (p : Preparation) (a : Arguments) (t : String × List Char) : Option (String × List Char) :=
  if a.keep.any fun k => decide (t.1 ∉ k) then none
  else if a.drop.any fun d => decide (t.1 ∈ d) then none
  else
    let t : String × List Char := if t.1 = "mention" then
        let v := if a.normalize_mentions then u.lower t.2 else t.2
        if a.mentions_as_words then ("word", v.drop 1) else (t.1, v)
      else if t.1 = "hashtag" then
        let v := if a.normalize_hashtags then p.unidecode (u.lower t.2) else t.2
        if a.hashtags_as_words then ("word", v.drop 1) else (t.1, v)
      else t
    if t.1 = "word" then
      let v := if a.lower then u.lower t.2 else t.2
      if a.min_word_length.any fun m => decide (v.length < m) then none
      else if a.max_word_length.any fun m => decide (m < v.length) then none
      else if a.stoplist.any fun l => decide (v ∈ l) then none
      else some ("word", v)
    else if a.stoplist.any fun l => decide (t.2 ∈ l) then none
    else some t

/-- `WordTokenizer.tokenize` (words.py l. 602-667), the generator being read to its end. -/
def Tokenizer.tokenize (p : Preparation) (w : Tokenizer) (s : List Char) : Py (List (String × List Char)) := do
  let ts ← tokenizeRaw u w.args.split_hashtags (prepare p w.args s)
  let named := ts.map fun t => (t.1.name, t.2)
  if w.only_defaults then pure named else pure (named.filterMap (turn u p w.args))

end Fog.Words
