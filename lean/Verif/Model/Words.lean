import Verif.Model.Py

/-!
# Model of `fog/tokenizers/words.py`

A string is the list of its characters. The Unicode predicates of `str` and the regular expressions for smileys, emojis and emails are
parameters. Tokens are pairs of a type and a value, in the order the generators yield them.
-/

namespace Fog.Words

/-- Token types (words.py l. 90-100). -/
inductive Kind
  | word | number | punct | emoji | smiley | url | email | hashtag | mention
  deriving DecidableEq, Repr

/-- A token yielded: its type and its text (for instance words.py l. 134). -/
abbrev Token := Kind × List Char

/-- The methods of `str` on one character, and the regular expressions (words.py l. 38-41, 188-231, 317).

* `smiley s`: the end of the match of `SMILEY_RE` at the beginning of `s` (l. 40); see `smileyRe` below.
* `emojis s`: the starts and ends of the matches of `EMOJI_RE` in `s`, from left to right (l. 41).
* `email s`: whether `EMAIL_LOOKAHEAD_RE` matches at the beginning of `s` (l. 39, 124-125); see `emailRe` below.
* `consonant`: `is_consonant` (l. 116-117); see `consonantRe` below. -/
structure Unicode where
  isSpace : Char → Bool
  isAlnum : Char → Bool
  isAlpha : Char → Bool
  isDigit : Char → Bool
  isUpper : Char → Bool
  isLower : Char → Bool
  lower : List Char → List Char
  smiley : List Char → Option Nat
  emojis : List Char → List (Nat × Nat)
  email : List Char → Bool
  consonant : Char → Bool

variable (u : Unicode)

/-- words.py l. 32. -/
def DECIMALS : List Char := ['.', ',']
/-- words.py l. 33. -/
def IDENTIFIER_PARTS : List Char := ['-', '_']
/-- words.py l. 34. -/
def APOSTROPHES : List Char := ['\'', '’']
/-- words.py l. 35. -/
def SIGILS : List Char := ['#', '@', '$']
/-- words.py l. 45. -/
def ENGLISH_CONTRACTIONS : List (List Char) := ["ll", "re", "m", "s", "ve", "d"].map String.toList
/-- words.py l. 46. -/
def ENGLISH_ARCHAIC_CONTRACTIONS : List (List Char) := ["tis", "twas"].map String.toList
/-- words.py l. 48-66. -/
def FRENCH_UNION_TARGETS : List (List Char) :=
  ["je", "tu", "il", "ils", "elle", "elles", "nous", "vous", "on", "le", "la", "les", "moi", "toi", "lui", "y"].map String.toList
/-- words.py l. 67-88. -/
def ABBREVIATIONS : List (List Char) :=
  ["apt", "appt", "dr", "etc", "jr", "m", "mgr", "min", "mr", "mrs", "ms", "mme", "mlle", "no", "p", "pp", "prof", "sr", "st",
    "vs"].map String.toList

/-- `is_ascii_junk` (words.py l. 103-104). -/
def isJunk (c : Char) : Bool := decide (c ≤ Char.ofNat 0x1f)

/-- `is_valid_twitter_char` (words.py l. 107-113). -/
def isTwitter (c : Char) : Bool := c == '_' || decide ('0' ≤ c ∧ c ≤ '9') || decide ('a' ≤ c ∧ c ≤ 'z') || decide ('A' ≤ c ∧ c ≤ 'Z')

/-- `starts_as_url` (words.py l. 120-121). -/
def startsAsUrl (s : List Char) : Bool := "http://".toList.isPrefixOf s || "https://".toList.isPrefixOf s

/-- The loop of `with_holes` (words.py l. 128-141). -/
def withHolesFrom (s : List Char) : List (Nat × Nat) → Nat → List Token
  | [], last => (s.drop last).map fun c => (.punct, [c])
  | (a, b) :: ms, last =>
      (slice s last a).map (fun c => (Kind.punct, [c])) ++ (Kind.emoji, slice s a b) :: withHolesFrom s ms b

/-- `with_holes(EMOJI_RE.finditer(string), string)` (words.py l. 147). -/
def withHoles (s : List Char) : List Token := withHolesFrom s (u.emojis s) 0

/-- The loop of `punct_emoji_iter` (words.py l. 144-163): an emoji followed by the variation selector is joined with it. -/
def joinEmojis : List Token → List Token
  | [] => []
  | [t] => [t]
  | t :: t' :: ts =>
      if t.1 = .emoji ∧ t'.1 = .punct ∧ t'.2 = [Char.ofNat 0xfe0f] then (.emoji, t.2 ++ t'.2) :: joinEmojis ts
      else t :: joinEmojis (t' :: ts)

/-- `punct_emoji_iter` (words.py l. 144-163). -/
def punctEmoji (s : List Char) : List Token := joinEmojis (withHoles u s)

/-- `reduce_lenghtening` (words.py l. 166-167) with `LENGTHENING_RE` (l. 43): `cls` is the class `[^\W\d]`. -/
def reduceLengthening (cls : Char → Bool) : List Char → List Char
  | [] => []
  | c :: s =>
      if cls c ∧ 4 ≤ (s.takeWhile (· == c)).length then c :: c :: c :: reduceLengthening cls (s.dropWhile (· == c))
      else c :: reduceLengthening cls s
  termination_by s => s.length
  decreasing_by
    · have := (List.dropWhile_sublist (fun x => x == c) (l := s)).length_le
      simp only [List.length_cons]
      omega
    · simp

/-- `[:;=8]` (words.py l. 40). -/
def eyes : List Char := [':', ';', '=', '8']
/-- `[\-o\*\']` (words.py l. 40). -/
def noses : List Char := ['-', 'o', '*', '\'']
/-- `[\)\]\(\[dDpP/\:\}\{@\|\\]` (words.py l. 40). -/
def mouths : List Char := [')', ']', '(', '[', 'd', 'D', 'p', 'P', '/', ':', '}', '{', '@', '|', '\\']

/-- `[\-o\*\']?[...]` from the rest of the string; `k` is what is already matched (words.py l. 40). -/
def noseThen (last : List Char) (k : Nat) : List Char → Option Nat
  | n :: rest =>
      match (if n ∈ noses then rest.head? else none) with
      | some m => if m ∈ last then some (k + 2) else if n ∈ last then some (k + 1) else none
      | none => if n ∈ last then some (k + 1) else none
  | [] => none

/-- `SMILEY_RE.match(s)`, alternative by alternative (words.py l. 40): the end of the match. -/
def smileyRe (s : List Char) : Option Nat :=
  let dashes := (s.takeWhile (· == '-')).length
  let arrow : Option Nat := if 1 ≤ dashes ∧ s[dashes]? = some '>' then some (dashes + 1) else none
  let back : Option Nat := match s with
    | '<' :: rest =>
        let k := (rest.takeWhile (· == '-')).length
        if 1 ≤ k then some (k + 1) else none
    | _ => none
  let hat := match s with
    | c :: _ => if c = '<' ∨ c = '>' then 1 else 0
    | [] => 0
  let right : Option Nat := match s.drop hat with
    | c :: rest => if c ∈ eyes then noseThen mouths (hat + 1) rest else none
    | [] => none
  let left : Option Nat := match s with
    | c :: rest => if c ∈ mouths then noseThen eyes 1 rest else none
    | [] => none
  let heart : Option Nat := match s with
    | c :: d :: _ => if (c = '<' ∨ c = ':') ∧ d = '3' then some 2 else none
    | _ => none
  let hats : Option Nat := match s with
    | '^' :: '^' :: _ => some 2
    | _ => none
  arrow <|> back <|> right <|> left <|> heart <|> hats

/-- `EMAIL_LOOKAHEAD_RE.match(s)` (words.py l. 39). -/
def emailRe (s : List Char) : Bool :=
  let k := (s.takeWhile fun c => decide (('A' ≤ c ∧ c ≤ 'Z') ∨ ('a' ≤ c ∧ c ≤ 'z') ∨ ('0' ≤ c ∧ c ≤ '9')) ||
    "!#$%&*+-/=?^_`{|}~".toList.contains c).length
  decide (1 ≤ k ∧ k ≤ 64) && decide (s[k]? = some '@')

/-- `CONSONANTS_RE.match(c)` (words.py l. 37-38). -/
def consonantRe (c : Char) : Bool := !"aáàâäąåoôóøeéèëêęiíïîıuúùûüyÿæœAÁÀÂÄĄÅOÓÔØEÉÈËÊĘIİÍÏÎYŸUÚÙÛÜÆŒ".toList.contains c

/-! ### Hashtags -/

/-- The states of `split_hashtag` (words.py l. 179-235). -/
inductive HState
  | lower | upperStart | upperNext | number
  deriving DecidableEq, Repr

/-- The loop of `split_hashtag` (words.py l. 186-233); `rest` is what remains to be enumerated, from index `i`. -/
def hashtagLoop (s : List Char) : HState → Nat → Nat → List Char → List Token
  | st, offset, _, [] => [(if st = .number then .number else .word, s.drop offset)]
  | .lower, offset, i, c :: rest =>
      if u.isUpper c then (.word, slice s offset i) :: hashtagLoop s .upperStart i (i + 1) rest
      else if u.isDigit c then (.word, slice s offset i) :: hashtagLoop s .number i (i + 1) rest
      else hashtagLoop s .lower offset (i + 1) rest
  | .upperStart, offset, i, c :: rest =>
      if u.isLower c then hashtagLoop s .lower offset (i + 1) rest
      else if u.isUpper c then hashtagLoop s .upperNext offset (i + 1) rest
      else if u.isDigit c then (.word, slice s offset i) :: hashtagLoop s .number i (i + 1) rest
      else hashtagLoop s .upperStart offset (i + 1) rest
  | .upperNext, offset, i, c :: rest =>
      if u.isLower c then (.word, slice s offset (i - 1)) :: hashtagLoop s .lower (i - 1) (i + 1) rest
      else if u.isDigit c then (.word, slice s offset i) :: hashtagLoop s .number i (i + 1) rest
      else hashtagLoop s .upperNext offset (i + 1) rest
  | .number, offset, i, c :: rest =>
      if u.isDigit c then hashtagLoop s .number offset (i + 1) rest
      else if u.isUpper c then (.number, slice s offset i) :: hashtagLoop s .upperStart i (i + 1) rest
      else (.number, slice s offset i) :: hashtagLoop s .lower i (i + 1) rest

/-- `split_hashtag(string)` (words.py l. 176-235). -/
def splitHashtag (s : List Char) : Py (List Token) :=
  match s[1]? with
  | none => .error .indexError
  | some c => .ok (hashtagLoop u s (if u.isDigit c then .number else .upperStart) 1 2 (s.drop 2))

/-! ### Words -/

/-- The loop for numbers (words.py l. 402-440), from index `j`. Returns the index, `already_consumed` and the type. -/
def numberLoop : List Char → Nat → Char → Option Char → Kind → Nat × Bool × Kind
  | [], j, _, _, kind => (j, true, kind)
  | n :: rest, j, last, decimal, kind =>
      if u.isSpace n then (j, true, kind)
      else if ¬ u.isDigit n then
        if last ∈ DECIMALS then (j - 1, true, kind)
        else if last ≠ '-' ∧ (u.isAlpha n ∨ n ∈ IDENTIFIER_PARTS) then (j, false, .word)
        else if n ∉ DECIMALS then (j, true, kind)
        else if decimal ≠ none then (j, true, kind)
        else numberLoop rest (j + 1) n (some n) .number
      else numberLoop rest (j + 1) n decimal .number

/-- The loop for words (words.py l. 457-487), from index `j`, after character `prev`. `whole` is whether the token may be a url or an
email. Returns the index and `can_be_acronym`. -/
def wordLoop (whole : Bool) : List Char → Nat → Char → Bool → Nat × Bool
  | [], j, _, acronym => (j, acronym)
  | n :: rest, j, prev, acronym =>
      if u.isSpace n then (j, acronym)
      else if whole then
        if n = ',' then (j, acronym) else wordLoop whole rest (j + 1) n acronym
      else if n ∈ IDENTIFIER_PARTS ∨ n = '·' then
        match rest with
        | [] => (j, acronym)
        | n' :: _ => if u.isSpace n' then (j, acronym) else wordLoop whole rest (j + 1) n acronym
      else if ¬ u.isAlnum n then
        if n = '.' ∧ u.isUpper prev then wordLoop whole rest (j + 1) n true else (j, acronym)
      else wordLoop whole rest (j + 1) n acronym

/-- `POINT_SPLITTER_RE.split(before)`: the pieces and the points between them (words.py l. 42). -/
def pointSplit : List Char → List Char → List (List Char)
  | cur, [] => [cur]
  | cur, c :: s => if c = '.' then cur :: ['.'] :: pointSplit [] s else pointSplit (cur ++ [c]) s

/-- `before.split(sep)` (words.py l. 501, 577, 581). -/
def splitOn (sep : Char) : List Char → List Char → List (List Char)
  | cur, [] => [cur]
  | cur, c :: s => if c = sep then cur :: splitOn sep [] s else splitOn sep (cur ++ [c]) s

/-- Whether `-t-` is in the string (words.py l. 576). -/
def hasUnion (s : List Char) : Bool := decide ("-t-".toList <:+: s)

/-- A regular word (words.py l. 569-598); `before` is not empty, so that the hashtag is split without raising. -/
def regular (split_hashtags : Bool) (kind : Kind) (before : List Char) : Py (List Token) :=
  if kind = .word then
    let hyphens := before.count '-'
    if hyphens = 2 ∧ hasUnion before then pure ((splitOn '-' [] before).map fun t => (kind, t))
    else if hyphens = 1 then
      match splitOn '-' [] before with
      | [a, b] => if b ∈ FRENCH_UNION_TARGETS then pure [(kind, a), (kind, b)] else pure [(kind, before)]
      | _ => .error .valueError
    else pure [(kind, before)]
  else if kind = .hashtag ∧ split_hashtags then splitHashtag u before
  else pure [(kind, before)]

/-- After the token is cut (words.py l. 511-600): contractions, abbreviations and regular words. `before = string[i:j]` is not empty.
Returns the tokens and the next index. -/
def finish (split_hashtags : Bool) (s : List Char) (kind : Kind) (before : List Char) (i j : Nat) : Py (List Token × Nat) :=
  let k := j + 1 + ((s.drop (j + 1)).takeWhile fun n => u.isAlnum n || SIGILS.contains n).length
  match s[j]? with
  | some q =>
      if q ∈ APOSTROPHES then
        match slice s (j + 1) k with
        | [] => pure ([(kind, before), (.punct, [q])], k)
        | a :: as =>
            if u.isDigit a then pure ([(kind, before ++ [q])], j + 1)
            else if (a :: as) ∈ ENGLISH_CONTRACTIONS then pure ([(kind, before), (kind, q :: a :: as)], k)
            else if (before.getLast? = some 'n' ∧ a :: as = ['t']) ∨ a :: as = ['h', 'u', 'i'] ∨ '-' ∈ before then
              pure ([(kind, slice s i k)], k)
            else if (a ≠ 'h' ∧ before.getLast?.any u.consonant ∧ (u.consonant a ∧ a ∉ SIGILS)) ∨ before = ['O'] ∨ before = ['o'] then
              pure ([(kind, before ++ [q] ++ a :: as)], k)
            else pure ([(kind, before ++ [q])], j + 1)
      else if j < s.length - 1 ∧ q = '.' ∧ u.lower before ∈ ABBREVIATIONS then pure ([(kind, before ++ ['.'])], j + 1)
      else do
        let ts ← regular u split_hashtags kind before
        pure (ts, j)
  | none => do
      let ts ← regular u split_hashtags kind before
      pure (ts, j)

/-- What is done with `string[i:j]` (words.py l. 489-600). -/
def emit (split_hashtags : Bool) (s : List Char) (kind : Kind) (acronym : Bool) (i j : Nat) : Py (List Token × Nat) :=
  let before := slice s i j
  match before with
  | [] => .error .indexError
  | q :: rest =>
      let quoted := q ∈ APOSTROPHES ∧ u.lower rest ∉ ENGLISH_ARCHAIC_CONTRACTIONS
      let pre : List Token := if quoted then [(.punct, [q])] else []
      let i := if quoted then i + 1 else i
      let before := if quoted then rest else before
      if quoted ∧ i = j then pure (pre, i)
      else if acronym then
        if (splitOn '.' [] before).all fun t => decide (t.length ≤ 1) then pure (pre ++ [(.word, before)], j)
        else pure (pre ++ (pointSplit [] before).dropLast.map (fun t => (if t ≠ ['.'] then Kind.word else Kind.punct, t)), j)
      else do
        let (ts, next) ← finish u split_hashtags s kind before i j
        pure (pre ++ ts, next)

/-- The end of the number, if it is one, at index `i` (words.py l. 401-443): the index, `already_consumed` and the type. -/
def number (s : List Char) (i : Nat) (c : Char) : Nat × Bool × Kind :=
  if u.isDigit c ∨ c = '-' then
    let n := numberLoop u (s.drop (i + 1)) (i + 1) c none .punct
    if n.2.1 ∧ n.1 > i + 1 ∧ (s[n.1 - 1]?.any DECIMALS.contains) then (n.1 - 1, n.2) else n
  else (i + 1, false, .word)

/-- Numbers and words at index `i` (words.py l. 366-368 and 400-600). -/
def stepWord (split_hashtags : Bool) (s : List Char) (i : Nat) (c : Char) : Py (List Token × Nat) :=
  let n := number u s i c
  if n.2.1 then emit u split_hashtags s n.2.2 false i n.1
  else
    let lookahead := slice s i (i + 64)
    let kind := if startsAsUrl lookahead then Kind.url else if u.email lookahead then .email else n.2.2
    let w := wordLoop u (startsAsUrl lookahead || u.email lookahead) (s.drop n.1) n.1 (s[n.1 - 1]?.getD c) false
    emit u split_hashtags s kind w.2 i w.1

/-- The end of the punctuation which begins at index `i` (words.py l. 340-354). -/
def punctEnd (s : List Char) (i : Nat) : Nat :=
  i + 1 + ((s.drop (i + 1)).takeWhile fun n => !(u.isSpace n || u.isAlnum n || isJunk n || n == '#' || n == '@')).length

/-- One turn of the loop of `__tokenize` (words.py l. 313-600) at an index `i` of the string: the tokens yielded and the next index. -/
def step (split_hashtags : Bool) (s : List Char) (i : Nat) (c : Char) : Py (List Token × Nat) :=
  if u.isSpace c ∨ isJunk c then pure ([], i + 1)
  else match u.smiley (slice s i (i + 64)) with
    | some m => pure ([(.smiley, slice s i (i + m))], i + m)
    | none =>
        if c = '#' ∨ c = '$' then
          if (s[i + 1]?.any u.isAlpha) then
            emit u split_hashtags s .hashtag false i (i + 1 + ((s.drop (i + 1)).takeWhile u.isAlnum).length)
          else pure ([(.punct, [c])], i + 1)
        else if c = '@' then
          if (s[i + 1]?.any isTwitter) then
            emit u split_hashtags s .mention false i (i + 1 + ((s.drop (i + 1)).takeWhile isTwitter).length)
          else pure ([(.punct, [c])], i + 1)
        else if (¬ u.isAlnum c ∧ c ≠ '-') ∧ ¬ (punctEnd u s i = i + 1 ∧ c ∈ APOSTROPHES) then
          pure (punctEmoji u (slice s i (punctEnd u s i)), punctEnd u s i)
        else stepWord u split_hashtags s i c

/-- `__tokenize(string)` (words.py l. 309-600) runs from index `i` to the end of the string and yields these tokens. -/
inductive Runs (split_hashtags : Bool) (s : List Char) : Nat → List Token → Prop
  | done (i : Nat) : s[i]? = none → Runs split_hashtags s i []
  | turn (i : Nat) (c : Char) (ts : List Token) (next : Nat) (ts' : List Token) : s[i]? = some c →
      step u split_hashtags s i c = .ok (ts, next) → Runs split_hashtags s next ts' → Runs split_hashtags s i (ts ++ ts')

/-- The same with at most `fuel` turns (words.py l. 309-600). -/
def run (split_hashtags : Bool) (s : List Char) : Nat → Nat → Py (List Token)
  | 0, _ => pure []
  | fuel + 1, i =>
      match s[i]? with
      | none => pure []
      | some c => do
          let (ts, next) ← step u split_hashtags s i c
          let ts' ← run split_hashtags s fuel next
          pure (ts ++ ts')

/-- `__tokenize(string)` (words.py l. 309-600). -/
def tokenizeRaw (split_hashtags : Bool) (s : List Char) : Py (List Token) := run u split_hashtags s s.length 0

/-! ### Options -/

/-- The options which act on tokens (words.py l. 239-307). -/
structure Options where
  lower : Bool := false
  normalize_mentions : Bool := false
  normalize_hashtags : Bool := false
  mentions_as_words : Bool := false
  hashtags_as_words : Bool := false
  min_word_length : Option Nat := none
  max_word_length : Option Nat := none
  stoplist : Option (List (List Char)) := none
  keep : Option (List Kind) := none
  drop : Option (List Kind) := none

/-- The constructor (words.py l. 271-293). Token types are not validated: they are given as values of `Kind`. -/
def construct (o : Options) : Py Options :=
  if o.keep ≠ none ∧ o.drop ≠ none then .error .typeError
  else match o.min_word_length, o.max_word_length with
    | some a, some b =>
        if a ≥ b then .error .typeError
        else .ok { o with stoplist := o.stoplist.map fun l => if o.lower then l.map u.lower else l }
    | _, _ => .ok { o with stoplist := o.stoplist.map fun l => if o.lower then l.map u.lower else l }

/-- The turn of the loop of `tokenize` for a token (words.py l. 616-667). `unidecode` is `unidecode_expect_ascii`. -/
def filterToken (unidecode : List Char → List Char) (o : Options) (t : Token) : Option Token :=
  if o.keep.any fun k => decide (t.1 ∉ k) then none
  else if o.drop.any fun d => decide (t.1 ∈ d) then none
  else
    let t : Token := if t.1 = .mention then
        let v := if o.normalize_mentions then u.lower t.2 else t.2
        if o.mentions_as_words then (.word, v.drop 1) else (t.1, v)
      else if t.1 = .hashtag then
        let v := if o.normalize_hashtags then unidecode (u.lower t.2) else t.2
        if o.hashtags_as_words then (.word, v.drop 1) else (t.1, v)
      else t
    if t.1 = .word then
      let v := if o.lower then u.lower t.2 else t.2
      if o.min_word_length.any fun m => decide (v.length < m) then none
      else if o.max_word_length.any fun m => decide (m < v.length) then none
      else if o.stoplist.any fun l => decide (v ∈ l) then none
      else some (.word, v)
    else if o.stoplist.any fun l => decide (t.2 ∈ l) then none
    else some t

/-- `tokenize` (words.py l. 602-667) on the string after the optional `unescape`, `unidecode_expect_ascii` and `reduce_lenghtening`. When
no option is given the loop is skipped, which is the same. -/
def tokenize (unidecode : List Char → List Char) (split_hashtags : Bool) (o : Options) (s : List Char) : Py (List Token) := do
  let ts ← tokenizeRaw u split_hashtags s
  pure (ts.filterMap (filterToken u unidecode o))

end Fog.Words
