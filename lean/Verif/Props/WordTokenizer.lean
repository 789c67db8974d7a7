import Verif.Model.WordTokenizer
import Verif.Props.WordOptions
import Verif.Props.WordsAll

/-!
# C128, C129: `WordTokenizer` from its arguments to its tokens
-/

namespace Fog.Props

open Fog.Words Fog.Spec

/-! ### Specification -/

/-- The types of tokens which exist. -/
def KnownType (t : String) : Prop :=
  t = "word" ∨ t = "number" ∨ t = "punct" ∨ t = "emoji" ∨ t = "smiley" ∨ t = "url" ∨ t = "email" ∨ t = "hashtag" ∨ t = "mention"

/-- The arguments which make sense. -/
def Sensible (a : Arguments) : Prop :=
  (a.keep = none ∨ a.drop = none) ∧ (∀ lo hi, a.min_word_length = some lo → a.max_word_length = some hi → lo < hi) ∧
  (∀ ts, a.keep = some ts → ∀ t ∈ ts, KnownType t) ∧ ∀ ts, a.drop = some ts → ∀ t ∈ ts, KnownType t

variable (lower unidecode : List Char → List Char)

/-- The types given as words: words, and mentions and hashtags when asked for. -/
def WantedAsWord (a : Arguments) (k : String) : Prop :=
  k = "word" ∨ (k = "mention" ∧ a.mentions_as_words = true) ∨ (k = "hashtag" ∧ a.hashtags_as_words = true)

instance (a : Arguments) (k : String) : Decidable (WantedAsWord a k) := by unfold WantedAsWord; infer_instance

/-- The normal form of a mention or of a hashtag, when asked for. -/
def plainText (a : Arguments) (t : String × List Char) : List Char :=
  if t.1 = "mention" ∧ a.normalize_mentions = true then lower t.2
  else if t.1 = "hashtag" ∧ a.normalize_hashtags = true then unidecode (lower t.2)
  else t.2

/-- The text given for a token: a mention or a hashtag given as a word loses its sign, and words are lowered when asked for. -/
def wantedText (a : Arguments) (t : String × List Char) : List Char :=
  let text := if WantedAsWord a t.1 ∧ t.1 ≠ "word" then (plainText lower unidecode a t).drop 1 else plainText lower unidecode a t
  if WantedAsWord a t.1 ∧ a.lower = true then lower text else text

/-- The token given for a token. -/
def wantedToken (a : Arguments) (t : String × List Char) : String × List Char :=
  (if WantedAsWord a t.1 then "word" else t.1, wantedText lower unidecode a t)

/-- The tokens which are given: their type, before they are made words, is kept and is not dropped; as words their length is between the
bounds; their text is not in the stoplist, which is lowered when words are. -/
def WantedPiece (a : Arguments) (t : String × List Char) : Prop :=
  (∀ ks, a.keep = some ks → t.1 ∈ ks) ∧ (∀ ks, a.drop = some ks → t.1 ∉ ks) ∧
  (WantedAsWord a t.1 → (∀ m, a.min_word_length = some m → m ≤ (wantedText lower unidecode a t).length) ∧
    ∀ m, a.max_word_length = some m → (wantedText lower unidecode a t).length ≤ m) ∧
  ∀ l, a.stoplist = some l → if a.lower = true then ∀ w ∈ l, wantedText lower unidecode a t ≠ lower w
    else wantedText lower unidecode a t ∉ l

variable (u : Unicode) (p : Preparation)

/-! ### The constructor -/

theorem mem_tokenTypes (t : String) : t ∈ tokenTypes ↔ KnownType t := by
  unfold tokenTypes KnownType
  simp

theorem validateTokenTypes_eq (ts : List String) :
    ((∀ t ∈ ts, KnownType t) → validateTokenTypes ts = .ok ()) ∧ ((¬ ∀ t ∈ ts, KnownType t) → validateTokenTypes ts = .error .typeError) := by
  induction ts with
  | nil => exact ⟨fun _ => rfl, fun h => absurd (by simp) h⟩
  | cons t ts ih =>
      rw [validateTokenTypes]
      by_cases ht : KnownType t
      · rw [if_neg (not_not.mpr ((mem_tokenTypes t).mpr ht))]
        simpa [ht] using ih
      · rw [if_pos (fun h => ht ((mem_tokenTypes t).mp h))]
        simp [ht, throw, throwThe, MonadExceptOf.throw]

theorem checkTypes_eq (o : Option (List String)) :
    ((∀ ts, o = some ts → ∀ t ∈ ts, KnownType t) → checkTypes o = .ok ()) ∧
    ((¬ ∀ ts, o = some ts → ∀ t ∈ ts, KnownType t) → checkTypes o = .error .typeError) := by
  cases o with
  | none => exact ⟨fun _ => rfl, fun h => absurd (by simp) h⟩
  | some ts =>
      rw [checkTypes]
      cases ts with
      | nil => exact ⟨fun _ => rfl, fun h => absurd (by simp) h⟩
      | cons t ts =>
          have := validateTokenTypes_eq (t :: ts)
          simpa using this

theorem checkLengths_eq (lo hi : Option Nat) : ((∀ a b, lo = some a → hi = some b → a < b) → checkLengths lo hi = .ok ()) ∧
    ((¬ ∀ a b, lo = some a → hi = some b → a < b) → checkLengths lo hi = .error .typeError) := by
  cases lo with
  | none => exact ⟨fun _ => rfl, fun h => absurd (by simp) h⟩
  | some a =>
      cases hi with
      | none => exact ⟨fun _ => rfl, fun h => absurd (by simp) h⟩
      | some b =>
          rw [checkLengths]
          constructor
          · intro h
            rw [if_neg (by have := h a b rfl rfl; omega)]
            rfl
          · intro h
            rw [if_pos (by simpa using h)]
            rfl

theorem init_eq (a : Arguments) :
    (Sensible a → init u a = .ok { args := { a with stoplist := keptStoplist u.lower a }, only_defaults := !anyTokenOption a }) ∧
    (¬ Sensible a → init u a = .error .typeError) := by
  unfold init
  by_cases hkd : (a.keep.isSome && a.drop.isSome) = true
  · have hn : ¬ Sensible a := by
      rintro ⟨h | h, _⟩ <;> simp [h] at hkd
    refine ⟨fun h => absurd h hn, fun _ => ?_⟩
    rw [if_pos hkd]
    rfl
  rw [if_neg hkd]
  have hkd' : a.keep = none ∨ a.drop = none := by
    cases h1 : a.keep with
    | none => exact Or.inl rfl
    | some _ =>
        cases h2 : a.drop with
        | none => exact Or.inr rfl
        | some _ => simp [h1, h2] at hkd
  have rest : ((∀ ts, a.keep = some ts → ∀ t ∈ ts, KnownType t) ∧ (∀ ts, a.drop = some ts → ∀ t ∈ ts, KnownType t) →
      (do
        checkTypes a.keep
        checkTypes a.drop
        pure { args := { a with stoplist := keptStoplist u.lower a }, only_defaults := !anyTokenOption a } : Py Tokenizer) =
        .ok { args := { a with stoplist := keptStoplist u.lower a }, only_defaults := !anyTokenOption a }) ∧
      (¬ ((∀ ts, a.keep = some ts → ∀ t ∈ ts, KnownType t) ∧ (∀ ts, a.drop = some ts → ∀ t ∈ ts, KnownType t)) →
      (do
        checkTypes a.keep
        checkTypes a.drop
        pure { args := { a with stoplist := keptStoplist u.lower a }, only_defaults := !anyTokenOption a } : Py Tokenizer) =
        .error .typeError) := by
    constructor
    · rintro ⟨h1, h2⟩
      rw [(checkTypes_eq a.keep).1 h1, (checkTypes_eq a.drop).1 h2]
      rfl
    · intro h
      by_cases h1 : ∀ ts, a.keep = some ts → ∀ t ∈ ts, KnownType t
      · rw [(checkTypes_eq a.keep).1 h1, (checkTypes_eq a.drop).2 (fun h2 => h ⟨h1, h2⟩)]
        rfl
      · rw [(checkTypes_eq a.keep).2 h1]
        rfl
  by_cases hlen : ∀ lo hi, a.min_word_length = some lo → a.max_word_length = some hi → lo < hi
  · have hs : Sensible a ↔ (∀ ts, a.keep = some ts → ∀ t ∈ ts, KnownType t) ∧ (∀ ts, a.drop = some ts → ∀ t ∈ ts, KnownType t) :=
      ⟨fun h => h.2.2, fun h => ⟨hkd', hlen, h⟩⟩
    rw [hs, (checkLengths_eq _ _).1 hlen]
    exact rest
  · have hn : ¬ Sensible a := fun h => hlen h.2.1
    refine ⟨fun h => absurd h hn, fun _ => ?_⟩
    rw [(checkLengths_eq _ _).2 hlen]
    rfl

/-- **C128**: a tokenizer is made exactly when the arguments make sense: not both types to keep and types to drop, a minimal length less
than the maximal one, and only types which exist. -/
theorem word_tokenizer_made (a : Arguments) : (∃ w, init u a = .ok w) ↔ Sensible a := by
  by_cases h : Sensible a
  · exact ⟨fun _ => h, fun _ => ⟨_, (init_eq u a).1 h⟩⟩
  · refine ⟨fun ⟨w, hw⟩ => ?_, fun h' => absurd h' h⟩
    rw [(init_eq u a).2 h] at hw
    cases hw

/-- **C128**: otherwise a type error is raised. -/
theorem word_tokenizer_type_error (a : Arguments) (h : ¬ Sensible a) : init u a = .error .typeError := (init_eq u a).2 h

/-! ### The tokens -/

/-- The type of a name, that of words being given for the names which are not known. -/
def kindOf (t : String) : Kind :=
  if t = "number" then .number else if t = "punct" then .punct else if t = "emoji" then .emoji else if t = "smiley" then .smiley
  else if t = "url" then .url else if t = "email" then .email else if t = "hashtag" then .hashtag else if t = "mention" then .mention
  else .word

theorem kindOf_name (k : Kind) : kindOf k.name = k := by cases k <;> decide

theorem name_known (k : Kind) : KnownType k.name := by cases k <;> simp [KnownType, Kind.name]

theorem turn_wanted (a : Arguments) (t t' : String × List Char) :
    turn u p { a with stoplist := keptStoplist u.lower a } t = some t' ↔
      WantedPiece u.lower p.unidecode a t ∧ t' = wantedToken u.lower p.unidecode a t := by
  have hstop : ∀ v : List Char, (¬ ((keptStoplist u.lower a).any fun l => decide (v ∈ l)) = true) ↔
      ∀ l, a.stoplist = some l → if a.lower = true then ∀ w ∈ l, v ≠ u.lower w else v ∉ l := by
    intro v
    rw [any_eq_false_iff]
    unfold keptStoplist
    cases a.stoplist with
    | none => simp
    | some l =>
        simp only [Option.map_some, Option.some.injEq, forall_eq']
        split
        · simp only [List.mem_map, not_exists, not_and]
          exact forall_congr' fun w => forall_congr' fun _ => ⟨fun h e => h e.symm, fun h e => h e.symm⟩
        · exact Iff.rfl
  obtain ⟨k, v⟩ := t
  unfold turn WantedPiece wantedToken
  simp only []
  by_cases hk : (a.keep.any fun ks => decide (k ∉ ks)) = true
  · rw [if_pos hk]
    have : ¬ ∀ ks, a.keep = some ks → k ∈ ks := by
      intro h'
      exact (any_eq_false_iff a.keep (fun ks => k ∉ ks)).mpr (fun ks e => not_not.mpr (h' ks e)) hk
    simp [this]
  rw [if_neg hk]
  have hk' : ∀ ks, a.keep = some ks → k ∈ ks := fun ks e => by simpa using (any_eq_false_iff a.keep (fun ks => k ∉ ks)).mp hk ks e
  by_cases hd : (a.drop.any fun ks => decide (k ∈ ks)) = true
  · rw [if_pos hd]
    have : ¬ ∀ ks, a.drop = some ks → k ∉ ks := fun h' => (any_eq_false_iff a.drop (fun ks => k ∈ ks)).mpr h' hd
    simp [this]
  rw [if_neg hd]
  have hd' : ∀ ks, a.drop = some ks → k ∉ ks := (any_eq_false_iff a.drop (fun ks => k ∈ ks)).mp hd
  -- the token after the mentions and the hashtags
  generalize hx : (if k = "mention" then
      if a.mentions_as_words = true then ("word", (if a.normalize_mentions = true then u.lower v else v).drop 1)
      else (k, if a.normalize_mentions = true then u.lower v else v)
    else if k = "hashtag" then
      if a.hashtags_as_words = true then ("word", (if a.normalize_hashtags = true then p.unidecode (u.lower v) else v).drop 1)
      else (k, if a.normalize_hashtags = true then p.unidecode (u.lower v) else v)
    else (k, v) : String × List Char) = x
  have hx1 : x.1 = "word" ↔ WantedAsWord a k := by
    rw [← hx]
    unfold WantedAsWord
    grind
  have hx2 : x.2 = if WantedAsWord a k ∧ k ≠ "word" then (plainText u.lower p.unidecode a (k, v)).drop 1 else plainText u.lower p.unidecode a (k, v) := by
    rw [← hx]
    unfold WantedAsWord plainText
    grind
  have hx3 : ¬ WantedAsWord a k → x.1 = k := by
    rw [← hx]
    unfold WantedAsWord
    grind
  have hg : wantedText u.lower p.unidecode a (k, v) = if WantedAsWord a k ∧ a.lower = true then u.lower x.2 else x.2 := by
    rw [hx2]
    rfl
  by_cases hw : WantedAsWord a k
  · have hw' := hx1.mpr hw
    have hg' : wantedText u.lower p.unidecode a (k, v) = if a.lower = true then u.lower x.2 else x.2 := by
      rw [hg]
      simp [hw]
    rw [if_pos hw', ← hg', if_pos hw]
    by_cases hmin : (a.min_word_length.any fun m => decide ((wantedText u.lower p.unidecode a (k, v)).length < m)) = true
    · rw [if_pos hmin]
      have : ¬ ∀ m, a.min_word_length = some m → m ≤ (wantedText u.lower p.unidecode a (k, v)).length := by
        intro h'
        exact (any_eq_false_iff a.min_word_length (fun m => (wantedText u.lower p.unidecode a (k, v)).length < m)).mpr
          (fun m e => Nat.not_lt.mpr (h' m e)) hmin
      simp [hw, this]
    rw [if_neg hmin]
    have hmin' : ∀ m, a.min_word_length = some m → m ≤ (wantedText u.lower p.unidecode a (k, v)).length := fun m e => Nat.not_lt.mp
      ((any_eq_false_iff a.min_word_length (fun m => (wantedText u.lower p.unidecode a (k, v)).length < m)).mp hmin m e)
    by_cases hmax : (a.max_word_length.any fun m => decide (m < (wantedText u.lower p.unidecode a (k, v)).length)) = true
    · rw [if_pos hmax]
      have : ¬ ∀ m, a.max_word_length = some m → (wantedText u.lower p.unidecode a (k, v)).length ≤ m := by
        intro h'
        exact (any_eq_false_iff a.max_word_length (fun m => m < (wantedText u.lower p.unidecode a (k, v)).length)).mpr
          (fun m e => Nat.not_lt.mpr (h' m e)) hmax
      simp [hw, this]
    rw [if_neg hmax]
    have hmax' : ∀ m, a.max_word_length = some m → (wantedText u.lower p.unidecode a (k, v)).length ≤ m := fun m e => Nat.not_lt.mp
      ((any_eq_false_iff a.max_word_length (fun m => m < (wantedText u.lower p.unidecode a (k, v)).length)).mp hmax m e)
    by_cases hs : ((keptStoplist u.lower a).any fun l => decide (wantedText u.lower p.unidecode a (k, v) ∈ l)) = true
    · rw [if_pos hs]
      have := (not_congr (hstop (wantedText u.lower p.unidecode a (k, v)))).mp (fun h' => h' hs)
      simp only [reduceCtorEq, false_iff, not_and]
      exact fun h' => absurd h'.2.2.2 this
    · rw [if_neg hs]
      have := (hstop (wantedText u.lower p.unidecode a (k, v))).mp hs
      simp only [Option.some.injEq]
      exact ⟨fun e => ⟨⟨hk', hd', fun _ => ⟨hmin', hmax'⟩, this⟩, e.symm⟩, fun e => e.2.symm⟩
  · have hw' : ¬ x.1 = "word" := fun h' => hw (hx1.mp h')
    have hg' : wantedText u.lower p.unidecode a (k, v) = x.2 := by
      rw [hg]
      simp [hw]
    have hxe : x = (k, wantedText u.lower p.unidecode a (k, v)) := by
      rw [hg', ← hx3 hw]
    rw [if_neg hw', if_neg hw, ← hg']
    by_cases hs : ((keptStoplist u.lower a).any fun l => decide (wantedText u.lower p.unidecode a (k, v) ∈ l)) = true
    · rw [if_pos hs]
      have := (not_congr (hstop (wantedText u.lower p.unidecode a (k, v)))).mp (fun h' => h' hs)
      simp only [reduceCtorEq, false_iff, not_and]
      exact fun h' => absurd h'.2.2.2 this
    · rw [if_neg hs]
      have := (hstop (wantedText u.lower p.unidecode a (k, v))).mp hs
      simp only [Option.some.injEq]
      exact ⟨fun e => ⟨⟨hk', hd', fun h' => absurd h' hw, this⟩, by rw [← e, hxe]⟩, fun e => by rw [hxe, e.2]⟩


/-- With no option on tokens, they are all given as they are. -/
theorem wanted_default {a : Arguments} (h : anyTokenOption a = false) (t : String × List Char) :
    WantedPiece lower unidecode a t ∧ wantedToken lower unidecode a t = t := by
  simp only [anyTokenOption, Bool.or_eq_false_iff, Option.isSome_eq_false_iff, Option.isNone_iff_eq_none] at h
  obtain ⟨⟨⟨⟨⟨⟨⟨⟨⟨h1, h2⟩, h3⟩, h4⟩, h5⟩, h6⟩, h7⟩, h8⟩, h9⟩, h10⟩ := h
  obtain ⟨k, v⟩ := t
  refine ⟨by simp [WantedPiece, h6, h7, h8, h9, h10], ?_⟩
  unfold wantedToken wantedText plainText WantedAsWord
  simp only [h1, h2, h3, h4, h5]
  by_cases hk : k = "word" <;> simp [hk]

open Classical in
/-- **C128**: what a tokenizer gives for a text. The text is prepared, then cut into pieces, each of a type; the tokens are, in order, those
which the arguments let through, rewritten as they ask. Nothing is raised. -/
theorem word_tokenizer_tokens (hu : Sound u) {a : Arguments} {w : Tokenizer} (h : init u a = .ok w) (s : List Char) :
    ∃ raw : List (String × List Char), CutFrom (prepare p a s) (raw.map Prod.snd) ∧ (∀ t ∈ raw, KnownType t.1) ∧
      tokenizeRaw u a.split_hashtags (prepare p a s) = .ok (raw.map fun t => (kindOf t.1, t.2)) ∧
      w.tokenize u p s = .ok ((raw.filter fun t => decide (WantedPiece u.lower p.unidecode a t)).map (wantedToken u.lower p.unidecode a)) := by
  have hs := (word_tokenizer_made u a).mp ⟨w, h⟩
  have hw : w = { args := { a with stoplist := keptStoplist u.lower a }, only_defaults := !anyTokenOption a } := by
    rw [(init_eq u a).1 hs] at h
    exact (Except.ok.inj h).symm
  obtain ⟨ts, _, h1, h2⟩ := words_cut u hu a.split_hashtags (prepare p a s)
  refine ⟨ts.map fun t => (t.1.name, t.2), ?_, ?_, ?_, ?_⟩
  · simpa [Function.comp_def] using h2
  · intro t ht
    obtain ⟨x, _, rfl⟩ := List.mem_map.mp ht
    exact name_known x.1
  · rw [h1, List.map_map]
    congr 1
    conv_lhs => rw [← List.map_id ts]
    exact List.map_congr_left fun t _ => by simp [kindOf_name]
  · subst hw
    unfold Tokenizer.tokenize
    have hp : prepare p { a with stoplist := keptStoplist u.lower a } s = prepare p a s := rfl
    simp only [hp, h1, bind, Except.bind]
    rw [← filterMap_eq_map_filter _ (WantedPiece u.lower p.unidecode a) (wantedToken u.lower p.unidecode a) (turn_wanted u p a)]
    by_cases hd : anyTokenOption a = true
    · simp [hd, pure, Except.pure]
    · have hd : anyTokenOption a = false := by simpa using hd
      simp only [hd, Bool.not_false, if_true, pure, Except.pure]
      congr 1
      symm
      have : turn u p { a with stoplist := keptStoplist u.lower a } = some := funext fun t => (turn_wanted u p a t t).mpr
        ⟨(wanted_default _ _ hd t).1, (wanted_default _ _ hd t).2.symm⟩
      rw [this, List.filterMap_some]

/-! ### What the preparation is for -/

theorem cut_infix {s : List Char} {ts : List (List Char)} (h : CutFrom s ts) : ∀ t ∈ ts, t <:+: s := by
  induction ts generalizing s with
  | nil => simp
  | cons t ts ih =>
      obtain ⟨gap, rest, rfl, h⟩ := h
      intro x hx
      rcases List.mem_cons.mp hx with rfl | hx
      · exact ⟨gap, rest, rfl⟩
      · exact (ih h x hx).trans (List.suffix_append _ _).isInfix

theorem wantedToken_eq {a : Arguments} (hl : a.lower = false) (hm : a.normalize_mentions = false) (hh : a.normalize_hashtags = false)
    (t : String × List Char) : (wantedToken lower unidecode a t).2 <:+: t.2 := by
  unfold wantedToken wantedText plainText
  simp only [hl, hm, hh]
  simp only [Bool.false_eq_true, and_false, if_false]
  split
  · exact (List.drop_suffix 1 t.2).isInfix
  · exact List.infix_rfl

/-- Repeated characters in a text are within one of its runs. -/
theorem replicate_infix_runs {runs : List (Char × Nat)} (h : AreRuns runs) {c : Char} {k : Nat} (hk : 1 ≤ k)
    (hi : List.replicate k c <:+: ofRuns runs) : ∃ n, (c, n) ∈ runs ∧ k ≤ n := by
  obtain ⟨h1, h2⟩ := h
  induction runs with
  | nil =>
      have := List.infix_nil.mp hi
      obtain ⟨j, rfl⟩ : ∃ j, k = j + 1 := ⟨k - 1, by omega⟩
      simp [List.replicate_succ] at this
  | cons r runs ih =>
      obtain ⟨d, n⟩ := r
      change List.replicate k c <:+: List.replicate n d ++ ofRuns runs at hi
      rcases List.infix_append_iff_ne_nil.mp hi with hi | hi | ⟨l₁, l₂, hl₁, hl₂, he, hs, hp⟩
      · have hc : c = d := List.eq_of_mem_replicate (hi.subset (List.mem_replicate.mpr ⟨by omega, rfl⟩))
        subst hc
        refine ⟨n, by simp, ?_⟩
        simpa using hi.length_le
      · obtain ⟨m, hm, hkm⟩ := ih hi (fun x hx => h1 x (by simp [hx])) h2.tail
        exact ⟨m, by simp [hm], hkm⟩
      · exfalso
        have hall : ∀ x ∈ l₁ ++ l₂, x = c := by
          rw [← he]
          exact fun x hx => List.eq_of_mem_replicate hx
        obtain ⟨x, l₁', rfl⟩ := List.exists_cons_of_ne_nil hl₁
        obtain ⟨y, l₂', rfl⟩ := List.exists_cons_of_ne_nil hl₂
        have hx : x = d := List.eq_of_mem_replicate (hs.subset (by simp))
        have hxc : x = c := hall x (by simp)
        have hyc : y = c := hall y (by simp)
        cases runs with
        | nil => simp [ofRuns] at hp
        | cons r' runs =>
            have hr' := h1 r' (by simp)
            obtain ⟨m, hm⟩ : ∃ m, r'.2 = m + 1 := ⟨r'.2 - 1, by omega⟩
            have hp' : y :: l₂' <+: r'.1 :: (List.replicate m r'.1 ++ ofRuns runs) := by
              simpa [ofRuns, hm, List.replicate_succ] using hp
            have hy : y = r'.1 := (List.cons_prefix_cons.mp hp').1
            rw [List.isChain_cons_cons] at h2
            exact h2.1 (by rw [← hx, hxc, ← hyc, hy])

/-- A reduced text has no letter five times in a row. -/
theorem reduced_runs (cls : Char → Bool) (s : List Char) {c : Char} (hc : cls c = true) :
    ¬ List.replicate 5 c <:+: reduceLengthening cls s := by
  intro hi
  obtain ⟨runs, h, rfl⟩ := exists_runs s
  rw [reduce_lengthening_runs cls h] at hi
  obtain ⟨n, hn, h5⟩ := replicate_infix_runs (k := 5) (by
    refine ⟨?_, ?_⟩
    · intro r hr
      obtain ⟨x, hx, rfl⟩ := List.mem_map.mp hr
      have := h.1 x hx
      simp only
      split <;> omega
    · exact (List.isChain_map (R := fun a b : Char × Nat => a.1 ≠ b.1) _).mpr h.2) (by omega) hi
  obtain ⟨x, hx, he⟩ := List.mem_map.mp hn
  simp only [Prod.mk.injEq] at he
  obtain ⟨rfl, he⟩ := he
  rw [hc] at he
  split at he <;> simp at * <;> omega

theorem reduced_subset (cls : Char → Bool) (s : List Char) : ∀ c ∈ reduceLengthening cls s, c ∈ s := by
  intro c hc
  obtain ⟨runs, h, rfl⟩ := exists_runs s
  rw [reduce_lengthening_runs cls h] at hc
  unfold ofRuns at hc ⊢
  obtain ⟨r, hr, hcr⟩ := List.mem_flatMap.mp hc
  obtain ⟨x, hx, rfl⟩ := List.mem_map.mp hr
  have := h.1 x hx
  exact List.mem_flatMap.mpr ⟨x, hx, List.mem_replicate.mpr ⟨by omega, List.eq_of_mem_replicate hcr⟩⟩

/-- **C129**, the part which holds: when long words are reduced and texts are not lowered, no token has a letter five times in a row. -/
theorem word_tokenizer_reduced_partial (hu : Sound u) {a : Arguments} {w : Tokenizer} (h : init u a = .ok w) (hr : a.reduce_words = true)
    (hl : a.lower = false) (hm : a.normalize_mentions = false) (hh : a.normalize_hashtags = false) (s : List Char) :
    ∃ ts, w.tokenize u p s = .ok ts ∧ ∀ t ∈ ts, ∀ c, p.letter c = true → ¬ List.replicate 5 c <:+: t.2 := by
  classical
  obtain ⟨raw, h1, _, _, h2⟩ := word_tokenizer_tokens u p hu h s
  refine ⟨_, h2, ?_⟩
  intro t ht c hc hi
  obtain ⟨x, hx, rfl⟩ := List.mem_map.mp ht
  have hx' := cut_infix h1 x.2 (List.mem_map_of_mem (List.mem_of_mem_filter hx))
  have := (hi.trans (wantedToken_eq _ _ hl hm hh x)).trans hx'
  unfold prepare at this
  simp only [hr, if_true] at this
  exact reduced_runs p.letter _ hc this

/-- **C129**: words are reduced before they are lowered, which can make longer runs: `sooooOOO` is given with seven letters `o`. -/
theorem word_tokenizer_reduced_not_lowered : ∃ w, init asciiTable { lower := true, reduce_words := true } = .ok w ∧
    w.tokenize asciiTable ⟨id, id, Char.isAlpha⟩ "sooooOOO".toList = .ok [("word", "sooooooo".toList)] := by
  refine ⟨_, rfl, ?_⟩
  have hp : prepare ⟨id, id, Char.isAlpha⟩ { lower := true, reduce_words := true } "sooooOOO".toList = "sooooOOO".toList := by
    have := reduce_lengthening_runs Char.isAlpha (runs := [('s', 1), ('o', 4), ('O', 3)]) ⟨by decide, by decide⟩
    exact this
  unfold Tokenizer.tokenize
  have hp' : prepare ⟨id, id, Char.isAlpha⟩ { lower := true, reduce_words := true, stoplist := none } "sooooOOO".toList =
    "sooooOOO".toList := hp
  change (tokenizeRaw asciiTable false (prepare ⟨id, id, Char.isAlpha⟩ { lower := true, reduce_words := true, stoplist := none }
    "sooooOOO".toList) >>= _) = _
  rw [hp']
  decide +kernel

/-- **C128**: when texts are transliterated, all the characters of the tokens are ASCII. -/
theorem word_tokenizer_ascii (hu : Sound u) (hun : ∀ s, ∀ c ∈ p.unidecode s, c.toNat < 128)
    (hlow : ∀ s : List Char, (∀ c ∈ s, c.toNat < 128) → ∀ c ∈ u.lower s, c.toNat < 128)
    {a : Arguments} {w : Tokenizer} (h : init u a = .ok w) (ha : a.unidecode = true) (s : List Char) :
    ∃ ts, w.tokenize u p s = .ok ts ∧ ∀ t ∈ ts, ∀ c ∈ t.2, c.toNat < 128 := by
  classical
  obtain ⟨raw, h1, _, _, h2⟩ := word_tokenizer_tokens u p hu h s
  refine ⟨_, h2, ?_⟩
  intro t ht
  obtain ⟨x, hx, rfl⟩ := List.mem_map.mp ht
  have hx' := cut_infix h1 x.2 (List.mem_map_of_mem (List.mem_of_mem_filter hx))
  have hp : ∀ c ∈ prepare p a s, c.toNat < 128 := by
    intro c hc
    unfold prepare at hc
    simp only [ha, if_true] at hc
    split at hc
    · exact hun _ c (reduced_subset _ _ c hc)
    · exact hun _ c hc
  have hv : ∀ c ∈ x.2, c.toNat < 128 := fun c hc => hp c (hx'.subset hc)
  have hpl : ∀ c ∈ plainText u.lower p.unidecode a x, c.toNat < 128 := by
    unfold plainText
    split
    · exact hlow _ hv
    · split
      · exact hun _
      · exact hv
  show ∀ c ∈ wantedText u.lower p.unidecode a x, c.toNat < 128
  unfold wantedText
  have hd : ∀ c ∈ (if WantedAsWord a x.1 ∧ x.1 ≠ "word" then (plainText u.lower p.unidecode a x).drop 1
      else plainText u.lower p.unidecode a x), c.toNat < 128 := by
    split
    · exact fun c hc => hpl c (List.mem_of_mem_drop hc)
    · exact hpl
  simp only []
  split
  · exact hlow _ hd
  · exact hd

/-- **C128**: an empty collection of types to keep is not ignored: nothing is given. -/
theorem word_tokenizer_keep_nothing (hu : Sound u) {a : Arguments} {w : Tokenizer} (h : init u a = .ok w) (hk : a.keep = some [])
    (s : List Char) : w.tokenize u p s = .ok [] := by
  classical
  obtain ⟨raw, _, _, _, h2⟩ := word_tokenizer_tokens u p hu h s
  rw [h2]
  have : raw.filter (fun t => decide (WantedPiece u.lower p.unidecode a t)) = [] := by
    rw [List.filter_eq_nil_iff]
    intro t _
    simp [WantedPiece, hk]
  rw [this]
  rfl

/-! ### Examples -/

example : Sensible { keep := some ["word", "mention"], min_word_length := some 2, max_word_length := some 5 } := by
  refine ⟨Or.inr rfl, ?_, ?_, ?_⟩
  · intro lo hi h1 h2
    cases h1
    cases h2
    omega
  · intro ts h
    cases h
    simp [KnownType]
  · intro ts h
    cases h

example : ¬ Sensible { drop := some ["words"] } := by
  rintro ⟨_, _, _, h⟩
  simpa [KnownType] using h ["words"] rfl "words" (by simp)

example : init asciiTable { drop := some ["words"] } = .error .typeError := rfl

example : ∃ w, init asciiTable { lower := true, drop := some ["punct"], stoplist := some ["The".toList] } = .ok w ∧
    w.tokenize asciiTable ⟨id, id, Char.isAlpha⟩ "The End, @Bob!".toList = .ok [("word", "end".toList), ("mention", "@Bob".toList)] :=
  ⟨_, rfl, by decide +kernel⟩

-- The preparation is done even when the tokens are given as they are.
example : ∃ w, init asciiTable { decode_html_entities := true } = .ok w ∧ w.only_defaults = true ∧
    w.tokenize asciiTable ⟨fun _ => "<3".toList, id, Char.isAlpha⟩ "&lt;3".toList = .ok [("smiley", "<3".toList)] :=
  ⟨_, rfl, rfl, by decide +kernel⟩

end Fog.Props
