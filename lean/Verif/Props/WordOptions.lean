import Verif.Props.Words

/-!
# C67: exactly which tokens the options of `WordTokenizer` let through
-/

namespace Fog.Props

open Fog.Words

variable (u : Unicode) (unidecode : List Char → List Char)

/-- The tokens given as words: words, and mentions and hashtags when asked for. -/
def GivenAsWord (o : Options) (k : Kind) : Prop :=
  k = .word ∨ (k = .mention ∧ o.mentions_as_words = true) ∨ (k = .hashtag ∧ o.hashtags_as_words = true)

instance (o : Options) (k : Kind) : Decidable (GivenAsWord o k) := by unfold GivenAsWord; infer_instance

/-- The normal form of a mention or of a hashtag, when asked for. -/
def normalText (o : Options) (t : Token) : List Char :=
  if t.1 = .mention ∧ o.normalize_mentions = true then u.lower t.2
  else if t.1 = .hashtag ∧ o.normalize_hashtags = true then unidecode (u.lower t.2)
  else t.2

/-- The text given for a token: a mention or a hashtag given as a word loses its sign, and words are lowered when asked for. -/
def givenText (o : Options) (t : Token) : List Char :=
  let text := if GivenAsWord o t.1 ∧ t.1 ≠ .word then (normalText u unidecode o t).drop 1 else normalText u unidecode o t
  if GivenAsWord o t.1 ∧ o.lower = true then u.lower text else text

/-- The token given for a token. -/
def givenToken (o : Options) (t : Token) : Token :=
  (if GivenAsWord o t.1 then .word else t.1, givenText u unidecode o t)

/-- The tokens which are given: their type, before they are made words, is kept and is not dropped; as words their length is between the
bounds; their text is not in the stoplist, which is lowered when words are. -/
def Given (o : Options) (t : Token) : Prop :=
  (∀ ks, o.keep = some ks → t.1 ∈ ks) ∧ (∀ ks, o.drop = some ks → t.1 ∉ ks) ∧
  (GivenAsWord o t.1 → (∀ m, o.min_word_length = some m → m ≤ (givenText u unidecode o t).length) ∧
    ∀ m, o.max_word_length = some m → (givenText u unidecode o t).length ≤ m) ∧
  ∀ l, o.stoplist = some l → if o.lower = true then ∀ w ∈ l, givenText u unidecode o t ≠ u.lower w else givenText u unidecode o t ∉ l

theorem any_eq_false_iff {α : Type} (x : Option α) (p : α → Prop) [DecidablePred p] :
    ¬ (x.any fun a => decide (p a)) = true ↔ ∀ a, x = some a → ¬ p a := by
  cases x <;> simp

theorem filterToken_given {o o' : Options} (h : construct u o = .ok o') (t : Token) (t' : Token) :
    filterToken u unidecode o' t = some t' ↔ Given u unidecode o t ∧ t' = givenToken u unidecode o t := by
  have ho : o' = { o with stoplist := o.stoplist.map fun l => if o.lower then l.map u.lower else l } := by
    unfold construct at h
    split at h
    · cases h
    · split at h
      · split at h
        · cases h
        · exact (Except.ok.inj h).symm
      · exact (Except.ok.inj h).symm
  have hstop : ∀ v : List Char, (¬ (o'.stoplist.any fun l => decide (v ∈ l)) = true) ↔
      ∀ l, o.stoplist = some l → if o.lower = true then ∀ w ∈ l, v ≠ u.lower w else v ∉ l := by
    intro v
    rw [any_eq_false_iff, ho]
    cases o.stoplist with
    | none => simp
    | some l =>
        simp only [Option.map_some, Option.some.injEq, forall_eq']
        split
        · simp only [List.mem_map, not_exists, not_and]
          exact forall_congr' fun w => forall_congr' fun _ => ⟨fun h e => h e.symm, fun h e => h e.symm⟩
        · exact Iff.rfl
  have h1 : o'.keep = o.keep := by rw [ho]
  have h2 : o'.drop = o.drop := by rw [ho]
  have h3 : o'.min_word_length = o.min_word_length := by rw [ho]
  have h4 : o'.max_word_length = o.max_word_length := by rw [ho]
  have h5 : o'.lower = o.lower := by rw [ho]
  have h6 : o'.normalize_mentions = o.normalize_mentions := by rw [ho]
  have h7 : o'.normalize_hashtags = o.normalize_hashtags := by rw [ho]
  have h8 : o'.mentions_as_words = o.mentions_as_words := by rw [ho]
  have h9 : o'.hashtags_as_words = o.hashtags_as_words := by rw [ho]
  obtain ⟨k, v⟩ := t
  unfold filterToken Given givenToken
  simp only [h1, h2, h3, h4, h5, h6, h7, h8, h9]
  by_cases hk : (o.keep.any fun ks => decide (k ∉ ks)) = true
  · rw [if_pos hk]
    have : ¬ ∀ ks, o.keep = some ks → k ∈ ks := by
      intro h'
      exact (any_eq_false_iff o.keep (fun ks => k ∉ ks)).mpr (fun ks e => not_not.mpr (h' ks e)) hk
    simp [this]
  rw [if_neg hk]
  have hk' : ∀ ks, o.keep = some ks → k ∈ ks := fun ks e => by simpa using (any_eq_false_iff o.keep (fun ks => k ∉ ks)).mp hk ks e
  by_cases hd : (o.drop.any fun ks => decide (k ∈ ks)) = true
  · rw [if_pos hd]
    have : ¬ ∀ ks, o.drop = some ks → k ∉ ks := fun h' => (any_eq_false_iff o.drop (fun ks => k ∈ ks)).mpr h' hd
    simp [this]
  rw [if_neg hd]
  have hd' : ∀ ks, o.drop = some ks → k ∉ ks := (any_eq_false_iff o.drop (fun ks => k ∈ ks)).mp hd
  -- the token after the mentions and the hashtags
  generalize hx : (if k = .mention then
      if o.mentions_as_words = true then (Kind.word, (if o.normalize_mentions = true then u.lower v else v).drop 1)
      else (k, if o.normalize_mentions = true then u.lower v else v)
    else if k = .hashtag then
      if o.hashtags_as_words = true then (Kind.word, (if o.normalize_hashtags = true then unidecode (u.lower v) else v).drop 1)
      else (k, if o.normalize_hashtags = true then unidecode (u.lower v) else v)
    else (k, v) : Token) = x
  have hx1 : x.1 = .word ↔ GivenAsWord o k := by
    rw [← hx]
    unfold GivenAsWord
    grind
  have hx2 : x.2 = if GivenAsWord o k ∧ k ≠ .word then (normalText u unidecode o (k, v)).drop 1 else normalText u unidecode o (k, v) := by
    rw [← hx]
    unfold GivenAsWord normalText
    grind
  have hx3 : ¬ GivenAsWord o k → x.1 = k := by
    rw [← hx]
    unfold GivenAsWord
    grind
  have hg : givenText u unidecode o (k, v) = if GivenAsWord o k ∧ o.lower = true then u.lower x.2 else x.2 := by
    rw [hx2]
    rfl
  by_cases hw : GivenAsWord o k
  · have hw' := hx1.mpr hw
    have hg' : givenText u unidecode o (k, v) = if o.lower = true then u.lower x.2 else x.2 := by
      rw [hg]
      simp [hw]
    rw [if_pos hw', ← hg', if_pos hw]
    by_cases hmin : (o.min_word_length.any fun m => decide ((givenText u unidecode o (k, v)).length < m)) = true
    · rw [if_pos hmin]
      have : ¬ ∀ m, o.min_word_length = some m → m ≤ (givenText u unidecode o (k, v)).length := by
        intro h'
        exact (any_eq_false_iff o.min_word_length (fun m => (givenText u unidecode o (k, v)).length < m)).mpr
          (fun m e => Nat.not_lt.mpr (h' m e)) hmin
      simp [hw, this]
    rw [if_neg hmin]
    have hmin' : ∀ m, o.min_word_length = some m → m ≤ (givenText u unidecode o (k, v)).length := fun m e => Nat.not_lt.mp
      ((any_eq_false_iff o.min_word_length (fun m => (givenText u unidecode o (k, v)).length < m)).mp hmin m e)
    by_cases hmax : (o.max_word_length.any fun m => decide (m < (givenText u unidecode o (k, v)).length)) = true
    · rw [if_pos hmax]
      have : ¬ ∀ m, o.max_word_length = some m → (givenText u unidecode o (k, v)).length ≤ m := by
        intro h'
        exact (any_eq_false_iff o.max_word_length (fun m => m < (givenText u unidecode o (k, v)).length)).mpr
          (fun m e => Nat.not_lt.mpr (h' m e)) hmax
      simp [hw, this]
    rw [if_neg hmax]
    have hmax' : ∀ m, o.max_word_length = some m → (givenText u unidecode o (k, v)).length ≤ m := fun m e => Nat.not_lt.mp
      ((any_eq_false_iff o.max_word_length (fun m => m < (givenText u unidecode o (k, v)).length)).mp hmax m e)
    by_cases hs : (o'.stoplist.any fun l => decide (givenText u unidecode o (k, v) ∈ l)) = true
    · rw [if_pos hs]
      have := (not_congr (hstop (givenText u unidecode o (k, v)))).mp (fun h' => h' hs)
      simp only [reduceCtorEq, false_iff, not_and]
      exact fun h' => absurd h'.2.2.2 this
    · rw [if_neg hs]
      have := (hstop (givenText u unidecode o (k, v))).mp hs
      simp only [Option.some.injEq]
      exact ⟨fun e => ⟨⟨hk', hd', fun _ => ⟨hmin', hmax'⟩, this⟩, e.symm⟩, fun e => e.2.symm⟩
  · have hw' : ¬ x.1 = .word := fun h' => hw (hx1.mp h')
    have hg' : givenText u unidecode o (k, v) = x.2 := by
      rw [hg]
      simp [hw]
    have hxe : x = (k, givenText u unidecode o (k, v)) := by
      rw [hg', ← hx3 hw]
    rw [if_neg hw', if_neg hw, ← hg']
    by_cases hs : (o'.stoplist.any fun l => decide (givenText u unidecode o (k, v) ∈ l)) = true
    · rw [if_pos hs]
      have := (not_congr (hstop (givenText u unidecode o (k, v)))).mp (fun h' => h' hs)
      simp only [reduceCtorEq, false_iff, not_and]
      exact fun h' => absurd h'.2.2.2 this
    · rw [if_neg hs]
      have := (hstop (givenText u unidecode o (k, v))).mp hs
      simp only [Option.some.injEq]
      exact ⟨fun e => ⟨⟨hk', hd', fun h' => absurd h' hw, this⟩, by rw [← e, hxe]⟩, fun e => by rw [hxe, e.2]⟩

theorem filterMap_eq_map_filter {α β : Type} (f : α → Option β) (p : α → Prop) [DecidablePred p] (g : α → β)
    (h : ∀ a b, f a = some b ↔ p a ∧ b = g a) (l : List α) : l.filterMap f = (l.filter fun a => decide (p a)).map g := by
  induction l with
  | nil => rfl
  | cons a l ih =>
      by_cases ha : p a
      · rw [List.filterMap_cons_some ((h a (g a)).mpr ⟨ha, rfl⟩), List.filter_cons_of_pos (by simpa using ha), List.map_cons, ih]
      · have : f a = none := by
          cases hf : f a with
          | none => rfl
          | some b => exact absurd ((h a b).mp hf).1 ha
        rw [List.filterMap_cons_none this, List.filter_cons_of_neg (by simpa using ha), ih]

open Classical in
/-- **C67**: what a tokenizer gives for a text, in order: the tokens which its options let through, rewritten as they ask. -/
theorem word_options_exact {o o' : Options} (h : construct u o = .ok o') (split : Bool) {s : List Char} {raw : List Token}
    (hr : tokenizeRaw u split s = .ok raw) :
    tokenize u unidecode split o' s = .ok ((raw.filter fun t => decide (Given u unidecode o t)).map (givenToken u unidecode o)) := by
  unfold tokenize
  rw [hr]
  show Except.ok _ = _
  rw [filterMap_eq_map_filter _ (Given u unidecode o) (givenToken u unidecode o) (filterToken_given u unidecode h)]

/-- **C67**: the only exception of the constructor is a type error. -/
theorem word_construct_error (o : Options) (e : PyErr) : construct u o = .error e →
    e = .typeError ∧ ((o.keep ≠ none ∧ o.drop ≠ none) ∨
      ∃ a b, o.min_word_length = some a ∧ o.max_word_length = some b ∧ b ≤ a) := by
  unfold construct
  intro h
  split at h
  · next hk => exact ⟨(Except.error.inj h).symm, Or.inl hk⟩
  · split at h
    · next a b ha hb =>
        split at h
        · next hab => exact ⟨(Except.error.inj h).symm, Or.inr ⟨a, b, ha, hb, hab⟩⟩
        · cases h
    · cases h

-- Lowered words of two letters or more, mentions among them, but for a word of the stoplist.
example : ∃ o', construct asciiTable
      { lower := true, mentions_as_words := true, min_word_length := some 2, stoplist := some ["The".toList], drop := some [.punct] } = .ok o' ∧
    tokenizeRaw asciiTable false "The X @Bob saw, 33".toList = .ok [(.word, "The".toList), (.word, "X".toList), (.mention, "@Bob".toList),
      (.word, "saw".toList), (.punct, ",".toList), (.number, "33".toList)] ∧
    tokenize asciiTable (fun s => s) false o' "The X @Bob saw, 33".toList =
      .ok [(.word, "bob".toList), (.word, "saw".toList), (.number, "33".toList)] := by
  exact ⟨_, rfl, by decide +kernel, by decide +kernel⟩

end Fog.Props
