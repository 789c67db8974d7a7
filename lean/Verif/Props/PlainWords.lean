import Verif.Props.Words
import Verif.Spec.Tokens

/-!
# C74: the tokens of plain texts
-/

namespace Fog.Props

open Words Spec

/-- Characters which have a meaning of their own in the tokenizer. -/
def specials : List Char := ['#', '$', '@', '-', '_', '·', '\'', '’', '.', ',']

/-- What is assumed of the tables. -/
structure PlainTables (u : Unicode) : Prop where
  alnum_space : ∀ c, u.isAlnum c = true → u.isSpace c = false
  alnum_junk : ∀ c, u.isAlnum c = true → isJunk c = false
  alnum_special : ∀ c, u.isAlnum c = true → c ∉ specials
  space_special : ∀ c, u.isSpace c = true → c ∉ specials
  alpha_alnum : ∀ c, u.isAlpha c = true → u.isAlnum c = true
  digit_alnum : ∀ c, u.isDigit c = true → u.isAlnum c = true
  alpha_digit : ∀ c, u.isAlpha c = true → u.isDigit c = false
  decimal_alpha : u.isAlpha '.' = false ∧ u.isAlpha ',' = false
  twitter : ∀ c, isTwitter c = true → c = '_' ∨ u.isAlnum c = true
  sigil_junk : u.isSpace '#' = false ∧ u.isSpace '@' = false

/-- Pieces of a plain text. -/
inductive Piece
  | space (c : Char)
  | signs (l : List Char)
  | word (w : List Char)
  | number (w : List Char)
  | hashtag (w : List Char)
  | mention (w : List Char)

/-- The characters of a piece. -/
def Piece.text : Piece → List Char
  | .space c => [c]
  | .signs l => l
  | .word w => w
  | .number w => w
  | .hashtag w => '#' :: w
  | .mention w => '@' :: w

/-- The tokens expected of a piece: a number of one digit is punctuation. -/
def Piece.tokens : Piece → List Token
  | .space _ => []
  | .signs l => l.map fun c => (.punct, [c])
  | .word w => [(.word, w)]
  | .number w => [(if w.length = 1 then .punct else .number, w)]
  | .hashtag w => [(.hashtag, '#' :: w)]
  | .mention w => [(.mention, '@' :: w)]

/-- A punctuation sign other than hyphens, underscores, apostrophes, middle points and sigils. -/
def Sign (u : Unicode) (c : Char) : Prop :=
  u.isSpace c = false ∧ u.isAlnum c = false ∧ ¬ Control c ∧ c ∉ ['#', '$', '@', '-', '_', '·', '\'', '’']

/-- What pieces are made of: spaces and control characters, words of letters, whole and decimal numbers, hashtags of letters and digits,
mentions of letters and digits of ASCII and underscores. -/
def Piece.Ok (u : Unicode) : Piece → Prop
  | .space c => u.isSpace c = true ∨ Control c
  | .signs l => l ≠ [] ∧ (∀ c ∈ l, Sign u c)
  | .word w => w ≠ [] ∧ ∀ c ∈ w, u.isAlpha c = true
  | .number w => ∃ ds, ds ≠ [] ∧ (∀ c ∈ ds, u.isDigit c = true) ∧
      (w = ds ∨ ∃ d ∈ decimalSigns, ∃ ds', ds' ≠ [] ∧ (∀ c ∈ ds', u.isDigit c = true) ∧ w = ds ++ d :: ds')
  | .hashtag w => ∃ c l, w = c :: l ∧ u.isAlpha c = true ∧ ∀ c ∈ l, u.isAlnum c = true
  | .mention w => w ≠ [] ∧ ∀ c ∈ w, NameChar c

/-- A space or a sign ends a word; a point does if the word is not an abbreviation. -/
def Ends (u : Unicode) (w : List Char) (d : Char) : Prop := u.isSpace d = true ∨ (Sign u d ∧ (d = '.' → u.lower w ∉ abbreviations))

theorem isJunk_iff (c : Char) : isJunk c = true ↔ Control c := by
  unfold isJunk Control
  rw [decide_eq_true_eq, Char.le_def, UInt32.le_iff_toNat_le]
  change c.toNat ≤ 31 ↔ c.toNat < 32
  omega

theorem not_junk {c : Char} (h : ¬ Control c) : isJunk c = false := by
  cases hj : isJunk c with
  | false => rfl
  | true => exact absurd ((isJunk_iff c).mp hj) h

theorem isTwitter_iff (c : Char) : isTwitter c = true ↔ NameChar c := by
  unfold isTwitter NameChar AsciiLetter
  simp only [Bool.or_eq_true, beq_iff_eq, decide_eq_true_eq]
  grind

theorem decimals_eq : decimalSigns = DECIMALS := rfl

/-- What may follow a piece. -/
def Piece.Before (u : Unicode) (post : List Char) : Piece → Prop
  | .space _ => True
  | .signs _ => ∀ d, post.head? = some d → u.isSpace d = true ∨ u.isAlnum d = true ∨ d = '#' ∨ d = '@'
  | .word w => ∀ d, post.head? = some d → Ends u w d ∧ (d = '.' → ∀ c, w.getLast? = some c → u.isUpper c = false)
  | .number w => ∀ d, post.head? = some d → Ends u w d ∧ d ∉ decimalSigns
  | .hashtag w => ∀ d, post.head? = some d → Ends u ('#' :: w) d
  | .mention w => ∀ d, post.head? = some d → Ends u ('@' :: w) d

/-- The text of pieces. -/
def textOf (ps : List Piece) : List Char := ps.flatMap Piece.text

/-- Each piece is well made and may be followed by the next one. -/
def Plain (u : Unicode) : List Piece → Prop
  | [] => True
  | p :: ps => p.Ok u ∧ p.Before u (textOf ps) ∧ Plain u ps

/-- There is no smiley, no address and no emoji in the text. -/
structure NothingElse (u : Unicode) (s : List Char) : Prop where
  smiley : ∀ i, u.smiley (slice s i (i + 64)) = none
  email : ∀ i, u.email (slice s i (i + 64)) = false
  url : ∀ i, startsAsUrl (slice s i (i + 64)) = false
  emojis : ∀ l, (∀ c ∈ l, Sign u c) → u.emojis l = []

/-- Nothing but a word can begin at this index. -/
structure QuietAt (u : Unicode) (s : List Char) (i : Nat) : Prop where
  smiley : u.smiley (slice s i (i + 64)) = none
  email : u.email (slice s i (i + 64)) = false
  url : startsAsUrl (slice s i (i + 64)) = false

theorem NothingElse.at {u : Unicode} {s : List Char} (h : NothingElse u s) (i : Nat) : QuietAt u s i := ⟨h.smiley i, h.email i, h.url i⟩

variable {u : Unicode}

theorem takeWhile_stop {p : Char → Bool} {w post : List Char} (hw : ∀ c ∈ w, p c = true) (hp : ∀ d, post.head? = some d → p d = false) :
    (w ++ post).takeWhile p = w := by
  induction w with
  | nil =>
      cases post with
      | nil => rfl
      | cons d post => simp [hp d rfl]
  | cons c w ih => simp [hw c (by simp), ih fun d hd => hw d (by simp [hd])]

theorem drop_mid {pre w post : List Char} : (pre ++ w ++ post).drop pre.length = w ++ post := by simp

theorem slice_mid {pre w post : List Char} : slice (pre ++ w ++ post) pre.length (pre.length + w.length) = w := by
  rw [slice, List.drop_take]
  simp

theorem getElem?_post {pre w post : List Char} : (pre ++ w ++ post)[pre.length + w.length]? = post.head? := by
  rw [List.getElem?_append_right (by simp)]
  simp [List.head?_eq_getElem?]

theorem not_mem_sub {l l' : List Char} {d : Char} (h : d ∉ l') (hl : ∀ x ∈ l, x ∈ l') : d ∉ l := fun hd => h (hl d hd)

theorem ends_facts (hu : PlainTables u) {w : List Char} {d : Char} (h : Ends u w d) :
    d ∉ APOSTROPHES ∧ u.isAlnum d = false ∧ d ∉ ['#', '$', '@', '-', '_', '·', '\'', '’'] := by
  have : u.isAlnum d = false ∧ d ∉ ['#', '$', '@', '-', '_', '·', '\'', '’'] := by
    rcases h with h | h
    · refine ⟨?_, ?_⟩
      · cases ha : u.isAlnum d with
        | false => rfl
        | true => rw [hu.alnum_space d ha] at h; simp at h
      · exact not_mem_sub (hu.space_special d h) (by decide)
    · exact ⟨h.1.2.1, h.1.2.2.2⟩
  refine ⟨?_, this⟩
  exact not_mem_sub this.2 (by decide)

/-- The end of a token which is followed by a space, a sign or nothing. -/
theorem finish_plain (hu : PlainTables u) {pre w post : List Char} {kind : Kind} (hpost : ∀ d, post.head? = some d → Ends u w d)
    (hkind : kind = .word → '-' ∉ w) : finish u false (pre ++ w ++ post) kind w pre.length (pre.length + w.length) =
      .ok ([(kind, w)], pre.length + w.length) := by
  have hreg : regular u false kind w = .ok [(kind, w)] := by
    unfold regular
    split
    · next h =>
        have : w.count '-' = 0 := List.count_eq_zero.mpr (hkind h)
        simp [this, pure, Except.pure]
    · simp [pure, Except.pure]
  unfold finish
  rw [getElem?_post]
  cases hp : post.head? with
  | none => simp only [hreg, bind, Except.bind, pure, Except.pure]
  | some d =>
      have hd := hpost d hp
      simp only
      rw [if_neg (ends_facts hu hd).1, if_neg]
      · simp only [hreg, bind, Except.bind, pure, Except.pure]
      · rintro ⟨_, rfl, h⟩
        rcases hd with hd | hd
        · exact absurd (by decide) (hu.space_special _ hd)
        · exact hd.2 rfl h

theorem emit_plain (hu : PlainTables u) {pre w post : List Char} {kind : Kind} (hne : w ≠ []) (hq : ∀ c, w.head? = some c → c ∉ APOSTROPHES)
    (hpost : ∀ d, post.head? = some d → Ends u w d) (hkind : kind = .word → '-' ∉ w) :
    emit u false (pre ++ w ++ post) kind false pre.length (pre.length + w.length) = .ok ([(kind, w)], pre.length + w.length) := by
  unfold emit
  rw [slice_mid]
  cases w with
  | nil => exact absurd rfl hne
  | cons q w =>
      have hq := hq q rfl
      simp only [hq, false_and, if_false, Bool.false_eq_true, finish_plain hu hpost hkind, bind, Except.bind, pure, Except.pure, List.nil_append]

/-! ### Words -/

theorem wordLoop_plain (hu : PlainTables u) : ∀ (w : List Char) (post : List Char) (j : Nat) (prev : Char), (∀ c ∈ w, u.isAlpha c = true) →
    (∀ d, post.head? = some d → Ends u (prev :: w) d ∨ u.isSpace d = true ∨ Sign u d) →
    (post.head? = some '.' → ∀ c, (prev :: w).getLast? = some c → u.isUpper c = false) →
    wordLoop u false (w ++ post) j prev false = (j + w.length, false) := by
  intro w
  induction w with
  | nil =>
      intro post j prev _ hd hup
      cases post with
      | nil => simp [wordLoop]
      | cons d post =>
          have hd' : u.isSpace d = true ∨ Sign u d := by
            rcases hd d rfl with (h | h) | h
            · exact .inl h
            · exact .inr h.1
            · exact h
          rw [List.nil_append, wordLoop.eq_def]
          simp only [Bool.false_eq_true, if_false, List.length_nil, Nat.add_zero]
          rcases hd' with h | ⟨h1, h2, h3, h4⟩
          · rw [if_pos h]
          · rw [if_neg (by simp [h1]), if_neg (by unfold IDENTIFIER_PARTS; grind), if_pos (by simp [h2])]
            by_cases hdot : d = '.'
            · subst hdot
              have := hup rfl prev rfl
              rw [if_neg (by simp [this])]
            · rw [if_neg (by simp [hdot])]
  | cons c w ih =>
      intro post j prev hw hd hup
      have hc := hw c (by simp)
      have ha := hu.alpha_alnum c hc
      have hs := hu.alnum_space c ha
      have hsp := hu.alnum_special c ha
      have := ih post (j + 1) c (fun x hx => hw x (by simp [hx])) (by
        intro d hp
        rcases hd d hp with (h | h) | h
        · exact .inr (.inl h)
        · exact .inr (.inr h.1)
        · exact .inr h) (by
        intro hp x hx
        exact hup hp x (by simpa using hx))
      rw [List.cons_append, wordLoop.eq_def]
      simp only [Bool.false_eq_true, if_false]
      rw [if_neg (by simp [hs]), if_neg, if_neg (by simp [ha]), this]
      · simp only [List.length_cons, Prod.mk.injEq, and_true]; omega
      · unfold specials at hsp
        unfold IDENTIFIER_PARTS
        grind

theorem stepWord_word (hu : PlainTables u) {pre w post : List Char} (hs : QuietAt u (pre ++ w ++ post) pre.length) (hok : (Piece.word w).Ok u)
    (hb : (Piece.word w).Before u post) {c : Char} (hc : w.head? = some c) :
    stepWord u false (pre ++ w ++ post) pre.length c = .ok ([(.word, w)], pre.length + w.length) := by
  obtain ⟨hne, hw⟩ := hok
  cases w with
  | nil => exact absurd rfl hne
  | cons c' w =>
      simp only [List.head?_cons, Option.some.injEq] at hc
      subst hc
      have hca := hw c' (by simp)
      have hcs := hu.alnum_special c' (hu.alpha_alnum c' hca)
      have hnum : number u (pre ++ c' :: w ++ post) pre.length c' = (pre.length + 1, false, .word) := by
        unfold number
        rw [if_neg]
        rintro (h | h)
        · rw [hu.alpha_digit c' hca] at h; simp at h
        · subst h; exact hcs (by decide)
      unfold stepWord
      rw [hnum]
      simp only [hs.url, hs.email, Bool.false_eq_true, if_false, Bool.or_false]
      have hprev : ((pre ++ c' :: w ++ post)[pre.length + 1 - 1]?.getD c') = c' := by simp
      rw [hprev]
      have hdrop : (pre ++ c' :: w ++ post).drop (pre.length + 1) = w ++ post := by
        rw [List.append_assoc, List.drop_append]
        simp
      rw [hdrop, wordLoop_plain hu w post (pre.length + 1) c' (fun x hx => hw x (by simp [hx]))
        (fun d hd => .inl (hb d hd).1) (fun hp x hx => (hb '.' hp).2 rfl x hx)]
      have := emit_plain hu (pre := pre) (w := c' :: w) (post := post) (kind := .word) (by simp) (by
        intro x hx
        simp only [List.head?_cons, Option.some.injEq] at hx
        subst hx
        unfold specials at hcs
        unfold APOSTROPHES
        grind) (fun d hd => (hb d hd).1) (by
        intro _ h
        exact hu.alnum_special _ (hu.alpha_alnum _ (hw _ h)) (by decide))
      rw [← this]
      simp only [List.length_cons]
      congr 1
      omega

/-! ### Numbers -/

theorem numberLoop_digits (hu : PlainTables u) : ∀ (ds rest : List Char) (j : Nat) (last : Char) (dec : Option Char) (kind : Kind),
    (∀ c ∈ ds, u.isDigit c = true) → numberLoop u (ds ++ rest) j last dec kind =
      numberLoop u rest (j + ds.length) (ds.getLast?.getD last) dec (if ds = [] then kind else .number) := by
  intro ds
  induction ds with
  | nil => intros; rfl
  | cons c ds ih =>
      intro rest j last dec kind h
      have hc := h c (by simp)
      rw [List.cons_append, numberLoop, if_neg (by simp [hu.alnum_space c (hu.digit_alnum c hc)]), if_neg (by simp [hc]),
        ih rest (j + 1) c dec .number fun x hx => h x (by simp [hx])]
      have h1 : (c :: ds).getLast?.getD last = ds.getLast?.getD c := by
        cases ds with
        | nil => rfl
        | cons d ds => simp [List.getLast?_eq_some_getLast]
      rw [h1]
      simp only [List.length_cons, reduceCtorEq, if_false, ite_self]
      congr 1
      omega

theorem numberLoop_stop (hu : PlainTables u) {w post : List Char} {j : Nat} {last : Char} {dec : Option Char} {kind : Kind}
    (hlast : u.isDigit last = true) (hpost : ∀ d, post.head? = some d → Ends u w d ∧ d ∉ decimalSigns) :
    numberLoop u post j last dec kind = (j, true, kind) := by
  cases post with
  | nil => rfl
  | cons d post =>
      obtain ⟨h1, h2⟩ := hpost d rfl
      rw [decimals_eq] at h2
      obtain ⟨_, h4, h5⟩ := ends_facts hu h1
      rw [numberLoop]
      split
      · rfl
      · have hnd : u.isDigit d = false := by
          cases hd : u.isDigit d with
          | false => rfl
          | true => rw [hu.digit_alnum d hd] at h4; simp at h4
        have hna : u.isAlpha d = false := by
          cases hd : u.isAlpha d with
          | false => rfl
          | true => rw [hu.alpha_alnum d hd] at h4; simp at h4
        have hl : last ∉ DECIMALS := by
          have := hu.alnum_special last (hu.digit_alnum last hlast)
          unfold specials at this
          unfold DECIMALS
          grind
        have hcond : ¬ (last ≠ '-' ∧ (u.isAlpha d = true ∨ d ∈ IDENTIFIER_PARTS)) := by
          rintro ⟨_, h | h⟩
          · rw [hna] at h; simp at h
          · exact not_mem_sub (l := IDENTIFIER_PARTS) h5 (by decide) h
        simp only [hnd, hl, hcond, h2, Bool.false_eq_true, not_false_eq_true, if_true, if_false]

theorem number_plain (hu : PlainTables u) {pre w post : List Char} (hok : (Piece.number w).Ok u) (hb : (Piece.number w).Before u post) {c : Char}
    (hc : w.head? = some c) : u.isDigit c = true ∧
      number u (pre ++ w ++ post) pre.length c = (pre.length + w.length, true, if w.length = 1 then .punct else .number) ∧
      (∀ x, w.getLast? = some x → u.isDigit x = true) := by
  obtain ⟨ds, hne, hds, hw⟩ := hok
  cases ds with
  | nil => exact absurd rfl hne
  | cons a ds =>
      have hac : a = c := by
        rcases hw with rfl | ⟨d, _, ds', _, _, rfl⟩
        · simpa using hc
        · simpa using hc
      subst hac
      have ha := hds a (by simp)
      have hdsl : ∀ x ∈ ds, u.isDigit x = true := fun x hx => hds x (by simp [hx])
      have hlast : u.isDigit (ds.getLast?.getD a) = true := by
        cases h : ds.getLast? with
        | none => exact ha
        | some x => exact hdsl x (List.mem_of_getLast? h)
      have hdigdec : ∀ x, u.isDigit x = true → x ∉ DECIMALS := by
        intro x hx
        have := hu.alnum_special x (hu.digit_alnum x hx)
        unfold specials at this
        unfold DECIMALS
        grind
      have hwl : ∀ x, w.getLast? = some x → u.isDigit x = true := by
        intro x hx
        rcases hw with rfl | ⟨d, _, ds', hne', hds', rfl⟩
        · exact hds x (List.mem_of_getLast? hx)
        · rw [List.getLast?_append_of_ne_nil _ (by simp), List.getLast?_cons_of_ne_nil hne'] at hx
          exact hds' x (List.mem_of_getLast? hx)
      have hwne : w ≠ [] := by
        rintro rfl
        simp at hc
      refine ⟨ha, ?_, hwl⟩
      have hloop : numberLoop u ((pre ++ w ++ post).drop (pre.length + 1)) (pre.length + 1) a none .punct =
          (pre.length + w.length, true, if w.length = 1 then .punct else .number) := by
        have hdrop : (pre ++ w ++ post).drop (pre.length + 1) = w.tail ++ post := by
          rw [← List.drop_drop, drop_mid]
          cases w with
          | nil => exact absurd rfl hwne
          | cons x w => rfl
        rw [hdrop]
        rcases hw with rfl | ⟨d, hd, ds', hne', hds', rfl⟩
        · rw [List.tail_cons, numberLoop_digits hu ds post _ a none .punct hdsl, numberLoop_stop hu hlast hb]
          simp only [List.length_cons, Prod.mk.injEq, true_and]
          refine ⟨by omega, ?_⟩
          cases ds <;> simp
        · have hd1 : u.isSpace d = false ∧ u.isDigit d = false ∧ u.isAlpha d = false := by
            have hal : u.isAlnum d = false := by
              cases h : u.isAlnum d with
              | false => rfl
              | true =>
                  have := hu.alnum_special d h
                  unfold specials at this
                  unfold decimalSigns at hd
                  grind
            refine ⟨?_, ?_, ?_⟩
            · cases h : u.isSpace d with
              | false => rfl
              | true =>
                  have := hu.space_special d h
                  unfold specials at this
                  unfold decimalSigns at hd
                  grind
            · cases h : u.isDigit d with
              | false => rfl
              | true => rw [hu.digit_alnum d h] at hal; simp at hal
            · cases h : u.isAlpha d with
              | false => rfl
              | true => rw [hu.alpha_alnum d h] at hal; simp at hal
          have hdid : d ∉ IDENTIFIER_PARTS := by
            unfold decimalSigns at hd
            unfold IDENTIFIER_PARTS
            grind
          rw [List.cons_append, List.tail_cons, List.append_assoc, numberLoop_digits hu ds _ _ a none .punct hdsl, List.cons_append, numberLoop,
            if_neg (by simp [hd1.1]), if_pos (by simp [hd1.2.1]), if_neg (hdigdec _ hlast), if_neg (by simp [hd1.2.2, hdid]),
            if_neg (by simpa using decimals_eq ▸ hd), if_neg (by simp), numberLoop_digits hu ds' post _ d _ .number hds']
          have hlast' : u.isDigit (ds'.getLast?.getD d) = true := by
            rw [List.getLast?_eq_some_getLast hne']
            exact hds' _ (List.getLast_mem hne')
          rw [numberLoop_stop hu hlast' hb]
          have : 0 < ds'.length := List.length_pos_iff.mpr hne'
          simp only [List.length_cons, List.length_append, Prod.mk.injEq, true_and]
          refine ⟨by omega, ?_⟩
          rw [if_neg hne', if_neg (by omega)]
      have hlastIn : ¬ ((pre ++ w ++ post)[pre.length + w.length - 1]?.any DECIMALS.contains) = true := by
        have hpos : 0 < w.length := List.length_pos_iff.mpr hwne
        rw [List.append_assoc, List.getElem?_append_right (by omega), List.getElem?_append_left (by omega),
          show pre.length + w.length - 1 - pre.length = w.length - 1 by omega, ← List.getLast?_eq_getElem?]
        cases h : w.getLast? with
        | none => simp
        | some x =>
            have := hdigdec x (hwl x h)
            simpa using this
      unfold number
      rw [if_pos (.inl ha)]
      simp only [hloop]
      rw [if_neg]
      rintro ⟨_, _, h⟩
      exact hlastIn h

theorem stepWord_number (hu : PlainTables u) {pre w post : List Char} (hok : (Piece.number w).Ok u) (hb : (Piece.number w).Before u post)
    {c : Char} (hc : w.head? = some c) : u.isDigit c = true ∧
    stepWord u false (pre ++ w ++ post) pre.length c = .ok ((Piece.number w).tokens, pre.length + w.length) := by
  obtain ⟨h1, h2, _⟩ := number_plain (pre := pre) hu hok hb hc
  refine ⟨h1, ?_⟩
  unfold stepWord
  rw [h2]
  simp only [if_true]
  refine emit_plain hu ?_ ?_ (fun d hd => (hb d hd).1) ?_
  · rintro rfl; simp at hc
  · intro x hx
    rw [hc] at hx
    cases hx
    have := hu.alnum_special c (hu.digit_alnum c h1)
    unfold specials at this
    unfold APOSTROPHES
    grind
  · intro h
    split at h <;> simp at h

/-! ### The whole text -/

theorem joinEmojis_puncts (l : List Char) : joinEmojis (l.map fun c => (Kind.punct, [c])) = l.map fun c => (Kind.punct, [c]) := by
  induction l with
  | nil => rfl
  | cons c l ih =>
      cases l with
      | nil => rfl
      | cons d l =>
          simp only [List.map_cons] at ih ⊢
          rw [joinEmojis, if_neg (by simp), ih]

theorem step_plain (hu : PlainTables u) (hemo : ∀ l, (∀ c ∈ l, Sign u c) → u.emojis l = []) {pre post : List Char} {p : Piece}
    (hsm' : (∀ c, p ≠ .space c) → u.smiley (slice (pre ++ p.text ++ post) pre.length (pre.length + 64)) = none)
    (hs : ∀ w, p = .word w → QuietAt u (pre ++ p.text ++ post) pre.length) (hok : p.Ok u)
    (hb : p.Before u post) {c : Char} (hc : p.text.head? = some c) :
    step u false (pre ++ p.text ++ post) pre.length c = .ok (p.tokens, pre.length + p.text.length) := by
  cases p with
  | space x =>
      unfold step
      simp only [Piece.text, List.head?_cons, Option.some.injEq] at hc
      subst hc
      rw [if_pos (hok.imp_right (isJunk_iff _).mpr)]
      rfl
  | signs l =>
      have hsm := hsm' (by simp)
      obtain ⟨hne, hl⟩ := hok
      simp only [Piece.text] at hc hsm hb ⊢
      cases l with
      | nil => exact absurd rfl hne
      | cons x l =>
          simp only [List.head?_cons, Option.some.injEq] at hc
          subst hc
          obtain ⟨h1, h2, h3, h4⟩ := hl x (by simp)
          simp only [List.mem_cons, List.not_mem_nil, or_false, not_or] at h4
          have hend : punctEnd u (pre ++ x :: l ++ post) pre.length = pre.length + (x :: l).length := by
            unfold punctEnd
            have : (pre ++ x :: l ++ post).drop (pre.length + 1) = l ++ post := by
              rw [← List.drop_drop, drop_mid]
              rfl
            rw [this, takeWhile_stop]
            · simp only [List.length_cons]; omega
            · intro d hd
              obtain ⟨g1, g2, g3, g4⟩ := hl d (by simp [hd])
              simp only [List.mem_cons, List.not_mem_nil, or_false, not_or] at g4
              simp [g1, g2, not_junk g3, g4.1, g4.2.2.1]
            · intro d hd
              rcases hb d hd with h | h | h | h <;> simp [h]
          unfold step
          rw [if_neg (by simp [h1, not_junk h3]), hsm]
          simp only
          rw [if_neg (by simp [h4.1, h4.2.1]), if_neg h4.2.2.1, if_pos, hend, slice_mid]
          · unfold punctEmoji withHoles
            rw [hemo _ hl, withHolesFrom, List.drop_zero, joinEmojis_puncts]
            rfl
          · refine ⟨⟨by simp [h2], h4.2.2.2.1⟩, ?_⟩
            rintro ⟨_, h⟩
            unfold APOSTROPHES at h
            simp only [List.mem_cons, List.not_mem_nil, or_false] at h
            grind
  | word w =>
      have hsm := hsm' (by simp)
      simp only [Piece.text] at hc hsm hs ⊢
      have hca : u.isAlpha c = true := hok.2 c (List.mem_of_mem_head? hc)
      have hal := hu.alpha_alnum c hca
      have hsp := hu.alnum_special c hal
      unfold specials at hsp
      simp only [List.mem_cons, List.not_mem_nil, or_false, not_or] at hsp
      unfold step
      rw [if_neg (by simp [hu.alnum_space c hal, hu.alnum_junk c hal]), hsm]
      simp only
      rw [if_neg (by simp [hsp.1, hsp.2.1]), if_neg hsp.2.2.1, if_neg (by simp [hal])]
      exact stepWord_word hu (hs w rfl) hok hb hc
  | number w =>
      have hsm := hsm' (by simp)
      simp only [Piece.text] at hc hsm hs ⊢
      obtain ⟨hd, hst⟩ := stepWord_number (pre := pre) hu hok hb hc
      have hal := hu.digit_alnum c hd
      have hsp := hu.alnum_special c hal
      unfold specials at hsp
      simp only [List.mem_cons, List.not_mem_nil, or_false, not_or] at hsp
      unfold step
      rw [if_neg (by simp [hu.alnum_space c hal, hu.alnum_junk c hal]), hsm]
      simp only
      rw [if_neg (by simp [hsp.1, hsp.2.1]), if_neg hsp.2.2.1, if_neg (by simp [hal])]
      exact hst
  | hashtag w =>
      have hsm := hsm' (by simp)
      obtain ⟨a, l, rfl, ha, hl⟩ := hok
      simp only [Piece.text, List.head?_cons, Option.some.injEq] at hc hsm hb ⊢
      subst hc
      have hdrop : (pre ++ '#' :: a :: l ++ post).drop (pre.length + 1) = a :: l ++ post := by
        rw [← List.drop_drop, drop_mid]
        rfl
      have hnext : (pre ++ '#' :: a :: l ++ post)[pre.length + 1]? = some a := by
        have := List.getElem?_drop (xs := pre ++ '#' :: a :: l ++ post) (i := pre.length + 1) (j := 0)
        rw [hdrop] at this
        simpa using this.symm
      unfold step
      rw [if_neg (by simp [hu.sigil_junk.1]; decide), hsm]
      simp only
      rw [if_pos (.inl trivial), hnext]
      simp only [Option.any_some, ha, if_true]
      rw [hdrop, takeWhile_stop]
      · have := emit_plain hu (pre := pre) (w := '#' :: a :: l) (post := post) (kind := .hashtag) (by simp) (by
          intro x hx
          simp only [List.head?_cons, Option.some.injEq] at hx
          subst hx
          decide) hb (by simp)
        rw [show pre.length + 1 + (a :: l).length = pre.length + ('#' :: a :: l).length by simp only [List.length_cons]; omega]
        exact this
      · intro x hx
        rcases List.mem_cons.mp hx with rfl | hx
        · exact hu.alpha_alnum _ ha
        · exact hl x hx
      · intro d hd
        exact (ends_facts hu (hb d hd)).2.1
  | mention w =>
      have hsm := hsm' (by simp)
      obtain ⟨hne, hw⟩ := hok
      replace hw : ∀ c ∈ w, isTwitter c = true := fun c hc => (isTwitter_iff c).mpr (hw c hc)
      cases w with
      | nil => exact absurd rfl hne
      | cons a l =>
          simp only [Piece.text, List.head?_cons, Option.some.injEq] at hc hsm hb ⊢
          subst hc
          have hdrop : (pre ++ '@' :: a :: l ++ post).drop (pre.length + 1) = a :: l ++ post := by
            rw [← List.drop_drop, drop_mid]
            rfl
          have hnext : (pre ++ '@' :: a :: l ++ post)[pre.length + 1]? = some a := by
            have := List.getElem?_drop (xs := pre ++ '@' :: a :: l ++ post) (i := pre.length + 1) (j := 0)
            rw [hdrop] at this
            simpa using this.symm
          unfold step
          rw [if_neg (by simp [hu.sigil_junk.2]; decide), hsm]
          simp only
          rw [if_neg (by decide), if_pos trivial, hnext]
          simp only [Option.any_some, hw a (by simp), if_true]
          rw [hdrop, takeWhile_stop hw]
          · have := emit_plain hu (pre := pre) (w := '@' :: a :: l) (post := post) (kind := .mention) (by simp) (by
              intro x hx
              simp only [List.head?_cons, Option.some.injEq] at hx
              subst hx
              decide) hb (by simp)
            rw [show pre.length + 1 + (a :: l).length = pre.length + ('@' :: a :: l).length by simp only [List.length_cons]; omega]
            exact this
          · intro d hd
            obtain ⟨_, h2, h3⟩ := ends_facts hu (hb d hd)
            cases ht : isTwitter d with
            | false => rfl
            | true =>
                rcases hu.twitter d ht with rfl | h
                · exact absurd (by decide) h3
                · rw [h2] at h; simp at h

theorem text_ne_nil {p : Piece} (hok : p.Ok u) : p.text ≠ [] := by
  cases p with
  | space c => simp [Piece.text]
  | signs l => exact hok.1
  | word w => exact hok.1
  | number w =>
      obtain ⟨ds, hne, _, rfl | ⟨d, _, ds', _, _, rfl⟩⟩ := hok
      · exact hne
      · simp [Piece.text]
  | hashtag w => simp [Piece.text]
  | mention w => simp [Piece.text]

theorem run_plain (hu : PlainTables u) : ∀ (ps : List Piece) (pre : List Char) (fuel : Nat), NothingElse u (pre ++ textOf ps) → Plain u ps →
    (textOf ps).length ≤ fuel → run u false (pre ++ textOf ps) fuel pre.length = .ok (ps.flatMap Piece.tokens) := by
  intro ps
  induction ps with
  | nil =>
      intro pre fuel _ _ _
      cases fuel with
      | zero => rfl
      | succ fuel =>
          rw [run]
          simp [textOf, pure, Except.pure]
  | cons p ps ih =>
      intro pre fuel hs hp hf
      obtain ⟨hok, hb, hp⟩ := hp
      have hne := text_ne_nil hok
      have htext : textOf (p :: ps) = p.text ++ textOf ps := rfl
      rw [htext, List.length_append] at hf
      rw [htext, ← List.append_assoc] at hs ⊢
      have hpos : 0 < p.text.length := List.length_pos_iff.mpr hne
      obtain ⟨c, hc⟩ : ∃ c, p.text.head? = some c := by
        cases h : p.text with
        | nil => exact absurd h hne
        | cons c l => exact ⟨c, rfl⟩
      cases fuel with
      | zero => omega
      | succ fuel =>
          have hget : (pre ++ p.text ++ textOf ps)[pre.length]? = some c := by
            rw [List.append_assoc, List.getElem?_append_right (Nat.le_refl _), Nat.sub_self, List.getElem?_append_left hpos,
              ← List.head?_eq_getElem?, hc]
          have hst := step_plain (pre := pre) hu hs.emojis (fun _ => hs.smiley _) (fun _ _ => hs.at _) hok hb hc
          have := ih (pre ++ p.text) fuel hs hp (by omega)
          rw [List.length_append] at this
          rw [run, hget]
          simp only [hst, this, bind, Except.bind, pure, Except.pure, List.flatMap_cons]

/-- **C74**: the tokens of a text made of words, numbers, hashtags and mentions ended by spaces or punctuation, and of punctuation, are
these in order, except that a number of one digit is a punctuation token. -/
theorem words_plain_text (hu : PlainTables u) {ps : List Piece} (hp : Plain u ps) (hs : NothingElse u (textOf ps)) :
    tokenizeRaw u false (textOf ps) = .ok (ps.flatMap Piece.tokens) := by
  have := run_plain hu ps [] (textOf ps).length hs hp (Nat.le_refl _)
  exact this

/-- The same tables, as Python has them on ASCII. -/
theorem asciiTable_plain : PlainTables { asciiTable with isSpace := fun c => c.isWhitespace } := by
  have key : ∀ c : Char, c.isAlphanum = true → c.toNat < 128 := by
    intro c h
    simp only [Char.isAlphanum, Char.isAlpha, Char.isUpper, Char.isLower, Char.isDigit, Bool.or_eq_true, decide_eq_true_eq, Bool.and_eq_true,
      UInt32.le_iff_toNat_le] at h
    simp at h
    omega
  have lift : ∀ {P : Char → Prop}, (∀ n : Fin 128, P (Char.ofNat n.val)) → ∀ c : Char, c.toNat < 128 → P c := by
    intro P h c hc
    have := h ⟨c.toNat, hc⟩
    simpa [Char.ofNat_toNat] using this
  have alpha : ∀ c : Char, c.isAlpha = true → c.isAlphanum = true := by intro c h; simp [Char.isAlphanum, h]
  have digit : ∀ c : Char, c.isDigit = true → c.isAlphanum = true := by intro c h; simp [Char.isAlphanum, h]
  refine ⟨?_, ?_, ?_, ?_, alpha, digit, ?_, by decide, ?_, by decide⟩
  · intro c h
    exact lift (P := fun c => c.isAlphanum = true → c.isWhitespace = false) (by decide +kernel) c (key c h) h
  · intro c h
    exact lift (P := fun c => c.isAlphanum = true → isJunk c = false) (by decide +kernel) c (key c h) h
  · intro c h
    exact lift (P := fun c => c.isAlphanum = true → c ∉ specials) (by decide +kernel) c (key c h) h
  · intro c h hin
    change c.isWhitespace = true at h
    unfold specials at hin
    simp only [List.mem_cons, List.not_mem_nil, or_false] at hin
    rcases hin with rfl | rfl | rfl | rfl | rfl | rfl | rfl | rfl | rfl | rfl <;> revert h <;> decide
  · intro c h
    exact lift (P := fun c => c.isAlpha = true → c.isDigit = false) (by decide +kernel) c (key c (alpha c h)) h
  · intro c h
    by_cases hc : c.toNat < 128
    · exact lift (P := fun c => isTwitter c = true → c = '_' ∨ c.isAlphanum = true) (by decide +kernel) c hc h
    · exfalso
      unfold isTwitter at h
      simp only [Bool.or_eq_true, beq_iff_eq, decide_eq_true_eq] at h
      have e : ∀ d : Char, c ≤ d → c.toNat ≤ d.toNat := fun d h => h
      rcases h with ((rfl | h) | h) | h
      · exact hc (by decide)
      · have := e _ h.2; simp at this; omega
      · have := e _ h.2; simp at this; omega
      · have := e _ h.2; simp at this; omega

example : textOf [.word "Hello".toList, .signs [','], .space ' ', .word "we".toList, .space ' ', .word "are".toList, .space ' ',
    .number "12.5".toList, .space ' ', .word "or".toList, .space ' ', .number "7".toList, .space ' ', .hashtag "Fog2".toList, .space ' ',
    .mention "bob_1".toList, .signs ['!', '?']] = "Hello, we are 12.5 or 7 #Fog2 @bob_1!?".toList := by decide +kernel

/-- Tables with nothing but characters. -/
def bareTable : Unicode := { asciiTable with smiley := fun _ => none, email := fun _ => false }

theorem bareTable_plain : PlainTables bareTable :=
  ⟨asciiTable_plain.1, asciiTable_plain.2, asciiTable_plain.3, asciiTable_plain.4, asciiTable_plain.5, asciiTable_plain.6,
    asciiTable_plain.7, asciiTable_plain.8, asciiTable_plain.9, asciiTable_plain.10⟩

example : tokenizeRaw bareTable false "Hi, 12.5 @bob".toList =
    .ok [(.word, "Hi".toList), (.punct, [',']), (.number, "12.5".toList), (.mention, "@bob".toList)] := by
  have h := words_plain_text bareTable_plain (ps := [.word "Hi".toList, .signs [','], .space ' ', .number "12.5".toList, .space ' ',
    .mention "bob".toList]) ?_ ?_
  · exact h
  · unfold Plain Plain Plain Plain Plain Plain Plain
    refine ⟨⟨by simp, by decide⟩, ?_, ⟨by simp, ?_⟩, ?_, .inl rfl, trivial, ⟨"12".toList, by simp, by decide, .inr ⟨'.', by decide, "5".toList, by simp, by decide, rfl⟩⟩, ?_, .inl rfl, trivial, ⟨by simp, by unfold NameChar AsciiLetter; decide⟩, ?_, trivial⟩
    · intro d hd
      obtain rfl : ',' = d := Option.some.inj hd
      exact ⟨.inr ⟨by unfold Sign; decide, by decide⟩, by decide⟩
    · intro c hc
      obtain rfl := List.mem_singleton.mp hc
      unfold Sign; decide
    · intro d hd
      obtain rfl : ' ' = d := Option.some.inj hd
      decide
    · intro d hd
      obtain rfl : ' ' = d := Option.some.inj hd
      exact ⟨.inl rfl, by decide⟩
    · intro d hd
      cases hd
  · refine ⟨fun _ => rfl, fun _ => rfl, ?_, fun _ _ => rfl⟩
    have : ∀ i < 13, startsAsUrl (slice "Hi, 12.5 @bob".toList i (i + 64)) = false := by decide +kernel
    intro i
    by_cases hi : i < 13
    · exact this i hi
    · have : slice "Hi, 12.5 @bob".toList i (i + 64) = [] := by
        unfold slice
        apply List.drop_eq_nil_of_le
        rw [List.length_take]
        have : "Hi, 12.5 @bob".toList.length = 13 := by decide
        omega
      change startsAsUrl (slice "Hi, 12.5 @bob".toList i (i + 64)) = false
      rw [this]
      decide

/-- **C74**: a number of one digit is a punctuation token, which the tests of the code expect too. -/
theorem words_single_digit : tokenizeRaw asciiTable false "chapter 7".toList = .ok [(.word, "chapter".toList), (.punct, ['7'])] := by
  decide +kernel

end Fog.Props
