import Verif.Props.PlainWords
import Verif.Spec.Tokens

/-!
# C92: addresses, abbreviations, contractions, elisions, compounds and acronyms
-/

namespace Fog.Props

open Words Spec

/-! ### How addresses begin -/

theorem startsAsUrl_iff (t : List Char) : startsAsUrl (t.take 64) = true ↔ UrlStart t := by
  have key : ∀ p : List Char, p.length ≤ 64 → (p.isPrefixOf (t.take 64) = true ↔ p <+: t) := by
    intro p hp
    rw [List.isPrefixOf_iff_prefix, List.prefix_take_iff]
    exact ⟨fun h => h.1, fun h => ⟨h, hp⟩⟩
  unfold startsAsUrl UrlStart
  rw [Bool.or_eq_true, key _ (by decide), key _ (by decide)]

/-- **C92**: the lookahead for addresses accepts one to sixty-three characters before the `@`, which may not be points. The regular
expression would accept sixty-four, but it is given sixty-four characters with the `@`. -/
theorem email_lookahead_iff (t : List Char) : emailRe (t.take 64) = true ↔ MailStart t := by
  have hP : ∀ c : Char, (decide (('A' ≤ c ∧ c ≤ 'Z') ∨ ('a' ≤ c ∧ c ≤ 'z') ∨ ('0' ≤ c ∧ c ≤ '9')) ||
      "!#$%&*+-/=?^_`{|}~".toList.contains c) = true ↔ LocalChar c := by
    intro c
    have : "!#$%&*+-/=?^_`{|}~".toList = ['!', '#', '$', '%', '&', '*', '+', '-', '/', '=', '?', '^', '_', '`', '{', '|', '}', '~'] := by decide
    rw [this]
    unfold LocalChar AsciiLetter
    rw [Bool.or_eq_true, decide_eq_true_eq, List.contains_iff_mem]
    constructor
    · rintro ((h | h | h) | h)
      · exact .inl (.inl h)
      · exact .inl (.inr h)
      · exact .inr (.inl h)
      · exact .inr (.inr h)
    · rintro ((h | h) | h | h)
      · exact .inl (.inl h)
      · exact .inl (.inr (.inl h))
      · exact .inl (.inr (.inr h))
      · exact .inr h
  have hat : ¬ LocalChar '@' := by rw [← hP]; decide
  unfold emailRe
  simp only [Bool.and_eq_true, decide_eq_true_eq]
  generalize hp : (fun c : Char => decide (('A' ≤ c ∧ c ≤ 'Z') ∨ ('a' ≤ c ∧ c ≤ 'z') ∨ ('0' ≤ c ∧ c ≤ '9')) ||
      "!#$%&*+-/=?^_`{|}~".toList.contains c) = P
  have hP' : ∀ c, P c = true ↔ LocalChar c := by intro c; rw [← hp]; exact hP c
  constructor
  · rintro ⟨⟨h1, h2⟩, h3⟩
    have hsplit : t.take 64 = (t.take 64).takeWhile P ++ (t.take 64).dropWhile P := List.takeWhile_append_dropWhile.symm
    have hlt : ((t.take 64).takeWhile P).length < (t.take 64).length := (List.getElem?_eq_some_iff.mp h3).1
    have hle : (t.take 64).length ≤ 64 := by rw [List.length_take]; exact Nat.min_le_left _ _
    have hd : ∃ r, (t.take 64).dropWhile P = '@' :: r := by
      rw [hsplit, List.getElem?_append_right (by rw [← hsplit])] at h3
      rw [← hsplit, Nat.sub_self] at h3
      cases hdw : (t.take 64).dropWhile P with
      | nil => rw [hdw] at h3; simp at h3
      | cons x r =>
          rw [hdw] at h3
          simp only [List.getElem?_cons_zero, Option.some.injEq] at h3
          exact ⟨r, by rw [h3]⟩
    obtain ⟨r, hr⟩ := hd
    refine ⟨(t.take 64).takeWhile P, r ++ t.drop 64, ?_, h1, by omega, ?_⟩
    · conv => lhs; rw [← List.take_append_drop 64 t, hsplit, hr]
      simp
    · intro c hc
      exact (hP' c).mp (List.all_eq_true.mp List.all_takeWhile c hc)
  · rintro ⟨loc, rest, rfl, h1, h2, h3⟩
    have htake : (loc ++ '@' :: rest).take 64 = loc ++ '@' :: rest.take (63 - loc.length) := by
      rw [List.take_append, List.take_of_length_le (by omega)]
      obtain ⟨n, hn⟩ : ∃ n, 64 - loc.length = n + 1 := ⟨63 - loc.length, by omega⟩
      rw [hn, List.take_succ_cons]
      congr 2
      congr 1
      omega
    have hw : (loc ++ '@' :: rest.take (63 - loc.length)).takeWhile P = loc := by
      refine takeWhile_stop (fun c hc => (hP' c).mpr (h3 c hc)) ?_
      intro d hd
      simp only [List.head?_cons, Option.some.injEq] at hd
      subst hd
      cases h : P '@' with
      | false => rfl
      | true => exact absurd ((hP' _).mp h) hat
    rw [htake, hw]
    exact ⟨⟨h1, by omega⟩, by simp⟩

/-! ### Pieces -/

/-- Pieces of a text: plain ones, and those which have rules of their own. -/
inductive Special
  | plain (p : Piece)
  | smiley (w : List Char)
  | url (w : List Char)
  | email (loc dom : List Char)
  | abbreviation (w : List Char)
  | contraction (w : List Char) (q : Char) (a : List Char)
  | joined (w : List Char) (q : Char) (a : List Char)
  | elision (w : List Char) (q : Char)
  | ending (w : List Char) (q : Char)
  | acronym (l : List Char)
  | quote (q : Char) (w : List Char)
  | quoted (q : Char) (w : List Char) (q' : Char)
  | archaism (q : Char) (a : List Char)
  | linked (ws : List (List Char))

/-- The characters of a piece. -/
def Special.text : Special → List Char
  | .plain p => p.text
  | .smiley w => w
  | .url w => w
  | .email loc dom => loc ++ '@' :: dom
  | .abbreviation w => w ++ ['.']
  | .contraction w q a => w ++ q :: a
  | .joined w q a => w ++ q :: a
  | .elision w q => w ++ [q]
  | .ending w q => w ++ [q]
  | .acronym l => l.flatMap fun c => [c, '.']
  | .quote q w => q :: w
  | .quoted q w q' => q :: w ++ [q']
  | .archaism q a => q :: a
  | .linked ws => List.intercalate ['-'] ws

/-- The tokens expected of a piece. -/
def Special.tokens : Special → List Token
  | .plain p => p.tokens
  | .smiley w => [(.smiley, w)]
  | .url w => [(.url, w)]
  | .email loc dom => [(.email, loc ++ '@' :: dom)]
  | .abbreviation w => [(.word, w ++ ['.'])]
  | .contraction w q a => [(.word, w), (.word, q :: a)]
  | .joined w q a => [(.word, w ++ q :: a)]
  | .elision w q => [(.word, w ++ [q])]
  | .ending w q => [(.word, w), (.punct, [q])]
  | .acronym l => [(.word, l.flatMap fun c => [c, '.'])]
  | .quote q w => [(.punct, [q]), (.word, w)]
  | .quoted q w q' => [(.punct, [q]), (.word, w), (.punct, [q'])]
  | .archaism q a => [(.word, q :: a)]
  | .linked ws =>
      match ws with
      | [w, a] => if a ∈ pronouns then [(.word, w), (.word, a)] else [(.word, w ++ '-' :: a)]
      | [w, ['t'], a] => [(.word, w), (.word, ['t']), (.word, a)]
      | ws => [(.word, List.intercalate ['-'] ws)]

/-- A word of letters. -/
def Letters (u : Unicode) (w : List Char) : Prop := w ≠ [] ∧ ∀ c ∈ w, u.isAlpha c = true

/-- What goes on after an apostrophe. -/
def GoesOn (u : Unicode) (c : Char) : Prop := u.isAlnum c = true ∨ Sigil c

/-- An apostrophe inside a single word: *don't*, *aujourd'hui*, *O'Hara*, or between consonants. -/
def Joined (u : Unicode) (w a : List Char) : Prop :=
  (w.getLast? = some 'n' ∧ a = ['t']) ∨ a = ['h', 'u', 'i'] ∨ w = ['O'] ∨ w = ['o'] ∨
  ∃ x y, w.getLast? = some x ∧ a.head? = some y ∧ u.consonant x = true ∧ u.consonant y = true ∧ y ≠ 'h' ∧ ¬ Sigil y

/-- What pieces are made of. -/
def Special.Ok (u : Unicode) : Special → Prop
  | .plain p => p.Ok u
  | .smiley w => ∃ c l, w = c :: l ∧ u.isSpace c = false ∧ ¬ Control c
  | .url w => UrlStart w ∧ ∀ c ∈ w, u.isSpace c = false ∧ c ≠ ','
  | .email loc dom => MailStart (loc ++ '@' :: dom) ∧ (∃ c l, loc = c :: l ∧ u.isAlpha c = true) ∧
      ∀ c ∈ loc ++ '@' :: dom, u.isSpace c = false ∧ c ≠ ','
  | .abbreviation w => Letters u w ∧ u.lower w ∈ abbreviations ∧ ∀ c, w.getLast? = some c → u.isUpper c = false
  | .contraction w q a => Letters u w ∧ Apostrophe q ∧ a ∈ contractions
  | .joined w q a => Letters u w ∧ Apostrophe q ∧ Letters u a ∧ a ∉ contractions ∧ Joined u w a
  | .elision w q => Letters u w ∧ Apostrophe q
  | .ending w q => Letters u w ∧ Apostrophe q
  | .acronym l => l ≠ [] ∧ ∀ c ∈ l, u.isAlpha c = true ∧ u.isUpper c = true
  | .quote q w => Letters u w ∧ Apostrophe q ∧ u.lower w ∉ archaisms
  | .quoted q w q' => Letters u w ∧ Apostrophe q ∧ Apostrophe q' ∧ u.lower w ∉ archaisms
  | .archaism q a => Letters u a ∧ Apostrophe q ∧ u.lower a ∈ archaisms
  | .linked ws => 2 ≤ ws.length ∧ ∀ w ∈ ws, Letters u w

/-- What may follow a piece. -/
def Special.Before (u : Unicode) (post : List Char) : Special → Prop
  | .plain p => p.Before u post
  | .smiley _ => True
  | .url _ => ∀ d, post.head? = some d → u.isSpace d = true ∨ d = ','
  | .email _ _ => ∀ d, post.head? = some d → u.isSpace d = true ∨ d = ','
  | .abbreviation _ => post ≠ []
  | .contraction _ _ _ => ∀ d, post.head? = some d → ¬ GoesOn u d
  | .joined _ _ _ => ∀ d, post.head? = some d → ¬ GoesOn u d
  | .elision w _ => ∃ a r rest, post = a :: r ++ rest ∧ (∀ c ∈ a :: r, GoesOn u c) ∧ (∀ d, rest.head? = some d → ¬ GoesOn u d) ∧
      (u.isDigit a = true ∨ (a :: r ∉ contractions ∧ ¬ Joined u w (a :: r)))
  | .ending _ _ => ∀ d, post.head? = some d → ¬ GoesOn u d
  | .acronym _ => ∀ d, post.head? = some d → u.isSpace d = true ∨ Sign u d
  | .quote _ w => ∀ d, post.head? = some d → Ends u w d ∧ (d = '.' → ∀ c, w.getLast? = some c → u.isUpper c = false)
  | .quoted _ _ _ => ∀ d, post.head? = some d → ¬ GoesOn u d
  | .archaism q a => ∀ d, post.head? = some d → Ends u (q :: a) d ∧ (d = '.' → ∀ c, a.getLast? = some c → u.isUpper c = false)
  | .linked ws => ∀ d, post.head? = some d → Ends u (List.intercalate ['-'] ws) d ∧
      (d = '.' → ∀ c, (List.intercalate ['-'] ws).getLast? = some c → u.isUpper c = false)

/-- No smiley begins here. -/
def NoSmiley (u : Unicode) (t : List Char) : Prop := u.smiley (t.take 64) = none

/-- No smiley and no address begins here. -/
def Quiet (u : Unicode) (t : List Char) : Prop := NoSmiley u t ∧ ¬ MailStart t ∧ ¬ UrlStart t

/-- No smiley and no address begins with a piece which is not one, given the text from there. -/
def Special.Clear (u : Unicode) (t : List Char) : Special → Prop
  | .plain (.space _) => True
  | .plain (.word _) => Quiet u t
  | .plain _ => NoSmiley u t
  | .smiley w => u.smiley (t.take 64) = some w.length
  | .url _ => NoSmiley u t
  | .email _ _ => NoSmiley u t
  | _ => Quiet u t

/-- The text of pieces. -/
def specialText (ps : List Special) : List Char := ps.flatMap Special.text

/-- Each piece is well made, and may be followed by the next ones. -/
def Spoken (u : Unicode) : List Special → Prop
  | [] => True
  | p :: ps => p.Ok u ∧ p.Before u (specialText ps) ∧ p.Clear u (p.text ++ specialText ps) ∧ Spoken u ps

/-- What is further assumed of the tables. -/
structure SpecialTables (u : Unicode) : Prop extends PlainTables u where
  ascii : ∀ c, AsciiLetter c → u.isAlpha c = true
  point_upper : u.isUpper '.' = false
  email : u.email = emailRe
  emojis : ∀ l, (∀ c ∈ l, Sign u c) → u.emojis l = []

variable {u : Unicode}

/-! ### Tools -/

theorem slice_ahead (pre t : List Char) : slice (pre ++ t) pre.length (pre.length + 64) = t.take 64 := by
  rw [slice, List.drop_take]
  simp

theorem quietAt (hu : SpecialTables u) {pre x post : List Char} (h : Quiet u (x ++ post)) : QuietAt u (pre ++ x ++ post) pre.length := by
  obtain ⟨h1, h2, h3⟩ := h
  have e : slice (pre ++ x ++ post) pre.length (pre.length + 64) = (x ++ post).take 64 := by
    rw [List.append_assoc, slice_ahead]
  refine ⟨by rw [e]; exact h1, ?_, ?_⟩
  · rw [e, hu.email]
    cases hm : emailRe ((x ++ post).take 64) with
    | false => rfl
    | true => exact absurd ((email_lookahead_iff _).mp hm) h2
  · rw [e]
    cases hm : startsAsUrl ((x ++ post).take 64) with
    | false => rfl
    | true => exact absurd ((startsAsUrl_iff _).mp hm) h3

theorem special_not (hu : PlainTables u) {c : Char} (h : c ∈ specials) : u.isAlnum c = false ∧ u.isSpace c = false := by
  constructor
  · cases ha : u.isAlnum c with
    | false => rfl
    | true => exact absurd h (hu.alnum_special c ha)
  · cases ha : u.isSpace c with
    | false => rfl
    | true => exact absurd h (hu.space_special c ha)

theorem apostrophe_iff (q : Char) : Apostrophe q ↔ q ∈ APOSTROPHES := by
  unfold Apostrophe APOSTROPHES
  simp

theorem apostrophe_facts (hu : PlainTables u) {q : Char} (h : Apostrophe q) :
    u.isAlnum q = false ∧ u.isSpace q = false ∧ isJunk q = false ∧ q ∈ APOSTROPHES ∧ q ≠ '#' ∧ q ≠ '$' ∧ q ≠ '@' ∧ q ≠ '-' ∧ q ≠ '_' ∧
      q ≠ '·' ∧ q ≠ '.' := by
  have hs : q ∈ specials := by
    rcases h with rfl | rfl <;> decide
  obtain ⟨h1, h2⟩ := special_not hu hs
  refine ⟨h1, h2, ?_⟩
  rcases h with rfl | rfl <;> decide

theorem goesOn_iff (c : Char) : (u.isAlnum c || SIGILS.contains c) = true ↔ GoesOn u c := by
  unfold GoesOn Sigil SIGILS
  simp

/-- A run of letters inside the loop of words. -/
theorem wordLoop_run (hu : PlainTables u) : ∀ (w rest : List Char) (j : Nat) (prev : Char) (acr : Bool), (∀ c ∈ w, u.isAlpha c = true) →
    wordLoop u false (w ++ rest) j prev acr = wordLoop u false rest (j + w.length) ((prev :: w).getLast (by simp)) acr := by
  intro w
  induction w with
  | nil => intro rest j prev acr _; rfl
  | cons c w ih =>
      intro rest j prev acr hw
      have hc := hw c (by simp)
      have ha := hu.alpha_alnum c hc
      have hs := hu.alnum_space c ha
      have hsp := hu.alnum_special c ha
      rw [List.cons_append, wordLoop.eq_def]
      simp only [Bool.false_eq_true, if_false]
      rw [if_neg (by simp [hs]), if_neg, if_neg (by simp [ha]), ih rest (j + 1) c acr (fun x hx => hw x (by simp [hx]))]
      · have hl : (prev :: c :: w).getLast (by simp) = (c :: w).getLast (by simp) := List.getLast_cons (by simp)
        rw [hl, show j + 1 + w.length = j + (c :: w).length by simp only [List.length_cons]; omega]
      · unfold specials at hsp
        unfold IDENTIFIER_PARTS
        grind

/-- A word of letters and hyphens which begins and ends with a letter. -/
def Hyphened (u : Unicode) (w : List Char) : Prop :=
  w ≠ [] ∧ (∀ c, w.head? = some c → u.isAlpha c = true) ∧ (∀ c, w.getLast? = some c → u.isAlpha c = true) ∧
  ∀ c ∈ w, u.isAlpha c = true ∨ c = '-'

theorem Letters.hyphened {w : List Char} (h : Letters u w) : Hyphened u w :=
  ⟨h.1, fun _ hc => h.2 _ (List.mem_of_head? hc), fun _ hc => h.2 _ (List.mem_of_getLast? hc), fun _ hc => .inl (h.2 _ hc)⟩

theorem wordLoop_hyphens (hu : PlainTables u) : ∀ (w rest : List Char) (j : Nat) (prev : Char) (acr : Bool),
    (∀ c ∈ w, u.isAlpha c = true ∨ c = '-') → (∀ c, w.getLast? = some c → u.isAlpha c = true) →
    wordLoop u false (w ++ rest) j prev acr = wordLoop u false rest (j + w.length) ((prev :: w).getLast (by simp)) acr := by
  intro w
  induction w with
  | nil => intro rest j prev acr _ _; rfl
  | cons c w ih =>
      intro rest j prev acr hw hlast
      have hl : (prev :: c :: w).getLast (by simp) = (c :: w).getLast (by simp) := List.getLast_cons (by simp)
      have hnext := ih rest (j + 1) c acr (fun x hx => hw x (by simp [hx])) (by
        intro d hd
        refine hlast d ?_
        rw [← hd]
        cases w with
        | nil => simp at hd
        | cons a w => simp)
      rw [hl, show j + (c :: w).length = j + 1 + w.length by simp only [List.length_cons]; omega, ← hnext]
      rw [List.cons_append, wordLoop.eq_def]
      simp only [Bool.false_eq_true, if_false]
      rcases hw c (by simp) with hc | rfl
      · have ha := hu.alpha_alnum c hc
        have hs := hu.alnum_space c ha
        have hsp := hu.alnum_special c ha
        rw [if_neg (by simp [hs]), if_neg, if_neg (by simp [ha])]
        unfold specials at hsp
        unfold IDENTIFIER_PARTS
        grind
      · rw [if_neg (by simp [(special_not (c := '-') hu (by decide)).2]), if_pos (.inl (by decide))]
        cases w with
        | nil =>
            have := hlast '-' rfl
            have h1 := (special_not (c := '-') hu (by decide)).1
            rw [hu.alpha_alnum _ this] at h1
            simp at h1
        | cons a w =>
            have : u.isSpace a = false := by
              rcases hw a (by simp) with h | rfl
              · exact hu.alnum_space a (hu.alpha_alnum a h)
              · exact (special_not (c := '-') hu (by decide)).2
            simp only [List.cons_append]
            rw [if_neg (by simp [this])]

/-- What stops the loop of words. -/
theorem wordLoop_stop {rest : List Char} {j : Nat} {prev : Char} {acr : Bool}
    (h : ∀ d, rest.head? = some d → u.isSpace d = true ∨
      (u.isAlnum d = false ∧ d ≠ '-' ∧ d ≠ '_' ∧ d ≠ '·' ∧ (d = '.' → u.isUpper prev = false))) :
    wordLoop u false rest j prev acr = (j, acr) := by
  cases rest with
  | nil => simp [wordLoop]
  | cons d rest =>
      rw [wordLoop.eq_def]
      simp only [Bool.false_eq_true, if_false]
      rcases h d rfl with h | ⟨h1, h2, h3, h4, h5⟩
      · rw [if_pos h]
      · by_cases hs : u.isSpace d = true
        · rw [if_pos hs]
        · rw [if_neg hs, if_neg (by unfold IDENTIFIER_PARTS; simp [h2, h3, h4]), if_pos (by simp [h1]), if_neg]
          rintro ⟨hd, hup⟩
          rw [h5 hd] at hup
          simp at hup

theorem getLast_prev {w : List Char} (hw : w ≠ []) (prev : Char) : (prev :: w).getLast? = w.getLast? := by
  cases w with
  | nil => exact absurd rfl hw
  | cons a w => simp

/-- A word of letters and hyphens is cut at what stops it. -/
theorem stepWord_hyphened (hu : PlainTables u) {pre w post : List Char} (hq : QuietAt u (pre ++ w ++ post) pre.length) (hw : Hyphened u w)
    (hpost : ∀ d, post.head? = some d → u.isSpace d = true ∨
      (u.isAlnum d = false ∧ d ≠ '-' ∧ d ≠ '_' ∧ d ≠ '·' ∧ (d = '.' → ∀ c, w.getLast? = some c → u.isUpper c = false)))
    {c : Char} (hc : w.head? = some c) :
    step u false (pre ++ w ++ post) pre.length c =
      finish u false (pre ++ w ++ post) .word w pre.length (pre.length + w.length) := by
  obtain ⟨hne, hfirst, hlast, hw⟩ := hw
  cases w with
  | nil => exact absurd rfl hne
  | cons c' w =>
      simp only [List.head?_cons, Option.some.injEq] at hc
      subst hc
      have hca := hfirst c' rfl
      have hal := hu.alpha_alnum c' hca
      have hcs := hu.alnum_special c' hal
      have hcs' := hcs
      unfold specials at hcs'
      simp only [List.mem_cons, List.not_mem_nil, or_false, not_or] at hcs'
      have hnum : number u (pre ++ c' :: w ++ post) pre.length c' = (pre.length + 1, false, .word) := by
        unfold number
        rw [if_neg]
        rintro (h | h)
        · rw [hu.alpha_digit c' hca] at h; simp at h
        · subst h; exact hcs (by decide)
      unfold step
      rw [if_neg (by simp [hu.alnum_space c' hal, hu.alnum_junk c' hal]), hq.smiley]
      simp only
      rw [if_neg (by simp [hcs'.1, hcs'.2.1]), if_neg hcs'.2.2.1, if_neg (by simp [hal])]
      unfold stepWord
      rw [hnum]
      simp only [hq.url, hq.email, Bool.false_eq_true, if_false, Bool.or_false]
      have hprev : ((pre ++ c' :: w ++ post)[pre.length + 1 - 1]?.getD c') = c' := by simp
      rw [hprev]
      have hdrop : (pre ++ c' :: w ++ post).drop (pre.length + 1) = w ++ post := by
        rw [List.append_assoc, List.drop_append]
        simp
      rw [hdrop, wordLoop_hyphens hu w post _ _ _ (fun x hx => hw x (by simp [hx])) (by
        intro d hd
        refine hlast d ?_
        rw [← hd]
        cases w with
        | nil => simp at hd
        | cons a w => simp), wordLoop_stop]
      · have e : pre.length + 1 + w.length = pre.length + (c' :: w).length := by simp only [List.length_cons]; omega
        rw [e]
        unfold emit
        rw [slice_mid]
        have hq' : c' ∉ APOSTROPHES := not_mem_sub hcs (by decide)
        simp only [hq', false_and, if_false, Bool.false_eq_true, List.nil_append]
        cases finish u false (pre ++ c' :: w ++ post) .word (c' :: w) pre.length (pre.length + (c' :: w).length) with
        | error e => rfl
        | ok x => rfl
      · intro d hd
        rcases hpost d hd with h | ⟨h1, h2, h3, h4, h5⟩
        · exact .inl h
        · refine .inr ⟨h1, h2, h3, h4, fun hdot => ?_⟩
          exact h5 hdot _ (List.getLast?_eq_getLast_of_ne_nil (by simp))

theorem stepWord_letters (hu : PlainTables u) {pre w post : List Char} (hq : QuietAt u (pre ++ w ++ post) pre.length) (hw : Letters u w)
    (hpost : ∀ d, post.head? = some d → u.isSpace d = true ∨
      (u.isAlnum d = false ∧ d ≠ '-' ∧ d ≠ '_' ∧ d ≠ '·' ∧ (d = '.' → ∀ c, w.getLast? = some c → u.isUpper c = false)))
    {c : Char} (hc : w.head? = some c) :
    step u false (pre ++ w ++ post) pre.length c =
      finish u false (pre ++ w ++ post) .word w pre.length (pre.length + w.length) :=
  stepWord_hyphened hu hq hw.hyphened hpost hc

/-- The rules of apostrophes. -/
theorem finish_apostrophe {pre w r rest : List Char} {q : Char} {kind : Kind} (hq : Apostrophe q)
    (hr : ∀ c ∈ r, GoesOn u c) (hrest : ∀ d, rest.head? = some d → ¬ GoesOn u d) :
    finish u false (pre ++ w ++ q :: (r ++ rest)) kind w pre.length (pre.length + w.length) =
      match r with
      | [] => .ok ([(kind, w), (.punct, [q])], pre.length + w.length + 1)
      | a :: as =>
          if u.isDigit a then .ok ([(kind, w ++ [q])], pre.length + w.length + 1)
          else if (a :: as) ∈ ENGLISH_CONTRACTIONS then .ok ([(kind, w), (kind, q :: a :: as)], pre.length + w.length + 1 + (a :: as).length)
          else if (w.getLast? = some 'n' ∧ a :: as = ['t']) ∨ a :: as = ['h', 'u', 'i'] ∨ '-' ∈ w then
            .ok ([(kind, w ++ q :: a :: as)], pre.length + w.length + 1 + (a :: as).length)
          else if (a ≠ 'h' ∧ w.getLast?.any u.consonant ∧ (u.consonant a ∧ a ∉ SIGILS)) ∨ w = ['O'] ∨ w = ['o'] then
            .ok ([(kind, w ++ q :: a :: as)], pre.length + w.length + 1 + (a :: as).length)
          else .ok ([(kind, w ++ [q])], pre.length + w.length + 1) := by
  have hq' := (apostrophe_iff q).mp hq
  have hget : (pre ++ w ++ q :: (r ++ rest))[pre.length + w.length]? = some q := by rw [getElem?_post]; rfl
  have hdrop : (pre ++ w ++ q :: (r ++ rest)).drop (pre.length + w.length + 1) = r ++ rest := by
    rw [show pre.length + w.length + 1 = (pre ++ w ++ [q]).length by simp only [List.length_append, List.length_singleton]]
    rw [show pre ++ w ++ q :: (r ++ rest) = (pre ++ w ++ [q]) ++ (r ++ rest) by simp, List.drop_left]
  have htake : ((r ++ rest).takeWhile fun n => u.isAlnum n || SIGILS.contains n) = r := by
    refine takeWhile_stop (fun c hc => (goesOn_iff c).mpr (hr c hc)) ?_
    intro d hd
    cases h : (u.isAlnum d || SIGILS.contains d) with
    | false => rfl
    | true => exact absurd ((goesOn_iff d).mp h) (hrest d hd)
  have hslice : slice (pre ++ w ++ q :: (r ++ rest)) (pre.length + w.length + 1) (pre.length + w.length + 1 + r.length) = r := by
    have := slice_mid (pre := pre ++ w ++ [q]) (w := r) (post := rest)
    rw [show (pre ++ w ++ [q]).length = pre.length + w.length + 1 by simp only [List.length_append, List.length_singleton]] at this
    rw [show pre ++ w ++ q :: (r ++ rest) = pre ++ w ++ [q] ++ r ++ rest by simp]
    exact this
  have hslice2 : slice (pre ++ w ++ q :: (r ++ rest)) pre.length (pre.length + w.length + 1 + r.length) = w ++ q :: r := by
    have := slice_mid (pre := pre) (w := w ++ q :: r) (post := rest)
    rw [show pre.length + w.length + 1 + r.length = pre.length + (w ++ q :: r).length by simp; omega]
    simpa using this
  unfold finish
  rw [hget]
  simp only [hq', if_true]
  rw [hdrop, htake, hslice, hslice2]
  cases r with
  | nil => rfl
  | cons a as =>
      simp only [List.append_assoc, List.singleton_append, pure, Except.pure]

theorem goesOn_apos (hu : PlainTables u) {w : List Char} {q : Char} (h : Apostrophe q) : u.isSpace q = true ∨
    (u.isAlnum q = false ∧ q ≠ '-' ∧ q ≠ '_' ∧ q ≠ '·' ∧ (q = '.' → ∀ c, w.getLast? = some c → u.isUpper c = false)) := by
  obtain ⟨h1, _, _, _, _, _, _, h2, h3, h4, h5⟩ := apostrophe_facts hu h
  exact .inr ⟨h1, h2, h3, h4, fun h => absurd h h5⟩

theorem contractions_eq : contractions = ENGLISH_CONTRACTIONS := rfl
theorem abbreviations_eq : abbreviations = ABBREVIATIONS := rfl
theorem archaisms_eq : archaisms = ENGLISH_ARCHAIC_CONTRACTIONS := rfl

theorem contraction_letters (hu : SpecialTables u) {a : List Char} (ha : a ∈ contractions) : Letters u a := by
  have key : ∀ a ∈ contractions, a ≠ [] ∧ ∀ c ∈ a, 'a' ≤ c ∧ c ≤ 'z' := by decide +kernel
  obtain ⟨h1, h2⟩ := key a ha
  exact ⟨h1, fun c hc => hu.ascii c (.inr (h2 c hc))⟩

theorem letters_goOn (hu : PlainTables u) {a : List Char} (ha : Letters u a) : ∀ c ∈ a, GoesOn u c :=
  fun c hc => .inl (hu.alpha_alnum c (ha.2 c hc))

theorem letters_no_hyphen (hu : PlainTables u) {a : List Char} (ha : Letters u a) : '-' ∉ a :=
  fun h => hu.alnum_special _ (hu.alpha_alnum _ (ha.2 _ h)) (by decide)

/-- The rule of consonants, as the code has it, for letters. -/
theorem joined_iff (hu : PlainTables u) {w as : List Char} {a : Char} (hw : Letters u w) :
    Joined u w (a :: as) ↔
      ((w.getLast? = some 'n' ∧ a :: as = ['t']) ∨ a :: as = ['h', 'u', 'i'] ∨ '-' ∈ w) ∨
      ((a ≠ 'h' ∧ w.getLast?.any u.consonant ∧ (u.consonant a ∧ a ∉ SIGILS)) ∨ w = ['O'] ∨ w = ['o']) := by
  have hhy := letters_no_hyphen hu hw
  have hsig : Sigil a ↔ a ∈ SIGILS := by unfold Sigil SIGILS; simp
  obtain ⟨x, hx⟩ : ∃ x, w.getLast? = some x := ⟨w.getLast hw.1, List.getLast?_eq_getLast_of_ne_nil hw.1⟩
  unfold Joined
  simp only [hx, hhy, or_false, Option.any_some, List.head?_cons, Option.some.injEq, exists_and_left, exists_eq_left', hsig]
  constructor
  · rintro (h | h | h | h | ⟨h1, h2, h3, h4⟩)
    · exact .inl (.inl h)
    · exact .inl (.inr h)
    · exact .inr (.inr (.inl h))
    · exact .inr (.inr (.inr h))
    · exact .inr (.inl ⟨h3, h1, h2, h4⟩)
  · rintro ((h | h) | ⟨h3, h1, h2, h4⟩ | h | h)
    · exact .inl h
    · exact .inr (.inl h)
    · exact .inr (.inr (.inr (.inr ⟨h1, h2, h3, h4⟩)))
    · exact .inr (.inr (.inl h))
    · exact .inr (.inr (.inr (.inl h)))

/-! ### Apostrophes -/

theorem step_apostrophe (hu : SpecialTables u) {pre w r rest : List Char} {q c : Char} (hw : Letters u w) (hq : Apostrophe q)
    (hquiet : Quiet u (w ++ q :: (r ++ rest))) (hc : w.head? = some c) :
    step u false (pre ++ w ++ q :: (r ++ rest)) pre.length c =
      finish u false (pre ++ w ++ q :: (r ++ rest)) .word w pre.length (pre.length + w.length) := by
  refine stepWord_letters hu.toPlainTables (quietAt hu hquiet) hw ?_ hc
  intro d hd
  simp only [List.head?_cons, Option.some.injEq] at hd
  subst hd
  exact goesOn_apos hu.toPlainTables hq

theorem head_text {w t : List Char} {c : Char} (hw : w ≠ []) (h : (w ++ t).head? = some c) : w.head? = some c := by
  cases w with
  | nil => exact absurd rfl hw
  | cons a w => exact h

theorem step_contraction (hu : SpecialTables u) {pre post w a : List Char} {q c : Char} (hok : (Special.contraction w q a).Ok u)
    (hb : (Special.contraction w q a).Before u post) (hquiet : Quiet u (w ++ q :: (a ++ post))) (hc : w.head? = some c) :
    step u false (pre ++ w ++ q :: (a ++ post)) pre.length c =
      .ok ([(.word, w), (.word, q :: a)], pre.length + w.length + 1 + a.length) := by
  obtain ⟨hw, hq, ha⟩ := hok
  have hal := contraction_letters hu ha
  rw [step_apostrophe hu hw hq hquiet hc, finish_apostrophe hq (letters_goOn hu.toPlainTables hal) hb]
  cases a with
  | nil => exact absurd rfl hal.1
  | cons x a =>
      simp only
      rw [if_neg (by simp [hu.alpha_digit x (hal.2 x (by simp))]), if_pos (contractions_eq ▸ ha)]

theorem step_joined (hu : SpecialTables u) {pre post w a : List Char} {q c : Char} (hok : (Special.joined w q a).Ok u)
    (hb : (Special.joined w q a).Before u post) (hquiet : Quiet u (w ++ q :: (a ++ post))) (hc : w.head? = some c) :
    step u false (pre ++ w ++ q :: (a ++ post)) pre.length c =
      .ok ([(.word, w ++ q :: a)], pre.length + w.length + 1 + a.length) := by
  obtain ⟨hw, hq, hal, hnot, hj⟩ := hok
  rw [step_apostrophe hu hw hq hquiet hc, finish_apostrophe hq (letters_goOn hu.toPlainTables hal) hb]
  cases a with
  | nil => exact absurd rfl hal.1
  | cons x a =>
      simp only
      rw [if_neg (by simp [hu.alpha_digit x (hal.2 x (by simp))]), if_neg (contractions_eq ▸ hnot)]
      rcases (joined_iff hu.toPlainTables hw).mp hj with h | h
      · rw [if_pos h]
      · by_cases h' : (w.getLast? = some 'n' ∧ x :: a = ['t']) ∨ x :: a = ['h', 'u', 'i'] ∨ '-' ∈ w
        · rw [if_pos h']
        · rw [if_neg h', if_pos h]

theorem step_elision (hu : SpecialTables u) {pre post w : List Char} {q c : Char} (hok : (Special.elision w q).Ok u)
    (hb : (Special.elision w q).Before u post) (hquiet : Quiet u (w ++ q :: post)) (hc : w.head? = some c) :
    step u false (pre ++ w ++ q :: post) pre.length c = .ok ([(.word, w ++ [q])], pre.length + w.length + 1) := by
  obtain ⟨hw, hq⟩ := hok
  obtain ⟨a, r, rest, rfl, hr, hrest, hcase⟩ := hb
  rw [step_apostrophe hu hw hq hquiet hc, finish_apostrophe hq hr hrest]
  simp only
  by_cases hd : u.isDigit a = true
  · rw [if_pos hd]
  · rcases hcase with h | ⟨h1, h2⟩
    · exact absurd h hd
    · rw [joined_iff hu.toPlainTables hw, not_or] at h2
      rw [if_neg hd, if_neg (contractions_eq ▸ h1), if_neg h2.1, if_neg h2.2]

theorem step_ending (hu : SpecialTables u) {pre post w : List Char} {q c : Char} (hok : (Special.ending w q).Ok u)
    (hb : (Special.ending w q).Before u post) (hquiet : Quiet u (w ++ q :: post)) (hc : w.head? = some c) :
    step u false (pre ++ w ++ q :: post) pre.length c = .ok ([(.word, w), (.punct, [q])], pre.length + w.length + 1) := by
  obtain ⟨hw, hq⟩ := hok
  have h1 := step_apostrophe (pre := pre) (r := []) (rest := post) hu hw hq hquiet hc
  have h2 := finish_apostrophe (u := u) (pre := pre) (w := w) (r := []) (rest := post) (kind := .word) hq (by simp) hb
  simp only [List.nil_append] at h1 h2
  rw [h1, h2]

/-! ### Abbreviations -/

theorem step_abbreviation (hu : SpecialTables u) {pre post w : List Char} {c : Char} (hok : (Special.abbreviation w).Ok u)
    (hb : (Special.abbreviation w).Before u post) (hquiet : Quiet u (w ++ '.' :: post)) (hc : w.head? = some c) :
    step u false (pre ++ w ++ '.' :: post) pre.length c = .ok ([(.word, w ++ ['.'])], pre.length + w.length + 1) := by
  obtain ⟨hw, hl, hup⟩ := hok
  have hpost : post ≠ [] := hb
  have hpt := special_not (c := '.') hu.toPlainTables (by decide)
  have hlt : pre.length + w.length < (pre ++ w ++ '.' :: post).length - 1 := by
    have := List.length_pos_iff.mpr hpost
    simp only [List.length_append, List.length_cons]
    omega
  rw [stepWord_letters hu.toPlainTables (quietAt hu hquiet) hw ?_ hc]
  · unfold finish
    rw [getElem?_post]
    simp only [List.head?_cons]
    rw [if_neg (by decide), if_pos ⟨hlt, trivial, by rw [← abbreviations_eq]; exact hl⟩]
    rfl
  · intro d hd
    simp only [List.head?_cons, Option.some.injEq] at hd
    subst hd
    exact .inr ⟨hpt.1, by decide, by decide, by decide, fun _ => hup⟩

/-! ### Addresses -/

theorem wordLoop_whole : ∀ (w post : List Char) (j : Nat) (prev : Char), (∀ c ∈ w, u.isSpace c = false ∧ c ≠ ',') →
    (∀ d, post.head? = some d → u.isSpace d = true ∨ d = ',') → wordLoop u true (w ++ post) j prev false = (j + w.length, false) := by
  intro w
  induction w with
  | nil =>
      intro post j prev _ hd
      cases post with
      | nil => simp [wordLoop]
      | cons d post =>
          rw [List.nil_append, wordLoop.eq_def]
          simp only [if_true, List.length_nil, Nat.add_zero]
          rcases hd d rfl with h | h
          · rw [if_pos h]
          · rw [if_pos h]; split <;> rfl
  | cons c w ih =>
      intro post j prev hw hd
      obtain ⟨h1, h2⟩ := hw c (by simp)
      rw [List.cons_append, wordLoop.eq_def]
      simp only [if_true]
      rw [if_neg (by simp [h1]), if_neg h2, ih post (j + 1) c (fun x hx => hw x (by simp [hx])) hd]
      simp only [List.length_cons, Prod.mk.injEq, and_true]
      omega

theorem comma_ends (hu : PlainTables u) {w : List Char} {d : Char} (h : u.isSpace d = true ∨ d = ',') : Ends u w d := by
  rcases h with h | rfl
  · exact .inl h
  · have := special_not (c := ',') hu (by decide)
    exact .inr ⟨⟨this.2, this.1, by decide, by decide⟩, fun h => absurd h (by decide)⟩

theorem mail_not_url {t : List Char} (h : MailStart t) : ¬ UrlStart t := by
  obtain ⟨loc, rest, rfl, h1, _, h3⟩ := h
  have hcolon : ¬ LocalChar ':' := by unfold LocalChar AsciiLetter; decide
  have key : ∀ p : List Char, ':' ∈ p → '@' ∉ p → ¬ p <+: loc ++ '@' :: rest := by
    intro p hp hat hpre
    rcases Nat.lt_or_ge loc.length p.length with hlt | hge
    · obtain ⟨t, ht⟩ := hpre
      refine hat (List.mem_of_getElem? (i := loc.length) ?_)
      have : (p ++ t)[loc.length]? = some '@' := by rw [ht]; simp
      rwa [List.getElem?_append_left hlt] at this
    · have := List.prefix_of_prefix_length_le hpre (List.prefix_append loc ('@' :: rest)) hge
      exact hcolon (h3 _ (this.subset hp))
  rintro (h | h)
  · exact key _ (by decide) (by decide) h
  · exact key _ (by decide) (by decide) h

/-- An address goes to the next space or comma. -/
theorem step_address (hu : SpecialTables u) {pre post w : List Char} {c : Char} {kind : Kind} (hc : w.head? = some c)
    (hca : u.isAlpha c = true) (hw : ∀ c ∈ w, u.isSpace c = false ∧ c ≠ ',')
    (hb : ∀ d, post.head? = some d → u.isSpace d = true ∨ d = ',') (hsm : NoSmiley u (w ++ post))
    (hkind : (UrlStart (w ++ post) ∧ kind = .url) ∨ (MailStart (w ++ post) ∧ kind = .email)) :
    step u false (pre ++ w ++ post) pre.length c = .ok ([(kind, w)], pre.length + w.length) := by
  cases w with
  | nil => simp at hc
  | cons c' w =>
      simp only [List.head?_cons, Option.some.injEq] at hc
      subst hc
      have hal := hu.alpha_alnum c' hca
      have hcs := hu.alnum_special c' hal
      have hcs' := hcs
      unfold specials at hcs'
      simp only [List.mem_cons, List.not_mem_nil, or_false, not_or] at hcs'
      have hnum : number u (pre ++ c' :: w ++ post) pre.length c' = (pre.length + 1, false, .word) := by
        unfold number
        rw [if_neg]
        rintro (h | h)
        · rw [hu.alpha_digit c' hca] at h; simp at h
        · subst h; exact hcs (by decide)
      have hahead : slice (pre ++ c' :: w ++ post) pre.length (pre.length + 64) = (c' :: w ++ post).take 64 := by
        rw [List.append_assoc, slice_ahead]
      unfold step
      rw [if_neg (by simp [hu.alnum_space c' hal, hu.alnum_junk c' hal]), hahead, hsm]
      simp only
      rw [if_neg (by simp [hcs'.1, hcs'.2.1]), if_neg hcs'.2.2.1, if_neg (by simp [hal])]
      unfold stepWord
      rw [hnum]
      simp only [Bool.false_eq_true, if_false]
      rw [hahead]
      have hk : (if startsAsUrl ((c' :: w ++ post).take 64) = true then Kind.url else
          if u.email ((c' :: w ++ post).take 64) = true then .email else .word) = kind := by
        rcases hkind with ⟨h, rfl⟩ | ⟨h, rfl⟩
        · rw [if_pos ((startsAsUrl_iff _).mpr h)]
        · rw [if_neg, if_pos]
          · rw [hu.email]; exact (email_lookahead_iff _).mpr h
          · rw [startsAsUrl_iff]; exact mail_not_url h
      have hwhole : (startsAsUrl ((c' :: w ++ post).take 64) || u.email ((c' :: w ++ post).take 64)) = true := by
        rw [Bool.or_eq_true, hu.email]
        rcases hkind with ⟨h, _⟩ | ⟨h, _⟩
        · exact .inl ((startsAsUrl_iff _).mpr h)
        · exact .inr ((email_lookahead_iff _).mpr h)
      rw [hk, hwhole]
      have hdrop : (pre ++ c' :: w ++ post).drop (pre.length + 1) = w ++ post := by
        rw [List.append_assoc, List.drop_append]
        simp
      rw [hdrop, wordLoop_whole w post _ _ (fun x hx => hw x (by simp [hx])) hb]
      have e : pre.length + 1 + w.length = pre.length + (c' :: w).length := by simp only [List.length_cons]; omega
      rw [e]
      refine emit_plain hu.toPlainTables (by simp) ?_ (fun d hd => comma_ends hu.toPlainTables (hb d hd)) ?_
      · intro x hx
        simp only [List.head?_cons, Option.some.injEq] at hx
        subst hx
        exact not_mem_sub hcs (by decide)
      · rintro rfl
        rcases hkind with ⟨_, h⟩ | ⟨_, h⟩ <;> cases h

/-! ### Acronyms -/

theorem wordLoop_acronym (hu : SpecialTables u) : ∀ (l post : List Char) (j : Nat) (prev : Char) (acr : Bool),
    (∀ c ∈ l, u.isAlpha c = true ∧ u.isUpper c = true) → u.isUpper prev = true →
    (∀ d, post.head? = some d → u.isSpace d = true ∨ Sign u d) →
    wordLoop u false ('.' :: (l.flatMap (fun c => [c, '.']) ++ post)) j prev acr = (j + 1 + (l.flatMap fun c => [c, '.']).length, true) := by
  intro l
  induction l with
  | nil =>
      intro post j prev acr _ hprev hpost
      have hpt := special_not (c := '.') hu.toPlainTables (by decide)
      rw [wordLoop.eq_def]
      simp only [Bool.false_eq_true, if_false]
      rw [if_neg (by simp [hpt.2]), if_neg (by decide), if_pos (by simp [hpt.1]), if_pos ⟨trivial, hprev⟩]
      simp only [List.flatMap_nil, List.nil_append, List.length_nil, Nat.add_zero]
      refine wordLoop_stop ?_
      intro d hd
      rcases hpost d hd with h | ⟨_, h2, _, h4⟩
      · exact .inl h
      · refine .inr ⟨h2, ?_, ?_, ?_, fun _ => hu.point_upper⟩ <;> · rintro rfl; exact h4 (by decide)
  | cons c l ih =>
      intro post j prev acr hl hprev hpost
      have hpt := special_not (c := '.') hu.toPlainTables (by decide)
      obtain ⟨hca, hcu⟩ := hl c (by simp)
      have hal := hu.alpha_alnum c hca
      have hsp := hu.alnum_special c hal
      rw [wordLoop.eq_def]
      simp only [Bool.false_eq_true, if_false]
      rw [if_neg (by simp [hpt.2]), if_neg (by decide), if_pos (by simp [hpt.1]), if_pos ⟨trivial, hprev⟩]
      rw [List.flatMap_cons, List.cons_append, List.cons_append, List.cons_append, List.cons_append, List.nil_append, wordLoop.eq_def]
      simp only [Bool.false_eq_true, if_false]
      rw [if_neg (by simp [hu.alnum_space c hal]), if_neg, if_neg (by simp [hal]),
        ih post (j + 1 + 1) c true (fun x hx => hl x (by simp [hx])) hcu hpost]
      · simp only [List.length_cons, Prod.mk.injEq, and_true]
        omega
      · unfold specials at hsp
        unfold IDENTIFIER_PARTS
        grind

theorem splitOn_acronym : ∀ l : List Char, '.' ∉ l →
    splitOn '.' [] (l.flatMap fun c => [c, '.']) = l.map (fun c => [c]) ++ [[]] := by
  intro l
  induction l with
  | nil => intro _; rfl
  | cons c l ih =>
      intro h
      simp only [List.mem_cons, not_or] at h
      rw [List.flatMap_cons, List.cons_append, List.cons_append, List.nil_append, splitOn, if_neg (Ne.symm h.1), splitOn, if_pos rfl, ih h.2]
      rfl

theorem step_acronym (hu : SpecialTables u) {pre post l : List Char} {c : Char} (hok : (Special.acronym l).Ok u)
    (hb : (Special.acronym l).Before u post) (hquiet : Quiet u ((l.flatMap fun c => [c, '.']) ++ post)) (hc : l.head? = some c) :
    step u false (pre ++ (l.flatMap fun c => [c, '.']) ++ post) pre.length c =
      .ok ([(.word, l.flatMap fun c => [c, '.'])], pre.length + (l.flatMap fun c => [c, '.']).length) := by
  obtain ⟨hne, hl⟩ := hok
  have hquiet := quietAt hu (pre := pre) hquiet
  cases l with
  | nil => exact absurd rfl hne
  | cons c' l =>
      simp only [List.head?_cons, Option.some.injEq] at hc
      subst hc
      obtain ⟨hca, hcu⟩ := hl c' (by simp)
      have hal := hu.alpha_alnum c' hca
      have hcs := hu.alnum_special c' hal
      have hcs' := hcs
      unfold specials at hcs'
      simp only [List.mem_cons, List.not_mem_nil, or_false, not_or] at hcs'
      have hnodot : '.' ∉ c' :: l := by
        intro h
        exact hu.alnum_special _ (hu.alpha_alnum _ (hl _ h).1) (by decide)
      have hsplit := splitOn_acronym _ hnodot
      rw [List.flatMap_cons, List.cons_append, List.cons_append, List.nil_append] at hquiet hsplit ⊢
      generalize hx : (l.flatMap fun c => [c, '.']) = x at *
      have hnum : number u (pre ++ c' :: '.' :: x ++ post) pre.length c' = (pre.length + 1, false, .word) := by
        unfold number
        rw [if_neg]
        rintro (h | h)
        · rw [hu.alpha_digit c' hca] at h; simp at h
        · subst h; exact hcs (by decide)
      unfold step
      rw [if_neg (by simp [hu.alnum_space c' hal, hu.alnum_junk c' hal]), hquiet.smiley]
      simp only
      rw [if_neg (by simp [hcs'.1, hcs'.2.1]), if_neg hcs'.2.2.1, if_neg (by simp [hal])]
      unfold stepWord
      rw [hnum]
      simp only [hquiet.url, hquiet.email, Bool.false_eq_true, if_false, Bool.or_false]
      have hprev : ((pre ++ c' :: '.' :: x ++ post)[pre.length + 1 - 1]?.getD c') = c' := by simp
      rw [hprev]
      have hdrop : (pre ++ c' :: '.' :: x ++ post).drop (pre.length + 1) = '.' :: (x ++ post) := by
        rw [List.append_assoc, List.drop_append]
        simp
      have hloop := wordLoop_acronym hu l post (pre.length + 1) c' false (fun y hy => hl y (by simp [hy])) hcu hb
      rw [hx] at hloop
      rw [hdrop, hloop]
      have e : pre.length + 1 + 1 + x.length = pre.length + (c' :: '.' :: x).length := by simp only [List.length_cons]; omega
      rw [e]
      unfold emit
      rw [slice_mid]
      have hq' : c' ∉ APOSTROPHES := not_mem_sub hcs (by decide)
      simp only [hq', false_and, if_false, if_true, List.nil_append]
      rw [hsplit, if_pos]
      · rfl
      · simp

/-! ### Quotes -/

theorem step_quote (hu : SpecialTables u) {pre post w : List Char} {q : Char} (hw : Letters u w) (hq : Apostrophe q)
    (hpost : ∀ d, post.head? = some d → u.isSpace d = true ∨
      (u.isAlnum d = false ∧ d ≠ '-' ∧ d ≠ '_' ∧ d ≠ '·' ∧ (d = '.' → ∀ c, w.getLast? = some c → u.isUpper c = false)))
    (hquiet : Quiet u (q :: w ++ post)) :
    step u false (pre ++ q :: w ++ post) pre.length q =
      emit u false (pre ++ q :: w ++ post) .word false pre.length (pre.length + (q :: w).length) := by
  have hquiet := quietAt hu (pre := pre) hquiet
  obtain ⟨h1, h2, h3, h4, h5, h6, h7, h8, _⟩ := apostrophe_facts hu.toPlainTables hq
  have hdrop : (pre ++ q :: w ++ post).drop (pre.length + 1) = w ++ post := by
    rw [List.append_assoc, List.drop_append]
    simp
  have hend : punctEnd u (pre ++ q :: w ++ post) pre.length = pre.length + 1 := by
    unfold punctEnd
    rw [hdrop]
    cases hw' : w with
    | nil => exact absurd hw' hw.1
    | cons a w' =>
        have := hu.alpha_alnum a (hw.2 a (by simp [hw']))
        simp [this]
  have hdig : u.isDigit q = false := by
    cases h : u.isDigit q with
    | false => rfl
    | true => rw [hu.digit_alnum q h] at h1; simp at h1
  have hnum : number u (pre ++ q :: w ++ post) pre.length q = (pre.length + 1, false, .word) := by
    unfold number
    rw [if_neg]
    rintro (h | h)
    · rw [hdig] at h; simp at h
    · exact h8 h
  unfold step
  rw [if_neg (by simp [h2, h3]), hquiet.smiley]
  simp only
  rw [if_neg (by simp [h5, h6]), if_neg h7, if_neg (by rw [hend]; simp [h4])]
  unfold stepWord
  rw [hnum]
  simp only [hquiet.url, hquiet.email, Bool.false_eq_true, if_false, Bool.or_false]
  rw [hdrop, wordLoop_run hu.toPlainTables w post _ _ _ hw.2, wordLoop_stop]
  · rw [show pre.length + 1 + w.length = pre.length + (q :: w).length by simp only [List.length_cons]; omega]
  · intro d hd
    rcases hpost d hd with h | ⟨g1, g2, g3, g4, g5⟩
    · exact .inl h
    · refine .inr ⟨g1, g2, g3, g4, fun hdot => g5 hdot _ ?_⟩
      rw [← getLast_prev hw.1 ((pre ++ q :: w ++ post)[pre.length + 1 - 1]?.getD q)]
      exact List.getLast?_eq_getLast_of_ne_nil (by simp)

theorem ends_stop (hu : PlainTables u) {w v : List Char} {d : Char} (h : Ends u w d ∧ (d = '.' → ∀ c, v.getLast? = some c → u.isUpper c = false)) :
    u.isSpace d = true ∨
      (u.isAlnum d = false ∧ d ≠ '-' ∧ d ≠ '_' ∧ d ≠ '·' ∧ (d = '.' → ∀ c, v.getLast? = some c → u.isUpper c = false)) := by
  obtain ⟨_, h2, h3⟩ := ends_facts hu h.1
  refine .inr ⟨h2, ?_, ?_, ?_, h.2⟩ <;> · rintro rfl; exact h3 (by decide)

/-! ### Hyphens -/

theorem splitOn_run {sep : Char} : ∀ (w cur rest : List Char), sep ∉ w → splitOn sep cur (w ++ rest) = splitOn sep (cur ++ w) rest := by
  intro w
  induction w with
  | nil => intro cur rest _; simp
  | cons c w ih =>
      intro cur rest h
      simp only [List.mem_cons, not_or] at h
      rw [List.cons_append, splitOn, if_neg (Ne.symm h.1), ih _ _ h.2]
      simp

theorem splitOn_intercalate {sep : Char} : ∀ (ws : List (List Char)), ws ≠ [] → (∀ w ∈ ws, sep ∉ w) →
    splitOn sep [] (List.intercalate [sep] ws) = ws := by
  intro ws
  induction ws with
  | nil => intro h; exact absurd rfl h
  | cons w ws ih =>
      intro _ h
      cases ws with
      | nil =>
          have := splitOn_run (sep := sep) w [] [] (h w (by simp))
          simp only [List.append_nil, List.nil_append, splitOn] at this
          simpa using this
      | cons w' ws =>
          rw [List.intercalate_cons_cons, List.append_assoc, splitOn_run w [] _ (h w (by simp)), List.singleton_append, splitOn, if_pos rfl,
            ih (by simp) (fun x hx => h x (by simp [hx])), List.nil_append]

theorem count_intercalate {sep : Char} : ∀ (ws : List (List Char)), (∀ w ∈ ws, sep ∉ w) →
    (List.intercalate [sep] ws).count sep = ws.length - 1 := by
  intro ws
  induction ws with
  | nil => intro _; rfl
  | cons w ws ih =>
      intro h
      have hw : w.count sep = 0 := List.count_eq_zero.mpr (h w (by simp))
      cases ws with
      | nil => simpa using hw
      | cons w' ws =>
          rw [List.intercalate_cons_cons, List.count_append, List.count_append, hw, ih (fun x hx => h x (by simp [hx]))]
          simp [Nat.add_comm]

theorem hasUnion_three {a b c : List Char} (h : ∀ w ∈ [a, b, c], '-' ∉ w) :
    hasUnion (List.intercalate ['-'] [a, b, c]) = true ↔ b = ['t'] := by
  unfold hasUnion
  rw [decide_eq_true_eq]
  constructor
  · rintro ⟨x, y, hxy⟩
    have hcount := count_intercalate _ h
    rw [← hxy, List.count_append, List.count_append, show "-t-".toList.count '-' = 2 by decide] at hcount
    simp only [List.length_cons, List.length_nil] at hcount
    have hx : '-' ∉ x := List.count_eq_zero.mp (by omega)
    have hy : '-' ∉ y := List.count_eq_zero.mp (by omega)
    have h1 := splitOn_intercalate [a, b, c] (by simp) h
    have h2 := splitOn_intercalate [x, ['t'], y] (by simp) (by
      intro w hw
      simp only [List.mem_cons, List.not_mem_nil, or_false] at hw
      rcases hw with rfl | rfl | rfl
      · exact hx
      · decide
      · exact hy)
    have : List.intercalate ['-'] [x, ['t'], y] = List.intercalate ['-'] [a, b, c] := by
      rw [← hxy]
      simp [List.intercalate_cons_cons]
    rw [this, h1] at h2
    simp only [List.cons.injEq] at h2
    exact h2.2.1
  · rintro rfl
    exact ⟨a, c, by simp [List.intercalate_cons_cons]⟩

theorem hyphened_intercalate (hu : PlainTables u) : ∀ ws : List (List Char), ws ≠ [] → (∀ w ∈ ws, Letters u w) →
    Hyphened u (List.intercalate ['-'] ws) := by
  intro ws
  induction ws with
  | nil => intro h; exact absurd rfl h
  | cons w ws ih =>
      intro _ h
      have hw := h w (by simp)
      cases ws with
      | nil => simpa using hw.hyphened
      | cons w' ws =>
          obtain ⟨g1, g2, g3, g4⟩ := ih (by simp) (fun x hx => h x (by simp [hx]))
          rw [List.intercalate_cons_cons]
          refine ⟨by simp [hw.1], ?_, ?_, ?_⟩
          · intro c hc
            refine hw.2 c (List.mem_of_head? ?_)
            cases w with
            | nil => exact absurd rfl hw.1
            | cons a w => exact hc
          · intro c hc
            rw [List.getLast?_append_of_ne_nil _ g1] at hc
            exact g3 c hc
          · intro c hc
            simp only [List.mem_append, List.mem_singleton] at hc
            rcases hc with (hc | hc) | hc
            · exact .inl (hw.2 c hc)
            · exact .inr hc
            · exact g4 c hc

theorem pronouns_eq : pronouns = FRENCH_UNION_TARGETS := rfl

theorem regular_linked (hu : PlainTables u) {ws : List (List Char)} (hok : (Special.linked ws).Ok u) :
    regular u false .word (List.intercalate ['-'] ws) = .ok (Special.linked ws).tokens := by
  obtain ⟨hlen, hws⟩ := hok
  have hno : ∀ w ∈ ws, '-' ∉ w := fun w hw => letters_no_hyphen hu (hws w hw)
  have hne : ws ≠ [] := by rintro rfl; simp at hlen
  unfold regular
  rw [if_pos rfl]
  simp only [count_intercalate ws hno, splitOn_intercalate ws hne hno]
  match ws, hlen, hno with
  | [w, a], _, _ =>
      simp only [List.length_cons, List.length_nil, Special.tokens]
      rw [if_neg (by simp), if_pos trivial, pronouns_eq]
      split <;> simp [pure, Except.pure, List.intercalate_cons_cons]
  | [w, b, a], _, hno =>
      simp only [List.length_cons, List.length_nil, hasUnion_three hno]
      by_cases hb : b = ['t']
      · subst hb
        rfl
      · rw [if_neg (by simp [hb]), if_neg (by simp)]
        simp only [Special.tokens]
        split
        · next h => cases h
        · next h => simp only [List.cons.injEq] at h; exact absurd h.2.1 hb
        · rfl
  | w :: b :: a :: d :: ws, _, _ =>
      rw [if_neg (by simp), if_neg (by simp)]
      rfl

theorem step_linked (hu : SpecialTables u) {pre post : List Char} {ws : List (List Char)} {c : Char} (hok : (Special.linked ws).Ok u)
    (hb : (Special.linked ws).Before u post) (hquiet : Quiet u (List.intercalate ['-'] ws ++ post))
    (hc : (List.intercalate ['-'] ws).head? = some c) :
    step u false (pre ++ List.intercalate ['-'] ws ++ post) pre.length c =
      .ok ((Special.linked ws).tokens, pre.length + (List.intercalate ['-'] ws).length) := by
  have hne : ws ≠ [] := by rintro rfl; exact absurd hok.1 (by simp)
  have hreg := regular_linked hu.toPlainTables hok
  have hb' : ∀ d, post.head? = some d → Ends u (List.intercalate ['-'] ws) d ∧
      (d = '.' → ∀ c, (List.intercalate ['-'] ws).getLast? = some c → u.isUpper c = false) := hb
  rw [stepWord_hyphened hu.toPlainTables (quietAt hu hquiet) (hyphened_intercalate hu.toPlainTables ws hne hok.2)
    (fun d hd => ends_stop hu.toPlainTables (hb' d hd)) hc]
  unfold finish
  rw [getElem?_post]
  cases hp : post.head? with
  | none => simp only [hreg, bind, Except.bind, pure, Except.pure]
  | some d =>
      have hd := (hb' d hp).1
      simp only
      rw [if_neg (ends_facts hu.toPlainTables hd).1, if_neg]
      · simp only [hreg, bind, Except.bind, pure, Except.pure]
      · rintro ⟨_, rfl, h⟩
        rcases hd with hd | hd
        · exact absurd (by decide) (hu.space_special _ hd)
        · exact hd.2 rfl h

/-- One turn of the loop at the beginning of a piece gives its tokens and goes to its end. -/
theorem step_special (hu : SpecialTables u) {pre post : List Char} {p : Special} (hok : p.Ok u) (hb : p.Before u post)
    (hclear : p.Clear u (p.text ++ post)) {c : Char} (hc : p.text.head? = some c) :
    step u false (pre ++ p.text ++ post) pre.length c = .ok (p.tokens, pre.length + p.text.length) := by
  have hahead : slice (pre ++ p.text ++ post) pre.length (pre.length + 64) = (p.text ++ post).take 64 := by
    rw [List.append_assoc, slice_ahead]
  cases p with
  | plain p =>
      refine step_plain hu.toPlainTables hu.emojis ?_ ?_ hok hb hc
      · intro hne
        change u.smiley (slice (pre ++ (Special.plain p).text ++ post) pre.length (pre.length + 64)) = none
        rw [hahead]
        cases p with
        | space x => exact absurd rfl (hne x)
        | word w => exact hclear.1
        | signs l => exact hclear
        | number w => exact hclear
        | hashtag w => exact hclear
        | mention w => exact hclear
      · rintro w rfl
        exact quietAt hu hclear
  | smiley w =>
      obtain ⟨x, l, rfl, h1, h2⟩ := hok
      simp only [Special.text, List.head?_cons, Option.some.injEq] at hc
      subst hc
      unfold step
      rw [if_neg (by simp [h1, not_junk h2]), hahead]
      have hm : u.smiley ((x :: l ++ post).take 64) = some (x :: l).length := hclear
      simp only [Special.text, Special.tokens]
      rw [hm]
      simp only
      rw [slice_mid]
      rfl
  | url w =>
      obtain ⟨h1, h2⟩ := hok
      have hh : w.head? = some 'h' := by
        rcases h1 with ⟨t, rfl⟩ | ⟨t, rfl⟩ <;> rfl
      have hc' : w.head? = some c := hc
      obtain rfl : 'h' = c := by rw [hh] at hc'; exact Option.some.inj hc'
      refine step_address hu hh (hu.ascii _ (.inr (by decide))) h2 hb hclear (.inl ⟨?_, rfl⟩)
      rcases h1 with h | h
      · exact .inl (h.trans (List.prefix_append _ _))
      · exact .inr (h.trans (List.prefix_append _ _))
  | email loc dom =>
      obtain ⟨h1, ⟨x, l, rfl, hx⟩, h2⟩ := hok
      have hc' : c = x := by simpa [Special.text, eq_comm] using hc
      subst hc'
      refine step_address hu hc hx h2 hb hclear (.inr ⟨?_, rfl⟩)
      obtain ⟨loc', rest, he, h3, h4, h5⟩ := h1
      exact ⟨loc', rest ++ post, by rw [Special.text, he]; simp, h3, h4, h5⟩
  | abbreviation w =>
      have hw := hok.1.1
      have hc := head_text hw hc
      simp only [Special.text, Special.tokens] at hclear ⊢
      rw [List.append_assoc] at hclear
      have := step_abbreviation (pre := pre) hu hok hb hclear hc
      rw [show pre ++ (w ++ ['.']) ++ post = pre ++ w ++ '.' :: post by simp, this]
      simp [Nat.add_assoc]
  | contraction w q a =>
      have hc := head_text hok.1.1 hc
      simp only [Special.text, Special.tokens] at hclear ⊢
      rw [List.append_assoc, List.cons_append] at hclear
      have := step_contraction (pre := pre) hu hok hb hclear hc
      rw [show pre ++ (w ++ q :: a) ++ post = pre ++ w ++ q :: (a ++ post) by simp, this]
      simp only [List.length_append, List.length_cons]
      congr 2
      omega
  | joined w q a =>
      have hc := head_text hok.1.1 hc
      simp only [Special.text, Special.tokens] at hclear ⊢
      rw [List.append_assoc, List.cons_append] at hclear
      have := step_joined (pre := pre) hu hok hb hclear hc
      rw [show pre ++ (w ++ q :: a) ++ post = pre ++ w ++ q :: (a ++ post) by simp, this]
      simp only [List.length_append, List.length_cons]
      congr 2
      omega
  | elision w q =>
      have hc := head_text hok.1.1 hc
      simp only [Special.text, Special.tokens] at hclear ⊢
      rw [List.append_assoc, List.cons_append, List.nil_append] at hclear
      have := step_elision (pre := pre) hu hok hb hclear hc
      rw [show pre ++ (w ++ [q]) ++ post = pre ++ w ++ q :: post by simp, this]
      simp [Nat.add_assoc]
  | ending w q =>
      have hc := head_text hok.1.1 hc
      simp only [Special.text, Special.tokens] at hclear ⊢
      rw [List.append_assoc, List.cons_append, List.nil_append] at hclear
      have := step_ending (pre := pre) hu hok hb hclear hc
      rw [show pre ++ (w ++ [q]) ++ post = pre ++ w ++ q :: post by simp, this]
      simp [Nat.add_assoc]
  | acronym l =>
      refine step_acronym hu hok hb hclear ?_
      cases l with
      | nil => exact absurd rfl hok.1
      | cons x l => exact hc
  | quote q w =>
      obtain ⟨hw, hq, hl⟩ := hok
      obtain rfl : q = c := Option.some.inj hc
      have hb' : ∀ d, post.head? = some d → Ends u w d ∧ (d = '.' → ∀ c, w.getLast? = some c → u.isUpper c = false) := hb
      have := step_quote (pre := pre) hu hw hq (fun d hd => ends_stop hu.toPlainTables (hb' d hd)) hclear
      simp only [Special.text, Special.tokens]
      rw [this]
      unfold emit
      rw [slice_mid]
      have hq' := (apostrophe_iff q).mp hq
      have hl' : u.lower w ∉ ENGLISH_ARCHAIC_CONTRACTIONS := archaisms_eq ▸ hl
      have hlen : pre.length + 1 ≠ pre.length + (q :: w).length := by
        have := List.length_pos_iff.mpr hw.1
        simp only [List.length_cons]
        omega
      simp only [hq', hl', not_false_eq_true, and_self, if_true, true_and, hlen, if_false, Bool.false_eq_true]
      have hf := finish_plain (pre := pre ++ [q]) (w := w) (post := post) (kind := .word) hu.toPlainTables (fun d hd => (hb' d hd).1)
        (fun _ => letters_no_hyphen hu.toPlainTables hw)
      rw [show pre ++ [q] ++ w ++ post = pre ++ q :: w ++ post by simp, show (pre ++ [q]).length = pre.length + 1 by simp] at hf
      rw [show pre.length + (q :: w).length = pre.length + 1 + w.length by simp only [List.length_cons]; omega, hf]
      rfl
  | quoted q w q' =>
      obtain ⟨hw, hq, hq', hl⟩ := hok
      obtain rfl : q = c := Option.some.inj hc
      simp only [Special.text, Special.tokens] at hclear ⊢
      rw [show q :: w ++ [q'] ++ post = q :: w ++ q' :: post by simp] at hclear
      have := step_quote (pre := pre) (post := q' :: post) hu hw hq (by
        intro d hd
        simp only [List.head?_cons, Option.some.injEq] at hd
        subst hd
        exact goesOn_apos hu.toPlainTables hq') hclear
      rw [show pre ++ (q :: w ++ [q']) ++ post = pre ++ q :: w ++ q' :: post by simp, this]
      unfold emit
      rw [slice_mid]
      have hq'' := (apostrophe_iff q).mp hq
      have hl' : u.lower w ∉ ENGLISH_ARCHAIC_CONTRACTIONS := archaisms_eq ▸ hl
      have hlen : pre.length + 1 ≠ pre.length + (q :: w).length := by
        have := List.length_pos_iff.mpr hw.1
        simp only [List.length_cons]
        omega
      simp only [hq'', hl', not_false_eq_true, and_self, if_true, true_and, hlen, if_false, Bool.false_eq_true]
      have hf := finish_apostrophe (u := u) (pre := pre ++ [q]) (w := w) (r := []) (rest := post) (kind := .word) hq' (by simp) hb
      rw [List.nil_append, show pre ++ [q] ++ w ++ q' :: post = pre ++ q :: w ++ q' :: post by simp,
        show (pre ++ [q]).length = pre.length + 1 by simp] at hf
      rw [show pre.length + (q :: w).length = pre.length + 1 + w.length by simp only [List.length_cons]; omega, hf]
      simp only [bind, Except.bind, pure, Except.pure, List.length_append, List.length_cons, List.length_nil]
      congr 2
      omega
  | archaism q a =>
      obtain ⟨hw, hq, hl⟩ := hok
      obtain rfl : q = c := Option.some.inj hc
      have hb' : ∀ d, post.head? = some d → Ends u (q :: a) d ∧ (d = '.' → ∀ c, a.getLast? = some c → u.isUpper c = false) := hb
      have := step_quote (pre := pre) hu hw hq (fun d hd => ends_stop hu.toPlainTables (hb' d hd)) hclear
      simp only [Special.text, Special.tokens]
      rw [this]
      unfold emit
      rw [slice_mid]
      have hl' : u.lower a ∈ ENGLISH_ARCHAIC_CONTRACTIONS := archaisms_eq ▸ hl
      simp only [hl', not_true_eq_false, and_false, false_and, if_false, Bool.false_eq_true, List.nil_append]
      have hf := finish_plain (pre := pre) (w := q :: a) (post := post) (kind := .word) hu.toPlainTables (fun d hd => (hb' d hd).1)
        (fun _ h => by
          rcases List.mem_cons.mp h with h | h
          · exact (apostrophe_facts hu.toPlainTables hq).2.2.2.2.2.2.2.1 h.symm
          · exact letters_no_hyphen hu.toPlainTables hw h)
      rw [hf]
      rfl
  | linked ws => exact step_linked hu hok hb hclear hc

theorem special_ne_nil {p : Special} (h : p.Ok u) : p.text ≠ [] := by
  cases p with
  | plain p => exact text_ne_nil h
  | smiley w => obtain ⟨c, l, rfl, _⟩ := h; simp [Special.text]
  | url w =>
      rintro rfl
      rcases h.1 with h | h <;> exact absurd (List.prefix_nil.mp h) (by decide)
  | acronym l =>
      cases l with
      | nil => exact absurd rfl h.1
      | cons c l => simp [Special.text]
  | linked ws =>
      obtain ⟨h1, h2⟩ := h
      match ws, h1 with
      | a :: b :: ws, _ =>
          simp only [Special.text]
          rw [List.intercalate_cons_cons]
          simp
  | _ => simp [Special.text]

theorem run_special (hu : SpecialTables u) : ∀ (ps : List Special) (pre : List Char) (fuel : Nat), Spoken u ps →
    (specialText ps).length ≤ fuel → run u false (pre ++ specialText ps) fuel pre.length = .ok (ps.flatMap Special.tokens) := by
  intro ps
  induction ps with
  | nil =>
      intro pre fuel _ _
      cases fuel with
      | zero => rfl
      | succ fuel =>
          rw [run]
          simp [specialText, pure, Except.pure]
  | cons p ps ih =>
      intro pre fuel hp hf
      obtain ⟨hok, hb, hclear, hp⟩ := hp
      have hne := special_ne_nil hok
      have htext : specialText (p :: ps) = p.text ++ specialText ps := rfl
      rw [htext, List.length_append] at hf
      rw [htext, ← List.append_assoc]
      have hpos : 0 < p.text.length := List.length_pos_iff.mpr hne
      obtain ⟨c, hc⟩ : ∃ c, p.text.head? = some c := by
        cases h : p.text with
        | nil => exact absurd h hne
        | cons c l => exact ⟨c, rfl⟩
      cases fuel with
      | zero => omega
      | succ fuel =>
          have hget : (pre ++ p.text ++ specialText ps)[pre.length]? = some c := by
            rw [List.append_assoc, List.getElem?_append_right (Nat.le_refl _), Nat.sub_self, List.getElem?_append_left hpos,
              ← List.head?_eq_getElem?, hc]
          have hst := step_special (pre := pre) hu hok hb hclear hc
          have := ih (pre ++ p.text) fuel hp (by omega)
          rw [List.length_append] at this
          rw [run, hget]
          simp only [hst, this, bind, Except.bind, pure, Except.pure, List.flatMap_cons]

/-- **C92**: the tokens of a text made of plain pieces, smileys, addresses, abbreviations, contractions, elisions, acronyms and quoted
words are those of its pieces, in order. -/
theorem words_special_text (hu : SpecialTables u) {ps : List Special} (hp : Spoken u ps) :
    tokenizeRaw u false (specialText ps) = .ok (ps.flatMap Special.tokens) :=
  run_special hu ps [] (specialText ps).length hp (Nat.le_refl _)

/-- The tables of ASCII meet the hypotheses. -/
theorem asciiTable_special : SpecialTables asciiTable where
  toPlainTables := asciiTable_plain
  ascii := by
    intro c h
    change c.isAlpha = true
    simp only [Char.isAlpha, Char.isUpper, Char.isLower, Bool.or_eq_true, decide_eq_true_eq, Bool.and_eq_true]
    rcases h with h | h
    · exact .inl h
    · exact .inr h
  point_upper := rfl
  email := rfl
  emojis := fun _ _ => rfl

theorem quiet_of {t : List Char} (h1 : smileyRe (t.take 64) = none) (h2 : emailRe (t.take 64) = false)
    (h3 : startsAsUrl (t.take 64) = false) : Quiet asciiTable t :=
  ⟨h1, (fun h => by rw [(email_lookahead_iff t).mpr h] at h2; simp at h2), (fun h => by rw [(startsAsUrl_iff t).mpr h] at h3; simp at h3)⟩

example : specialText [.joined "O".toList '\'' "Hara".toList, .plain (.space ' '), .contraction "they".toList '\'' "ll".toList,
    .plain (.space ' '), .elision "l".toList '’', .plain (.word "ami".toList), .plain (.space ' '), .acronym "US".toList,
    .plain (.space ' '), .abbreviation "Mr".toList, .plain (.space ' '), .email "bob".toList "x.net".toList, .plain (.signs [',']),
    .plain (.space ' '), .url "https://x.net/?q=1".toList] =
    "O'Hara they'll l’ami U.S. Mr. bob@x.net, https://x.net/?q=1".toList := by decide +kernel

example : tokenizeRaw asciiTable false "they'll see U.S. Mr. O'Hara bob@x.net, https://x.net/?q=1".toList =
    .ok [(.word, "they".toList), (.word, "'ll".toList), (.word, "see".toList), (.word, "U.S.".toList), (.word, "Mr.".toList),
      (.word, "O'Hara".toList), (.email, "bob@x.net".toList), (.punct, [',']), (.url, "https://x.net/?q=1".toList)] := by
  have space : ∀ d, (' ' :: d : List Char).head? = some ' ' := fun _ => rfl
  have h := words_special_text asciiTable_special (ps := [.contraction "they".toList '\'' "ll".toList, .plain (.space ' '),
    .plain (.word "see".toList), .plain (.space ' '), .acronym "US".toList, .plain (.space ' '), .abbreviation "Mr".toList,
    .plain (.space ' '), .joined "O".toList '\'' "Hara".toList, .plain (.space ' '), .email "bob".toList "x.net".toList,
    .plain (.signs [',']), .plain (.space ' '), .url "https://x.net/?q=1".toList]) ?_
  · exact h
  · refine ⟨⟨⟨by simp, by decide⟩, .inl rfl, by decide⟩, ?_, quiet_of (by decide +kernel) (by decide +kernel) (by decide +kernel),
      .inl rfl, trivial, trivial, ⟨by simp, by decide⟩, ?_, quiet_of (by decide +kernel) (by decide +kernel) (by decide +kernel),
      .inl rfl, trivial, trivial, ⟨by simp, by decide⟩, ?_, quiet_of (by decide +kernel) (by decide +kernel) (by decide +kernel),
      .inl rfl, trivial, trivial, ⟨⟨by simp, by decide⟩, by decide, ?_⟩, by simp [Special.Before, specialText, Special.text, Piece.text],
        quiet_of (by decide +kernel) (by decide +kernel) (by decide +kernel),
      .inl rfl, trivial, trivial, ⟨⟨by simp, by decide⟩, .inl rfl, ⟨by simp, by decide⟩, by decide, .inr (.inr (.inl rfl))⟩, ?_,
        quiet_of (by decide +kernel) (by decide +kernel) (by decide +kernel),
      .inl rfl, trivial, trivial, ⟨⟨"bob".toList, "x.net".toList, rfl, by decide, by decide, ?_⟩, ⟨'b', ['o', 'b'], rfl, rfl⟩, by decide⟩, ?_,
        (by unfold Special.Clear NoSmiley; decide +kernel),
      ⟨by simp, ?_⟩, ?_, (by unfold Special.Clear NoSmiley; decide +kernel), .inl rfl, trivial, trivial, ⟨.inr ⟨"x.net/?q=1".toList, rfl⟩, by decide⟩, ?_,
      (by unfold Special.Clear NoSmiley; decide +kernel), trivial⟩
    · intro d hd
      obtain rfl : ' ' = d := Option.some.inj hd
      unfold GoesOn Sigil; decide
    · intro d hd
      obtain rfl : ' ' = d := Option.some.inj hd
      exact ⟨.inl rfl, by decide⟩
    · intro d hd
      obtain rfl : ' ' = d := Option.some.inj hd
      exact .inl rfl
    · intro d hd
      obtain rfl : 'r' = d := Option.some.inj hd
      rfl
    · intro d hd
      obtain rfl : ' ' = d := Option.some.inj hd
      unfold GoesOn Sigil; decide
    · unfold LocalChar AsciiLetter; decide
    · intro d hd
      obtain rfl : ',' = d := Option.some.inj hd
      exact .inr rfl
    · intro c hc
      obtain rfl := List.mem_singleton.mp hc
      unfold Sign; decide
    · intro d hd
      obtain rfl : ' ' = d := Option.some.inj hd
      decide
    · intro d hd
      cases hd

example : tokenizeRaw asciiTable false "donne-moi rendez-vous, va-t-il".toList =
    .ok [(.word, "donne".toList), (.word, "moi".toList), (.word, "rendez".toList), (.word, "vous".toList), (.punct, [',']),
      (.word, "va".toList), (.word, "t".toList), (.word, "il".toList)] := by
  have h := words_special_text asciiTable_special (ps := [.linked ["donne".toList, "moi".toList], .plain (.space ' '),
    .linked ["rendez".toList, "vous".toList], .plain (.signs [',']), .plain (.space ' '),
    .linked ["va".toList, "t".toList, "il".toList]]) ?_
  · exact h
  · have hl : ∀ {w : List Char}, w ≠ [] → (w.all Char.isAlpha) = true → Letters asciiTable w :=
      fun h1 h2 => ⟨h1, List.all_eq_true.mp h2⟩
    refine ⟨⟨by simp, ?_⟩, ?_, quiet_of (by decide +kernel) (by decide +kernel) (by decide +kernel), .inl rfl, trivial, trivial,
      ⟨by simp, ?_⟩, ?_, quiet_of (by decide +kernel) (by decide +kernel) (by decide +kernel), ⟨by simp, ?_⟩, ?_,
      (by unfold Special.Clear NoSmiley; decide +kernel), .inl rfl, trivial, trivial, ⟨by simp, ?_⟩, ?_,
      quiet_of (by decide +kernel) (by decide +kernel) (by decide +kernel), trivial⟩
    · intro w hw
      simp only [List.mem_cons, List.not_mem_nil, or_false] at hw
      rcases hw with rfl | rfl <;> exact hl (by decide) (by decide)
    · intro d hd
      obtain rfl : ' ' = d := Option.some.inj hd
      exact ⟨.inl rfl, by decide⟩
    · intro w hw
      simp only [List.mem_cons, List.not_mem_nil, or_false] at hw
      rcases hw with rfl | rfl <;> exact hl (by decide) (by decide)
    · intro d hd
      obtain rfl : ',' = d := Option.some.inj hd
      exact ⟨.inr ⟨by unfold Sign; decide, by decide⟩, by decide⟩
    · intro c hc
      obtain rfl := List.mem_singleton.mp hc
      unfold Sign; decide
    · intro d hd
      obtain rfl : ' ' = d := Option.some.inj hd
      decide
    · intro w hw
      simp only [List.mem_cons, List.not_mem_nil, or_false] at hw
      rcases hw with rfl | rfl | rfl <;> exact hl (by decide) (by decide)
    · intro d hd
      cases hd

/-- **C92** (disagreement): a point is not accepted in the name of an address, although addresses may have one there (the characters
of the expression lack it): the address is cut there. -/
theorem email_with_point : tokenizeRaw asciiTable false "john.doe@x.net".toList =
    .ok [(.word, "john".toList), (.punct, ['.']), (.email, "doe@x.net".toList)] := by decide +kernel

/-- **C92** (disagreement): the expression accepts names of sixty-four characters, but the text searched holds sixty-four characters
with the `@`: such an address is never recognised. -/
theorem email_sixty_four : ¬ MailStart (List.replicate 64 'a' ++ "@x.net".toList) ∧
    emailRe (List.replicate 64 'a' ++ "@x.net".toList) = true ∧
    tokenizeRaw asciiTable false (List.replicate 64 'a' ++ "@x.net".toList) =
      .ok [(.word, List.replicate 64 'a'), (.mention, "@x".toList), (.punct, ['.']), (.word, "net".toList)] := by
  refine ⟨?_, by decide +kernel, by decide +kernel⟩
  intro h
  have := (email_lookahead_iff _).mpr h
  revert this
  decide +kernel

/-- **C92**: an abbreviation at the very end of the text loses its point. -/
theorem abbreviation_last : tokenizeRaw asciiTable false "see etc.".toList =
    .ok [(.word, "see".toList), (.word, "etc".toList), (.punct, ['.'])] := by decide +kernel

end Fog.Props
