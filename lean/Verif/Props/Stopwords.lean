import Verif.Model.Stopwords
import Verif.Spec.WordRuns
import Verif.Props.Fingerprint

/-!
# C98: stopwords of fingerprints
-/

namespace Fog.Props

open Fingerprint Spec

variable (u : Unicode) {same : Char → Char → Bool}

/-- A run of characters is a stopword but for its case. -/
def IsStopword (same : Char → Char → Bool) (stopwords : List (List Char)) (x : List Char) : Prop :=
  ∃ w ∈ stopwords, List.Forall₂ (fun a c => same a c = true) w x

instance (same : Char → Char → Bool) (stopwords : List (List Char)) (x : List Char) : Decidable (IsStopword same stopwords x) :=
  inferInstanceAs (Decidable (∃ w ∈ stopwords, List.Forall₂ (fun a c => same a c = true) w x))

theorem samePrefix_iff (w s : List Char) : samePrefix same w s = true ↔ List.Forall₂ (fun a c => same a c = true) w (s.take w.length) ∧ w.length ≤ s.length := by
  induction w generalizing s with
  | nil => simp [samePrefix]
  | cons a w ih =>
      cases s with
      | nil => simp [samePrefix]
      | cons c s => simp [samePrefix, ih, and_assoc]

theorem dropStop_other {stopwords : List (List Char)} (hsame : ∀ a c, same a c = true → u.isWord a = u.isWord c)
    (hstop : ∀ w ∈ stopwords, ∀ c ∈ w, u.isWord c = true) (x t : List Char) (hx : ∀ c ∈ x, u.isWord c = false) (hn : x ≠ []) (prev : Bool) :
    dropStop u same stopwords 0 prev (x ++ t) = x ++ dropStop u same stopwords 0 false t := by
  induction x generalizing prev with
  | nil => exact absurd rfl hn
  | cons c x ih =>
      have hc := hx c (by simp)
      have hm : stopMatch u same stopwords prev (c :: (x ++ t)) = none := by
        unfold stopMatch
        rw [List.findSome?_eq_none_iff]
        intro w hw
        rw [if_neg]
        rintro ⟨hwn, h⟩
        cases w with
        | nil => exact hwn rfl
        | cons a w =>
            simp only [wordMatch, samePrefix, Bool.and_eq_true] at h
            have h1 := hsame a c h.1.2.1
            rw [hstop _ hw a (by simp), hc] at h1
            exact absurd h1 (by decide)
      rw [List.cons_append, dropStop, hm]
      simp only [hc]
      cases x with
      | nil => rfl
      | cons d x => rw [ih (fun y hy => hx y (by simp [hy])) (by simp)]; rfl

theorem dropStop_inside {stopwords : List (List Char)} (x t : List Char) (hx : ∀ c ∈ x, u.isWord c = true) :
    dropStop u same stopwords 0 true (x ++ t) = x ++ dropStop u same stopwords 0 true t := by
  induction x with
  | nil => rfl
  | cons c x ih =>
      have hc := hx c (by simp)
      have hm : stopMatch u same stopwords true (c :: (x ++ t)) = none := by
        unfold stopMatch
        rw [List.findSome?_eq_none_iff]
        intro w hw
        rw [if_neg]
        rintro ⟨_, h⟩
        simp [wordMatch, hc] at h
      rw [List.cons_append, dropStop, hm]
      simp only [hc]
      rw [ih (fun y hy => hx y (by simp [hy]))]; rfl

theorem dropStop_skip {stopwords : List (List Char)} (x t : List Char) (hx : ∀ c ∈ x, u.isWord c = true) :
    dropStop u same stopwords x.length true (x ++ t) = dropStop u same stopwords 0 true t := by
  induction x with
  | nil => rfl
  | cons c x ih =>
      rw [List.cons_append, List.length_cons, dropStop, hx c (by simp)]
      exact ih (fun y hy => hx y (by simp [hy]))

theorem forall₂_words (hsame : ∀ a c, same a c = true → u.isWord a = u.isWord c) {w x : List Char}
    (h : List.Forall₂ (fun a c => same a c = true) w x) (hw : ∀ c ∈ w, u.isWord c = true) : ∀ c ∈ x, u.isWord c = true := by
  induction h with
  | nil => simp
  | cons h1 _ ih =>
      intro c hc
      rcases List.mem_cons.mp hc with rfl | hc
      · rw [← hsame _ _ h1]; exact hw _ (by simp)
      · exact ih (fun y hy => hw y (by simp [hy])) c hc

theorem wordMatch_run {stopwords : List (List Char)} (hsame : ∀ a c, same a c = true → u.isWord a = u.isWord c) {w x t : List Char}
    (hw : ∀ c ∈ w, u.isWord c = true) (hx : ∀ c ∈ x, u.isWord c = true) (hn : x ≠ [])
    (ht : ∀ d, t.head? = some d → u.isWord d = false) :
    (w ≠ [] ∧ wordMatch u same false (x ++ t) w = true) ↔ List.Forall₂ (fun a c => same a c = true) w x := by
  have hhead : (x ++ t).head?.any u.isWord = true := by
    cases x with
    | nil => exact absurd rfl hn
    | cons c x => simpa using hx c (by simp)
  have htany : t.head?.any u.isWord = false := by
    cases t with
    | nil => rfl
    | cons d t => simpa using ht d rfl
  constructor
  · rintro ⟨hwn, h⟩
    simp only [wordMatch, Bool.and_eq_true] at h
    obtain ⟨⟨_, h1⟩, h2⟩ := h
    obtain ⟨h1, h3⟩ := (samePrefix_iff w (x ++ t)).mp h1
    have hall := forall₂_words u hsame h1 hw
    -- The last character which is matched is a word character, so that the next one is not.
    have hlast : ((x ++ t).take w.length).getLast?.any u.isWord = true := by
      have hne : (x ++ t).take w.length ≠ [] := by
        intro h0
        rw [h0] at h1
        cases h1
        exact hwn rfl
      rw [List.getLast?_eq_some_getLast hne]
      exact hall _ (List.getLast_mem hne)
    rw [hlast] at h2
    rcases Nat.lt_trichotomy w.length x.length with hl | hl | hl
    · exfalso
      rw [List.drop_append_of_le_length (by omega)] at h2
      have : (List.drop w.length x ++ t).head?.any u.isWord = true := by
        rw [List.head?_append, List.head?_drop, List.getElem?_eq_getElem hl]
        exact hx _ (List.getElem_mem hl)
      rw [this] at h2
      exact absurd h2 (by decide)
    · rw [hl, List.take_left'  rfl] at h1
      exact h1
    · exfalso
      cases t with
      | nil => rw [List.append_nil] at h3; omega
      | cons d t =>
          have : u.isWord d = true := by
            apply hall
            rw [List.take_append, List.mem_append]
            right
            obtain ⟨m, hm⟩ : ∃ m, w.length - x.length = m + 1 := ⟨w.length - x.length - 1, by omega⟩
            rw [hm]; simp
          rw [ht d rfl] at this
          exact absurd this (by decide)
  · intro h
    have hl := h.length_eq
    have hwn : w ≠ [] := by
      rintro rfl
      cases h
      exact hn rfl
    refine ⟨hwn, ?_⟩
    simp only [wordMatch, Bool.and_eq_true]
    refine ⟨⟨by rw [hhead]; rfl, (samePrefix_iff w (x ++ t)).mpr ⟨?_, by simp [hl]⟩⟩, ?_⟩
    · rw [hl, List.take_left' rfl]; exact h
    · rw [hl, List.take_left' rfl, List.drop_left' rfl, htany, List.getLast?_eq_some_getLast hn]
      simpa using hx _ (List.getLast_mem hn)

theorem dropStop_word {stopwords : List (List Char)} (hsame : ∀ a c, same a c = true → u.isWord a = u.isWord c)
    (hstop : ∀ w ∈ stopwords, ∀ c ∈ w, u.isWord c = true) {x t : List Char} (hx : ∀ c ∈ x, u.isWord c = true) (hn : x ≠ [])
    (ht : ∀ d, t.head? = some d → u.isWord d = false) :
    dropStop u same stopwords 0 false (x ++ t) = (if IsStopword same stopwords x then [] else x) ++ dropStop u same stopwords 0 true t := by
  have hkey : ∀ w ∈ stopwords, (w ≠ [] ∧ wordMatch u same false (x ++ t) w = true) ↔ List.Forall₂ (fun a c => same a c = true) w x :=
    fun w hw => wordMatch_run u (stopwords := stopwords) hsame (hstop w hw) hx hn ht
  have hm : stopMatch u same stopwords false (x ++ t) = if IsStopword same stopwords x then some x.length else none := by
    unfold stopMatch
    split
    · next h =>
        obtain ⟨w, hw, hf⟩ := h
        cases hf' : (stopwords.findSome? fun w => if w ≠ [] ∧ wordMatch u same false (x ++ t) w = true then some w.length else none) with
        | none =>
            rw [List.findSome?_eq_none_iff] at hf'
            have := hf' w hw
            rw [if_pos ((hkey w hw).mpr hf)] at this
            exact absurd this (by simp)
        | some k =>
            obtain ⟨w', hw', hk⟩ := List.exists_of_findSome?_eq_some hf'
            split at hk
            · next h1 =>
                injection hk with hk
                rw [← hk, ((hkey w' hw').mp h1).length_eq]
            · exact absurd hk (by simp)
    · next h =>
        rw [List.findSome?_eq_none_iff]
        intro w hw
        rw [if_neg]
        intro h1
        exact h ⟨w, hw, (hkey w hw).mp h1⟩
  cases x with
  | nil => exact absurd rfl hn
  | cons c x =>
      rw [List.cons_append] at hm ⊢
      rw [dropStop, hm]
      have hc := hx c (by simp)
      by_cases hs : IsStopword same stopwords (c :: x)
      · simp only [if_pos hs, hc]
        exact dropStop_skip u x t (fun y hy => hx y (by simp [hy]))
      · simp only [if_neg hs, hc]
        rw [dropStop_inside u x t (fun y hy => hx y (by simp [hy]))]
        rfl

/-- **C98**, partial: for stopwords made of word characters, the runs of word characters which are a stopword but for their case are removed,
and nothing else. Missing because false: the same for stopwords which begin or end with another character. -/
theorem stopwords_exact_partial {stopwords : List (List Char)} (hsame : ∀ a c, same a c = true → u.isWord a = u.isWord c)
    (hstop : ∀ w ∈ stopwords, ∀ c ∈ w, u.isWord c = true) {r : List (List Char)} (hr : IsRuns u.isWord r) :
    stopwordsSub u same stopwords r.flatten = (r.filter fun x => !decide (IsStopword same stopwords x)).flatten := by
  have key : ∀ (r : List (List Char)), IsRuns u.isWord r → ∀ prev : Bool,
      (prev = true → ∀ x ∈ r.head?, ∀ c ∈ x, u.isWord c = false) →
      dropStop u same stopwords 0 prev r.flatten = (r.filter fun x => !decide (IsStopword same stopwords x)).flatten := by
    intro r
    induction r with
    | nil => intro _ prev _; simp [dropStop]
    | cons x r ih =>
        intro hr prev hp
        have hn := hr.ne_nil x (by simp)
        have hr' : IsRuns u.isWord r :=
          ⟨fun y hy => hr.ne_nil y (by simp [hy]), fun y hy => hr.kind y (by simp [hy]), hr.alternate.tail⟩
        have hnext : ∀ y ∈ r.head?, x.getLast?.any u.isWord ≠ y.head?.any u.isWord := by
          intro y hy
          cases r with
          | nil => simp at hy
          | cons z r =>
              simp only [List.head?_cons, Option.mem_def, Option.some.injEq] at hy
              subst hy
              exact (List.isChain_cons_cons.mp hr.alternate).1
        rw [List.flatten_cons]
        rcases hr.kind x (by simp) with hx | hx
        · -- A run of word characters.
          have hprev : prev = false := by
            cases prev with
            | false => rfl
            | true =>
                cases x with
                | nil => exact absurd rfl hn
                | cons c x =>
                    have := hp rfl (c :: x) (by simp) c (by simp)
                    rw [hx c (by simp)] at this
                    exact absurd this (by decide)
          have hother : ∀ y ∈ r.head?, ∀ c ∈ y, u.isWord c = false := by
            intro y hy
            have hmem : y ∈ r := List.mem_of_mem_head? hy
            rcases hr'.kind y hmem with hk | hk
            · exfalso
              apply hnext y hy
              have hyn := hr'.ne_nil y hmem
              rw [List.getLast?_eq_some_getLast hn, List.head?_eq_some_head hyn]
              simp [hx _ (List.getLast_mem hn), hk _ (List.head_mem hyn)]
            · exact hk
          have ht : ∀ d, r.flatten.head? = some d → u.isWord d = false := by
            intro d hd
            cases r with
            | nil => simp at hd
            | cons y r =>
                cases y with
                | nil => exact absurd rfl (hr'.ne_nil [] (by simp))
                | cons e y =>
                    simp only [List.flatten_cons, List.cons_append, List.head?_cons, Option.some.injEq] at hd
                    exact hd ▸ hother (e :: y) (by simp) e (by simp)
          rw [hprev, dropStop_word u hsame hstop hx hn ht, ih hr' true (fun _ => hother), List.filter_cons]
          by_cases hs : IsStopword same stopwords x
          · simp [hs]
          · simp [hs]
        · -- A run of other characters.
          rw [dropStop_other u hsame hstop x _ hx hn, ih hr' false (by simp), List.filter_cons]
          have hs : ¬ IsStopword same stopwords x := by
            rintro ⟨w, hw, hf⟩
            have := forall₂_words u hsame hf (hstop w hw) _ (List.getLast_mem hn)
            rw [hx _ (List.getLast_mem hn)] at this
            exact absurd this (by decide)
          simp [hs]
  exact key r hr false (by simp)

/-- Every text is cut into runs. -/
theorem runs_exist (isWord : Char → Bool) (s : List Char) : ∃ r, IsRuns isWord r ∧ r.flatten = s := by
  refine ⟨s.splitBy fun a b => isWord a == isWord b, ⟨fun x hx => List.ne_nil_of_mem_splitBy hx, ?_, ?_⟩, List.flatten_splitBy _ _⟩
  · intro x hx
    have h := List.isChain_of_mem_splitBy hx
    have h' : ∀ x : List Char, x.IsChain (fun a b => (isWord a == isWord b) = true) →
        ∀ a ∈ x.head?, ∀ c ∈ x, isWord c = isWord a := by
      intro x
      induction x with
      | nil => simp
      | cons a x ih =>
          intro h b hb c hc
          simp only [List.head?_cons, Option.mem_def, Option.some.injEq] at hb
          subst hb
          rcases List.mem_cons.mp hc with rfl | hc
          · rfl
          · cases x with
            | nil => simp at hc
            | cons d x =>
                obtain ⟨h1, h2⟩ := List.isChain_cons_cons.mp h
                rw [ih h2 d (by simp) c hc]
                exact (beq_iff_eq.mp h1).symm
    have hn := List.ne_nil_of_mem_splitBy hx
    cases x with
    | nil => exact absurd rfl hn
    | cons a x =>
        cases ha : isWord a with
        | true => exact Or.inl fun c hc => (h' _ h a (by simp) c hc).trans ha
        | false => exact Or.inr fun c hc => (h' _ h a (by simp) c hc).trans ha
  · refine (List.isChain_getLast_head_splitBy _ s).imp ?_
    rintro x y ⟨hx, hy, h⟩
    rw [List.getLast?_eq_some_getLast hx, List.head?_eq_some_head hy]
    simpa using h

/-- **C98**: removing stopwords is all they change: the tokens are those of the text without its stopwords. -/
theorem stopwords_tokens_partial (o : Options) {stopwords : List (List Char)} (hsplit : o.split = none)
    (ho : o.stopwords = some (stopwordsSub u same stopwords)) (hsame : ∀ a c, same a c = true → u.isWord a = u.isWord c)
    (hstop : ∀ w ∈ stopwords, ∀ c ∈ w, u.isWord c = true) {r : List (List Char)} (hr : IsRuns u.isWord r) :
    tokenize u o r.flatten =
      tokenize u { o with stopwords := none } (r.filter fun x => !decide (IsStopword same stopwords x)).flatten := by
  rw [← stopwords_exact_partial u hsame hstop hr]
  unfold tokenize clean
  simp only [hsplit, ho]
  rfl

/-- Likewise for n-grams. -/
theorem stopwords_ngrams_partial (o : Options) (n : Nat) {stopwords : List (List Char)} (hsplit : o.split = none)
    (ho : o.stopwords = some (stopwordsSub u same stopwords)) (hsame : ∀ a c, same a c = true → u.isWord a = u.isWord c)
    (hstop : ∀ w ∈ stopwords, ∀ c ∈ w, u.isWord c = true) {r : List (List Char)} (hr : IsRuns u.isWord r) :
    ngramsTokenize u o n r.flatten =
      ngramsTokenize u { o with stopwords := none } n (r.filter fun x => !decide (IsStopword same stopwords x)).flatten := by
  rw [← stopwords_exact_partial u hsame hstop hr]
  unfold ngramsTokenize clean
  simp only [hsplit, ho]
  rfl

theorem dropStop_words {stopwords : List (List Char)} (hsame : ∀ a c, same a c = true → u.isWord a = u.isWord c)
    (hstop : ∀ w ∈ stopwords, ∀ c ∈ w, u.isWord c = true) (hsp : u.isWord ' ' = false) (ws : List (List Char))
    (hw : ∀ w ∈ ws, w ≠ [] ∧ ∀ c ∈ w, u.isWord c = true) :
    dropStop u same stopwords 0 false ([' '].intercalate ws) =
      [' '].intercalate (ws.map fun w => if IsStopword same stopwords w then [] else w) := by
  induction ws with
  | nil => simp [dropStop]
  | cons w ws ih =>
      obtain ⟨hn, hwc⟩ := hw w (by simp)
      cases ws with
      | nil =>
          have := dropStop_word u hsame hstop (t := []) hwc hn (by simp)
          rw [List.append_nil] at this
          rw [show [' '].intercalate [w] = w by simp, this]
          simp [dropStop]
      | cons w' ws =>
          rw [show [' '].intercalate (w :: w' :: ws) = w ++ ' ' :: [' '].intercalate (w' :: ws) by simp [List.intercalate_cons_cons],
            dropStop_word u hsame hstop hwc hn (by
              intro d hd
              simp only [List.head?_cons, Option.some.injEq] at hd
              subst hd
              exact hsp),
            show ' ' :: [' '].intercalate (w' :: ws) = [' '] ++ [' '].intercalate (w' :: ws) from rfl,
            dropStop_other u hsame hstop [' '] _ (by simpa using hsp) (by simp), ih (fun x hx => hw x (by simp [hx]))]
          simp [List.intercalate_cons_cons]

/-- **C98**: on a text made of simple words, the stopwords are gone and the other words stay. -/
theorem stopwords_words (hu : Lawful u) (hword : ∀ c, Lawful.Simple c → u.isWord c = true) (hsp : u.isWord ' ' = false)
    {stopwords : List (List Char)} (hsame : ∀ a c, same a c = true → u.isWord a = u.isWord c)
    (hstop : ∀ w ∈ stopwords, ∀ c ∈ w, u.isWord c = true) (ws : List (List Char)) (hw : ∀ w ∈ ws, w ≠ [] ∧ ∀ c ∈ w, Lawful.Simple c) :
    cleanWords u { stopwords := some (stopwordsSub u same stopwords) } ([' '].intercalate ws) =
      ws.filter fun w => !decide (IsStopword same stopwords w) := by
  have hmap : ∀ w ∈ ws.map (fun w => if IsStopword same stopwords w then [] else w), ∀ c ∈ w, Lawful.Simple c := by
    intro w hw' c hc
    obtain ⟨x, hx, rfl⟩ := List.mem_map.mp hw'
    split at hc
    · simp at hc
    · exact (hw x hx).2 c hc
  have hchars : ∀ ws : List (List Char), (∀ w ∈ ws, ∀ c ∈ w, Lawful.Simple c) → ∀ c ∈ [' '].intercalate ws, Lawful.Simple c ∨ c = ' ' := by
    intro ws
    induction ws with
    | nil => simp
    | cons w ws ih =>
        intro hw
        cases ws with
        | nil => intro c hc; exact Or.inl (hw w (by simp) c (by simpa using hc))
        | cons w' ws =>
            rw [show [' '].intercalate (w :: w' :: ws) = w ++ ' ' :: [' '].intercalate (w' :: ws) by simp [List.intercalate_cons_cons]]
            intro c hc
            rcases List.mem_append.mp hc with h | h
            · exact Or.inl (hw w (by simp) c h)
            · rcases List.mem_cons.mp h with h | h
              · exact Or.inr h
              · exact ih (fun x hx => hw x (by simp [hx])) c h
  have hs := hchars _ hmap
  have hclean := clean_simple u hu {} (by simp) rfl rfl (by decide) hs
  unfold cleanWords
  rw [show clean u { stopwords := some (stopwordsSub u same stopwords) } ([' '].intercalate ws) =
      clean u {} (stopwordsSub u same stopwords ([' '].intercalate ws)) from rfl]
  unfold stopwordsSub
  rw [dropStop_words u hsame hstop hsp ws (fun w h => ⟨(hw w h).1, fun c hc => hword c ((hw w h).2 c hc)⟩), hclean,
    words_intercalate u.isSpace hu.space _ (fun w hw' c hc => hu.letter c (hmap w hw' c hc))]
  have : squeezed false = id := by funext w; simp [squeezed]
  rw [this, List.map_id, List.filter_map]
  clear hs hmap hchars hclean
  induction ws with
  | nil => rfl
  | cons w ws ih =>
      have hwn := (hw w (by simp)).1
      have ih := ih (fun x hx => hw x (by simp [hx]))
      rw [List.filter_cons, List.filter_cons]
      by_cases hs : IsStopword same stopwords w
      · simp only [Function.comp, if_pos hs, ne_eq, not_true_eq_false, decide_false, Bool.false_eq_true, if_false, decide_true, hs,
          Bool.not_true]
        exact ih
      · rw [if_pos (by simp [Function.comp, hs, hwn]), if_pos (by simp [hs]), List.map_cons, ih, if_neg hs]

/-- **C98** is false for other stopwords: one which ends with a character which is not a word character is only removed where a word
character follows, so that none is from a text where a white space or nothing follows each of these characters. -/
theorem stopwords_symbol {stopwords : List (List Char)}
    (hstop : ∀ w ∈ stopwords, ∃ x b, w = x ++ [b] ∧ ∀ c, same b c = true → u.isWord c = false) (s : List Char)
    (hs : ∀ i c d, s[i]? = some c → s[i + 1]? = some d → (∃ w ∈ stopwords, ∃ b ∈ w.getLast?, same b c = true) → u.isWord d = false) :
    stopwordsSub u same stopwords s = s := by
  have key : ∀ (s : List Char) (prev : Bool),
      (∀ i c d, s[i]? = some c → s[i + 1]? = some d → (∃ w ∈ stopwords, ∃ b ∈ w.getLast?, same b c = true) → u.isWord d = false) →
      dropStop u same stopwords 0 prev s = s := by
    intro s
    induction s with
    | nil => intro prev _; rfl
    | cons e s ih =>
        intro prev hs
        have hm : stopMatch u same stopwords prev (e :: s) = none := by
          unfold stopMatch
          rw [List.findSome?_eq_none_iff]
          intro w hw
          rw [if_neg]
          rintro ⟨_, h⟩
          simp only [wordMatch, Bool.and_eq_true] at h
          obtain ⟨⟨_, h1⟩, h2⟩ := h
          obtain ⟨h1, h3⟩ := (samePrefix_iff w (e :: s)).mp h1
          obtain ⟨x, b, rfl, hb⟩ := hstop w hw
          have hl : (x ++ [b]).length = x.length + 1 := by simp
          rw [hl] at h1 h2 h3
          have hx : x.length < (e :: s).length := by omega
          have hget : (e :: s).take (x.length + 1) = (e :: s).take x.length ++ [(e :: s)[x.length]] := (List.take_append_getElem hx).symm
          have hsame : same b (e :: s)[x.length] = true := by
            rw [hget] at h1
            have h4 := List.forall₂_drop_append _ _ _ h1
            rw [show List.drop ((e :: s).take x.length).length (x ++ [b]) = [b] by simp [show min x.length (s.length + 1) = x.length by simp at hx; omega]] at h4
            cases h4 with
            | cons h _ => exact h
          rw [hget, List.getLast?_concat, List.head?_drop] at h2
          simp only [Option.any_some, hb _ hsame] at h2
          cases hd : (e :: s)[x.length + 1]? with
          | none => rw [hd] at h2; simp at h2
          | some d =>
              have := hs x.length _ d (List.getElem?_eq_getElem hx) hd ⟨_, hw, b, by simp, hsame⟩
              rw [hd] at h2
              simp [this] at h2
        rw [dropStop, hm]
        simp only
        rw [ih _ fun i c d h1 h2 => hs (i + 1) c d (by simpa using h1) (by simpa using h2)]
  exact key s false hs

/-- **C98** is false: the stopword `c++` stays, and its letter is a token. -/
theorem stopword_symbol_kept : ¬ ∀ (stopwords : List (List Char)) (s : List Char), ∀ w ∈ stopwords,
    w ∉ ((stopwordsSub ascii (fun a c => a.toLower == c.toLower) stopwords s).splitOn ' ') := by
  intro h
  exact h ["c++".toList] "in c++ code".toList "c++".toList (by decide +kernel) (by decide +kernel)

example : cleanWords ascii { stopwords := some (stopwordsSub ascii (fun a c => a.toLower == c.toLower) ["c++".toList]) } "in c++ code".toList =
    ["in".toList, "c".toList, "code".toList] := by decide +kernel

-- The runs of a text, two of which are stopwords.
example : stopwordsSub ascii (fun a c => a.toLower == c.toLower) ["the".toList, "of".toList] "The theory of the-cat".toList =
    " theory  -cat".toList := by decide +kernel

example : IsRuns ascii.isWord ["The".toList, " ".toList, "theory".toList, " -".toList] := by
  refine ⟨by decide +kernel, by decide +kernel, by decide +kernel⟩

theorem ascii_same_word : ∀ a c : Char, (a.toLower == c.toLower) = true → ascii.isWord a = ascii.isWord c := by
  have h : ∀ c : Char, ascii.isWord c.toLower = ascii.isWord c := by
    intro c
    by_cases hc : c.toNat < 128
    · have key : ∀ n : Fin 128, ascii.isWord (Char.ofNat n.val).toLower = ascii.isWord (Char.ofNat n.val) := by decide +kernel
      have := key ⟨c.toNat, hc⟩
      simpa [Char.ofNat_toNat] using this
    · have : c.toLower = c := by
        unfold Char.toLower
        rw [dif_neg]
        rintro ⟨_, h⟩
        apply hc
        have h' : c.toNat ≤ 90 := h
        omega
      rw [this]
  intro a c hac
  rw [← h a, ← h c, beq_iff_eq.mp hac]

-- The hypotheses of the theorems are met by ASCII tables.
example : cleanWords ascii { stopwords := some (stopwordsSub ascii (fun a c => a.toLower == c.toLower) ["The".toList, "OF".toList]) }
    ([' '].intercalate ["the".toList, "theory".toList, "of".toList, "cats".toList]) = ["theory".toList, "cats".toList] :=
  (stopwords_words ascii ascii_lawful (fun c h => (simple_table c h).2.1) (by decide) ascii_same_word (by decide +kernel) _ (by
    unfold Lawful.Simple
    decide +kernel)).trans (by decide +kernel)

end Fog.Props
