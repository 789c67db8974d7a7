import Verif.Model.Html
import Verif.Spec.HtmlPage
import Mathlib.Data.List.Forall2
import Mathlib.Data.List.Infix
import Mathlib.Data.Rat.Floor
import Mathlib.Tactic.Linarith

/-!
# C94: the HTML report can be read back
-/

namespace Fog.Props

open Fog.Cli Fog.Html Fog.Spec Fog.Spec.Html

/-! ### Tags and texts -/

theorem noTag_nil : NoTag [] := by
  intro a c b h
  simp at h

theorem noTag_cons {x : Char} {t : Str} : NoTag (x :: t) ↔ (x = '<' → t.head?.any opens = false) ∧ NoTag t := by
  constructor
  · intro h
    refine ⟨?_, fun a c b e => h (x :: a) c b (by rw [e]; rfl)⟩
    rintro rfl
    cases t with
    | nil => rfl
    | cons c b => exact h [] c b rfl
  · rintro ⟨h1, h2⟩ a c b e
    cases a with
    | nil =>
        cases e
        exact h1 rfl
    | cons y a =>
        cases e
        exact h2 a c b rfl

instance : DecidablePred NoTag := fun t => by
  induction t with
  | nil => exact .isTrue noTag_nil
  | cons x t ih => exact decidable_of_iff _ noTag_cons.symm

/-- Texts in which `<` does not occur. -/
theorem noTag_of {t : Str} (h : ∀ c ∈ t, c ≠ '<') : NoTag t := by
  rintro a c b rfl
  exact absurd rfl (h '<' (by simp))

theorem noTag_append {s t : Str} (hs : NoTag s) (ht : NoTag t) (h : t.head?.any opens = false) : NoTag (s ++ t) := by
  induction s with
  | nil => exact ht
  | cons x s ih =>
      obtain ⟨h1, h2⟩ := noTag_cons.mp hs
      refine noTag_cons.mpr ⟨fun e => ?_, ih h2⟩
      cases s with
      | nil => exact h
      | cons y s => exact h1 e

theorem noTag_prefix {s t : Str} (hs : ∀ c ∈ s, c ≠ '<') (ht : NoTag t) : NoTag (s ++ t) := by
  induction s with
  | nil => exact ht
  | cons x s ih =>
      exact noTag_cons.mpr ⟨fun e => absurd e (hs x (by simp)), ih fun c hc => hs c (by simp [hc])⟩

theorem noTag_wrap {a v b : Str} (ha : ∀ c ∈ a, c ≠ '<') (hv : NoTag v) (hb : ∀ c ∈ b, c ≠ '<') (h : b.head?.any opens = false) :
    NoTag (a ++ (v ++ b)) := noTag_prefix ha (noTag_append hv (noTag_of hb) h)

/-- The text of a list of tags with the texts after them. -/
def render (ps : List (Str × Str)) : Str := ps.flatMap fun p => '<' :: p.1 ++ '>' :: p.2

theorem render_cons (p : Str × Str) (ps : List (Str × Str)) : render (p :: ps) = '<' :: p.1 ++ '>' :: (p.2 ++ render ps) := by
  simp [render]

/-- Tags and texts which are read back. -/
structure GoodPart (p : Str × Str) : Prop where
  first : p.1.head?.any opens = true
  name : ∀ c ∈ p.1, c ≠ '>'
  text : NoTag p.2

theorem tokens_name {t : Str} (h : ∀ c ∈ t, c ≠ '>') (x acc : Str) :
    tokens (some acc) (t ++ '>' :: x) = .tag (acc.reverse ++ t) :: tokens none x := by
  induction t generalizing acc with
  | nil => simp [tokens]
  | cons c t ih =>
      rw [List.cons_append, tokens, if_neg (h c (by simp)), ih fun d hd => h d (by simp [hd])]
      simp

theorem tokens_tag {t : Str} (h1 : t.head?.any opens = true) (h : ∀ c ∈ t, c ≠ '>') (x : Str) :
    tokens none ('<' :: t ++ '>' :: x) = .tag t :: tokens none x := by
  cases t with
  | nil => simp at h1
  | cons c t =>
      have := tokens_name h x []
      simp only [List.cons_append, List.reverse_nil, List.nil_append] at this ⊢
      rw [tokens, if_pos ⟨rfl, by simpa using h1⟩, this]

theorem tokens_text {x b : Str} (hx : NoTag x) (hb : b.head?.any opens = false) :
    tokens none (x ++ b) = x.map .char ++ tokens none b := by
  induction x with
  | nil => rfl
  | cons c x ih =>
      obtain ⟨h1, h2⟩ := noTag_cons.mp hx
      rw [List.cons_append, tokens, if_neg, ih h2]
      · rfl
      · rintro ⟨e, h⟩
        cases x with
        | nil => rw [List.nil_append, hb] at h; simp at h
        | cons y x => have := h1 e; simp at this h; simp [this] at h

theorem before_chars (x : Str) (l : List Token) : before (x.map .char ++ l) = x ++ before l := by
  induction x with
  | nil => rfl
  | cons c x ih => simp [before, ih]

theorem sections_chars (x : Str) (l : List Token) : sections (x.map .char ++ l) = sections l := by
  induction x with
  | nil => rfl
  | cons c x ih => simpa [sections] using ih

theorem render_head (ps : List (Str × Str)) : (render ps).head?.any opens = false := by
  cases ps with
  | nil => rfl
  | cons p ps => simp [render, opens]

theorem before_render {ps : List (Str × Str)} (h : ∀ p ∈ ps, GoodPart p) : before (tokens none (render ps)) = [] := by
  cases ps with
  | nil => rfl
  | cons p ps =>
      rw [render_cons, tokens_tag (h p (by simp)).first (h p (by simp)).name]
      rfl

/-- What is written is read back. -/
theorem page_render {ps : List (Str × Str)} (h : ∀ p ∈ ps, GoodPart p) : page (render ps) = ps := by
  unfold page
  induction ps with
  | nil => rfl
  | cons p ps ih =>
      have hp := h p (by simp)
      have h' := fun q hq => h q (List.mem_cons_of_mem _ hq)
      rw [render_cons, tokens_tag hp.first hp.name,
        tokens_text hp.text (render_head ps), sections, before_chars, sections_chars, before_render h', ih h', List.append_nil]

/-! ### White space -/

theorem squeeze_due (d d' : Bool) (t : Str) : squeeze false d t = squeeze false d' t := by
  induction t generalizing d d' with
  | nil => rfl
  | cons c t ih => simp [squeeze]

theorem squeeze_left {w : Str} (h : ∀ c ∈ w, blank c = true) (t : Str) : squeeze false false (w ++ t) = squeeze false false t := by
  induction w with
  | nil => rfl
  | cons c w ih =>
      rw [List.cons_append, squeeze, if_pos (h c (by simp)), squeeze_due true false, ih fun d hd => h d (by simp [hd])]

theorem squeeze_blank {w : Str} (h : ∀ c ∈ w, blank c = true) (s d : Bool) : squeeze s d w = [] := by
  induction w generalizing d with
  | nil => rfl
  | cons c w ih => rw [squeeze, if_pos (h c (by simp)), ih fun d hd => h d (by simp [hd])]

theorem squeeze_right {w : Str} (h : ∀ c ∈ w, blank c = true) (t : Str) (s d : Bool) : squeeze s d (t ++ w) = squeeze s d t := by
  induction t generalizing s d with
  | nil => exact squeeze_blank h s d
  | cons c t ih =>
      rw [List.cons_append, squeeze, squeeze, ih, ih]

theorem shown_wrap {a b : Str} (ha : ∀ c ∈ a, blank c = true) (hb : ∀ c ∈ b, blank c = true) (t : Str) :
    shown (a ++ (t ++ b)) = shown t := by
  unfold shown
  rw [squeeze_left ha, squeeze_right hb]

/-- Texts shown as they are: no `&`, single spaces, and none at both ends. -/
def Neat (v : Str) : Prop :=
  (∀ c ∈ v, c ≠ '&' ∧ (blank c = true → c = ' ')) ∧ v.head? ≠ some ' ' ∧ v.getLast? ≠ some ' ' ∧ ¬ [' ', ' '] <:+: v

instance (v : Str) : Decidable (Neat v) := by unfold Neat; infer_instance

theorem unescape_id {v : Str} (h : ∀ c ∈ v, c ≠ '&') : unescape v = v := by
  induction v with
  | nil => rfl
  | cons c v ih =>
      have hc := h c (by simp)
      rw [unescape, ih fun d hd => h d (by simp [hd])]
      all_goals
        intros
        exact hc ‹_›

theorem squeeze_neat (v : Str) (hb : ∀ c ∈ v, blank c = true → c = ' ') (hl : v.getLast? ≠ some ' ') (hd : ¬ [' ', ' '] <:+: v) :
    squeeze true false v = v ∧ (v.head? ≠ some ' ' → v ≠ [] → squeeze true true v = ' ' :: v ∧ squeeze false false v = v) := by
  induction v with
  | nil => exact ⟨rfl, fun _ h => absurd rfl h⟩
  | cons c v ih =>
      have hl' : v.getLast? ≠ some ' ' := by
        cases v with
        | nil => simp
        | cons y v => rwa [List.getLast?_cons_cons] at hl
      obtain ⟨h1, h2⟩ := ih (fun d hd => hb d (by simp [hd])) hl' fun h => hd (List.infix_cons h)
      by_cases hc : blank c = true
      · have hc' := hb c (by simp) hc
        subst hc'
        refine ⟨?_, fun h => absurd rfl h⟩
        rw [squeeze, if_pos hc]
        refine (h2 ?_ ?_).1
        · intro h
          cases v with
          | nil => simp at h
          | cons y v =>
              simp only [List.head?_cons, Option.some.injEq] at h
              subst h
              exact hd (List.IsPrefix.isInfix ⟨v, rfl⟩)
        · rintro rfl
          simp at hl
      · simp [squeeze, hc, h1]

theorem shown_neat {v : Str} (h : Neat v) : shown v = v := by
  obtain ⟨h1, h2, h3, h4⟩ := h
  unfold shown
  have : squeeze false false v = v := by
    by_cases hv : v = []
    · subst hv
      rfl
    · exact ((squeeze_neat v (fun c hc => (h1 c hc).2) h3 h4).2 h2 hv).2
  rw [this, unescape_id fun c hc => (h1 c hc).1]

theorem squeeze_word {w : Str} (h : ∀ c ∈ w, blank c = false) (t : Str) : squeeze true false (w ++ t) = w ++ squeeze true false t := by
  induction w with
  | nil => rfl
  | cons c w ih => simp [squeeze, h c (by simp), ih fun d hd => h d (by simp [hd])]

theorem squeeze_first {w : Str} (h : ∀ c ∈ w, blank c = false) (hw : w ≠ []) (t : Str) :
    squeeze false false (w ++ t) = w ++ squeeze true false t := by
  cases w with
  | nil => exact absurd rfl hw
  | cons c w => simp [squeeze, h c (by simp), squeeze_word fun d hd => h d (List.mem_cons_of_mem _ hd)]

theorem squeeze_next {w : Str} (h : ∀ c ∈ w, blank c = false) (hw : w ≠ []) (t : Str) :
    squeeze true false (' ' :: (w ++ t)) = ' ' :: (w ++ squeeze true false t) := by
  rw [squeeze, if_pos (by decide)]
  cases w with
  | nil => exact absurd rfl hw
  | cons c w => simp [squeeze, h c (by simp), squeeze_word fun d hd => h d (List.mem_cons_of_mem _ hd)]

theorem squeeze_rest : ∀ {ws : List Str}, (∀ w ∈ ws, w ≠ [] ∧ ∀ c ∈ w, blank c = false) →
    squeeze true false (ws.flatMap fun w => ' ' :: w) = ws.flatMap fun w => ' ' :: w
  | [], _ => rfl
  | w :: ws, h => by
      rw [List.flatMap_cons, List.cons_append, squeeze_next (h w (by simp)).2 (h w (by simp)).1,
        squeeze_rest fun x hx => h x (List.mem_cons_of_mem _ hx)]

/-- Words with one space between them are shown as they are. -/
theorem shown_words {w : Str} {ws : List Str} (h : ∀ x ∈ w :: ws, x ≠ [] ∧ ∀ c ∈ x, blank c = false ∧ c ≠ '&') :
    shown (w ++ ws.flatMap fun w => ' ' :: w) = w ++ ws.flatMap fun w => ' ' :: w := by
  unfold shown
  rw [squeeze_first (fun c hc => ((h w (by simp)).2 c hc).1) (h w (by simp)).1,
    squeeze_rest fun x hx => ⟨(h x (by simp [hx])).1, fun c hc => ((h x (by simp [hx])).2 c hc).1⟩, unescape_id]
  intro c hc
  rcases List.mem_append.mp hc with hc | hc
  · exact ((h w (by simp)).2 c hc).2
  · obtain ⟨x, hx, hc⟩ := List.mem_flatMap.mp hc
    rcases List.mem_cons.mp hc with rfl | hc
    · decide
    · exact ((h x (by simp [hx])).2 c hc).2

/-! ### Elements -/

theorem elements_skip {name : Str} {a : List (Str × Str)} (h : name ∉ a.map Prod.fst) (b : List (Str × Str)) :
    elements name (a ++ b) = elements name b := by
  replace h : ∀ s ∈ a, s.1 ≠ name := fun s hs e => h (List.mem_map.mpr ⟨s, hs, e⟩)
  induction a with
  | nil => rfl
  | cons s a ih => rw [List.cons_append, elements, if_neg (h s (by simp)), ih fun x hx => h x (by simp [hx])]

theorem takeWhile_close {name : Str} {inner : List (Str × Str)} (h : name ∉ inner.map Prod.fst) (h' : '/' :: name ∉ inner.map Prod.fst)
    {c : Str × Str} (hc : c.1 = '/' :: name) (b : List (Str × Str)) :
    (inner ++ c :: b).takeWhile (fun x => x.1 ≠ name ∧ x.1 ≠ '/' :: name) = inner := by
  induction inner with
  | nil => simp [hc]
  | cons x inner ih =>
      simp only [List.map_cons, List.mem_cons, not_or] at h h'
      rw [List.cons_append, List.takeWhile_cons, if_pos (by simpa using ⟨fun e => h.1 e.symm, fun e => h'.1 e.symm⟩), ih h.2 h'.2]

theorem elements_one {name : Str} {s c : Str × Str} {inner : List (Str × Str)} (hs : s.1 = name) (hc : c.1 = '/' :: name)
    (h : name ∉ inner.map Prod.fst) (h' : '/' :: name ∉ inner.map Prod.fst) (b : List (Str × Str)) :
    elements name (s :: (inner ++ c :: b)) = (s :: inner) :: elements name b := by
  rw [elements, if_pos hs, takeWhile_close h h' hc, elements_skip h, elements, if_neg]
  rw [hc]
  intro e
  have := congrArg List.length e
  simp at this

/-! ### Numbers -/

theorem intercalate_snoc (sep y : Str) : ∀ {xs : List Str}, xs ≠ [] → sep.intercalate (xs ++ [y]) = sep.intercalate xs ++ sep ++ y
  | [], h => absurd rfl h
  | [x], _ => by simp [List.intercalate_cons_cons]
  | x :: x' :: xs, _ => by
      have := intercalate_snoc sep y (xs := x' :: xs) (by simp)
      rw [List.cons_append, List.cons_append, List.intercalate_cons_cons, List.intercalate_cons_cons, ← List.cons_append, this]
      simp

theorem commas_groups : ∀ {d : Str}, d ≠ [] → ∃ first groups, (commas d).reverse = [','].intercalate (first :: groups) ∧
    0 < first.length ∧ first.length ≤ 3 ∧ (∀ g ∈ groups, g.length = 3) ∧ (first :: groups).flatten = d.reverse
  | [], h => absurd rfl h
  | [a], _ => ⟨[a], [], by simp [commas]⟩
  | [a, b], _ => ⟨[b, a], [], by simp [commas]⟩
  | [a, b, c], _ => ⟨[c, b, a], [], by simp [commas]⟩
  | a :: b :: c :: x :: d, _ => by
      obtain ⟨f, gs, h1, h2, h3, h4, h5⟩ := commas_groups (d := x :: d) (by simp)
      refine ⟨f, gs ++ [[c, b, a]], ?_, h2, h3, ?_, ?_⟩
      · rw [← List.cons_append, intercalate_snoc _ _ (by simp), ← h1]
        simp [commas]
      · intro g hg
        rcases List.mem_append.mp hg with hg | hg
        · exact h4 g hg
        · simp at hg
          simp [hg]
      · rw [← List.cons_append, List.flatten_append, h5]
        simp

theorem decimal_zero {n : Nat} (h : (decimal n).head? = some '0') : n = 0 := by
  induction n using Nat.strongRecOn with
  | ind n ih =>
      unfold decimal at h
      by_cases hn : n < 10
      · rw [Nat.toDigits_of_lt_base hn] at h
        exact (by decide : ∀ n < 10, [n.digitChar].head? = some '0' → n = 0) n hn h
      · rw [Nat.toDigits_of_base_le (by decide) (by omega), List.head?_append_of_ne_nil _ Nat.toDigits_ne_nil] at h
        have := ih (n / 10) (by omega) h
        omega

/-- The thousands are separated. -/
theorem thousands_spec (n : Nat) : Thousands n (thousands n) := by
  obtain ⟨f, gs, h1, h2, h3, h4, h5⟩ := commas_groups (d := (decimal n).reverse) (by simp [decimal, Nat.toDigits_ne_nil])
  rw [List.reverse_reverse] at h5
  refine ⟨f, gs, h1, h2, h3, h4, ?_, ?_, ?_⟩
  · intro g hg c hc
    have : c ∈ decimal n := h5 ▸ List.mem_flatten.mpr ⟨g, hg, hc⟩
    exact Nat.isDigit_of_mem_toDigits (by decide) (by decide) this
  · intro hz
    have h0 : n = 0 := by
      apply decimal_zero
      rw [← h5, List.flatten_cons]
      cases f with
      | nil => simp at h2
      | cons x f => simpa using hz
    subst h0
    have : (decimal 0).length = 1 := by decide
    rw [← h5] at this
    cases gs with
    | nil => simp only [List.flatten_cons, List.flatten_nil, List.append_nil] at h5; exact ⟨h5.trans (by decide), rfl⟩
    | cons g gs =>
        have hg := h4 g (by simp)
        simp [List.length_flatten, hg] at this
        omega
  · rw [h5]
    exact Nat.ofDigitChars_ten_toDigits

theorem padded_digits {k n : Nat} (hk : 0 < k) (h : n < 10 ^ k) : Digits k n (padded k n) := by
  have hl : (decimal n).length ≤ k := (Nat.length_toDigits_le_iff (by decide) hk).mpr h
  refine ⟨?_, ?_, ?_⟩
  · simp [padded]
    omega
  · intro c hc
    rcases List.mem_append.mp hc with hc | hc
    · rw [List.eq_of_mem_replicate hc]
      rfl
    · exact Nat.isDigit_of_mem_toDigits (by decide) (by decide) hc
  · rw [padded, Nat.ofDigitChars_append, Nat.ofDigitChars_replicate_zero, Nat.mul_zero]
    exact Nat.ofDigitChars_ten_toDigits

theorem decimal_digits (n : Nat) : Digits (decimal n).length n (decimal n) :=
  ⟨rfl, fun _ hc => Nat.isDigit_of_mem_toDigits (by decide) (by decide) hc, Nat.ofDigitChars_ten_toDigits⟩

/-- The duration is written as days, hours, minutes, seconds and microseconds. -/
theorem timedeltaStr_spec (us : Nat) : Duration us (timedeltaStr us) := by
  refine ⟨us / 1000000 / 60 / 60 / 24, us / 1000000 / 60 / 60 % 24, us / 1000000 / 60 % 60, us / 1000000 % 60, us % 1000000, _, _, _, _, _,
    by omega, by omega, by omega, by omega, by omega, ?_, ?_, padded_digits (by decide) (by omega), padded_digits (by decide) (by omega), ?_,
    rfl⟩
  · split
    · rfl
    · refine ⟨_, _, decimal_digits _, ?_⟩
      split
      · rw [List.append_nil, List.append_assoc]
        rfl
      · rw [List.append_assoc, List.append_assoc]
        rfl
  · have h : us / 1000000 / 60 / 60 % 24 < 24 := by omega
    generalize us / 1000000 / 60 / 60 % 24 = n at h
    have hl : (decimal n).length ≤ 2 := (Nat.length_toDigits_le_iff (by decide) (by decide)).mpr (by omega)
    have hp : 0 < (decimal n).length := Nat.length_toDigits_pos
    have := decimal_digits n
    rcases (show (decimal n).length = 1 ∨ (decimal n).length = 2 by omega) with e | e <;> rw [e] at this
    · exact .inl this
    · exact .inr this
  · split
    · rfl
    · exact ⟨_, padded_digits (by decide) (by omega), rfl⟩

/-- Characters of words of numbers. -/
def wordChar (c : Char) : Bool := !blank c && c != '&' && c != '<'

theorem wordChar_digit {c : Char} (h : c.isDigit = true) : wordChar c = true := by
  have h1 : ∀ d : Char, d.isDigit = false → c ≠ d := by
    rintro d hd rfl
    rw [h] at hd
    cases hd
  simp [wordChar, blank, h1 ' ' (by decide), h1 '\n' (by decide), h1 '\t' (by decide), h1 '\r' (by decide), h1 '\x0c' (by decide),
    h1 '&' (by decide), h1 '<' (by decide)]

theorem wordChar_spec {c : Char} (h : wordChar c = true) : (blank c = false ∧ c ≠ '&') ∧ c ≠ '<' := by
  simpa [wordChar] using h

/-- A text of words: one space between them. -/
def Worded (t : Str) : Prop := ∃ w ws, t = w ++ ws.flatMap (fun w => ' ' :: w) ∧ ∀ x ∈ w :: ws, x ≠ [] ∧ ∀ c ∈ x, wordChar c = true

theorem Worded.shown {t : Str} (h : Worded t) : shown t = t := by
  obtain ⟨w, ws, rfl, h⟩ := h
  exact shown_words fun x hx => ⟨(h x hx).1, fun c hc => (wordChar_spec ((h x hx).2 c hc)).1⟩

theorem Worded.noTag {t : Str} (h : Worded t) : NoTag t := by
  obtain ⟨w, ws, rfl, h⟩ := h
  refine noTag_of fun c hc => ?_
  rcases List.mem_append.mp hc with hc | hc
  · exact (wordChar_spec ((h w (by simp)).2 c hc)).2
  · obtain ⟨x, hx, hc⟩ := List.mem_flatMap.mp hc
    rcases List.mem_cons.mp hc with rfl | hc
    · decide
    · exact (wordChar_spec ((h x (by simp [hx])).2 c hc)).2

theorem worded_word {w : Str} (hw : w ≠ []) (h : ∀ c ∈ w, wordChar c = true) : Worded w :=
  ⟨w, [], by simp, by simpa using ⟨hw, h⟩⟩

theorem thousands_worded (n : Nat) : Worded (thousands n) := by
  have hm : ∀ c ∈ thousands n, c ∈ commas (decimal n).reverse := by simp [thousands]
  have hc : ∀ d : Str, (∀ c ∈ d, c.isDigit = true) → ∀ c ∈ commas d, wordChar c = true := by
    intro d
    induction d using commas.induct with
    | case1 a b c x d ih =>
        intro h y hy
        rw [commas] at hy
        simp only [List.mem_cons] at hy
        rcases hy with rfl | rfl | rfl | rfl | hy
        · exact wordChar_digit (h _ (by simp))
        · exact wordChar_digit (h _ (by simp))
        · exact wordChar_digit (h _ (by simp))
        · decide
        · exact ih (fun z hz => h z (by simp only [List.mem_cons] at hz ⊢; grind)) y hy
    | case2 d hd =>
        intro h y hy
        rw [commas] at hy
        · exact wordChar_digit (h y hy)
        · exact hd
  refine worded_word ?_ fun c h => hc _ (fun c hc => Nat.isDigit_of_mem_toDigits (b := 10) (n := n) (by decide) (by decide) (by simpa [decimal] using hc))
    c (hm c h)
  have : decimal n ≠ [] := Nat.toDigits_ne_nil
  unfold thousands
  intro e
  rw [List.reverse_eq_nil_iff] at e
  obtain ⟨f, gs, h1, h2, -⟩ := commas_groups (d := (decimal n).reverse) (by simpa using this)
  rw [e] at h1
  cases gs with
  | nil => simp at h1; simp [h1] at h2
  | cons g gs => rw [List.intercalate_cons_cons] at h1; simp at h1

theorem decimal_word (n : Nat) : ∀ c ∈ decimal n, wordChar c = true := fun _ hc =>
  wordChar_digit (Nat.isDigit_of_mem_toDigits (by decide) (by decide) hc)

theorem padded_word (k n : Nat) : ∀ c ∈ padded k n, wordChar c = true := by
  intro c hc
  rcases List.mem_append.mp hc with hc | hc
  · rw [List.eq_of_mem_replicate hc]
    rfl
  · exact decimal_word n c hc

theorem timedeltaStr_worded (us : Nat) : Worded (timedeltaStr us) := by
  unfold timedeltaStr
  simp only
  generalize us / 1000000 = seconds
  generalize hdays : seconds / 60 / 60 / 24 = days
  generalize hcore : decimal (seconds / 60 / 60 % 24) ++ ':' :: padded 2 (seconds / 60 % 60) ++ ':' :: padded 2 (seconds % 60) ++
    (if us % 1000000 = 0 then [] else '.' :: padded 6 (us % 1000000)) = core
  have hne : core ≠ [] := by
    rw [← hcore]
    simp
  have hch : ∀ c ∈ core, wordChar c = true := by
    intro c hc
    rw [← hcore] at hc
    simp only [List.mem_append, List.mem_cons] at hc
    rcases hc with ((hc | rfl | hc) | rfl | hc) | hc
    · exact decimal_word _ c hc
    · decide
    · exact padded_word _ _ c hc
    · decide
    · exact padded_word _ _ c hc
    · split at hc
      · cases hc
      · rcases List.mem_cons.mp hc with rfl | hc
        · decide
        · exact padded_word _ _ c hc
  have e : (if days = 0 then [] else decimal days ++ " day".toList ++ (if days = 1 then [] else ['s']) ++ ", ".toList) ++
      decimal (seconds / 60 / 60 % 24) ++ ':' :: padded 2 (seconds / 60 % 60) ++ ':' :: padded 2 (seconds % 60) ++
      (if us % 1000000 = 0 then [] else '.' :: padded 6 (us % 1000000)) =
      (if days = 0 then [] else decimal days ++ " day".toList ++ (if days = 1 then [] else ['s']) ++ ", ".toList) ++ core := by
    rw [← hcore]
    simp only [List.append_assoc, List.cons_append]
  rw [e]
  split
  · exact worded_word hne hch
  · refine ⟨decimal days, [" day".toList.tail ++ (if days = 1 then [] else ['s']) ++ [','], core], ?_, ?_⟩
    · rw [show " day".toList = ' ' :: " day".toList.tail by decide, show ", ".toList = [',', ' '] by decide]
      simp
    · intro x hx
      simp only [List.mem_cons, List.not_mem_nil, or_false] at hx
      rcases hx with rfl | rfl | rfl
      · exact ⟨Nat.toDigits_ne_nil, decimal_word _⟩
      · refine ⟨by simp, ?_⟩
        split <;> decide
      · exact ⟨hne, hch⟩

/-! ### The page -/

/-- The tags and the texts of a row. In the definitions which follow, `next` is the margin of the next line. -/
def rowParts (name value next : Str) : List (Str × Str) := [
  ("tr".toList, "\n          ".toList),
  ("td".toList, "\n            ".toList),
  ("b".toList, name),
  ("/b".toList, "\n          ".toList),
  ("/td".toList, "\n          ".toList),
  ("td".toList, "\n            ".toList ++ (value ++ "\n          ".toList)),
  ("/td".toList, "\n        ".toList),
  ("/tr".toList, "\n".toList ++ next)]

theorem rowText_render (name value next rest : Str) :
    rowText name value ++ (next ++ rest) = "        ".toList ++ (render (rowParts name value next) ++ rest) := by
  simp only [rowText, printLine, rowParts, render, List.flatMap_cons, List.flatMap_nil, List.append_assoc, List.cons_append, List.nil_append]
  rfl

/-- The tags and the texts of the top. -/
def topParts (next : Str) : List (Str × Str) := [
  ("html".toList, "\n  ".toList),
  ("head".toList, "\n    ".toList),
  ("title".toList, "Clustering result".toList),
  ("/title".toList, "\n    ".toList),
  ("style".toList, "\n      td {padding-right: 10px};\n    ".toList),
  ("/style".toList, "\n  ".toList),
  ("/head".toList, "\n  ".toList),
  ("body".toList, "\n    ".toList),
  ("h1".toList, "Clustering result".toList),
  ("/h1".toList, "\n    ".toList),
  ("div".toList, "\n      ".toList),
  ("h2".toList, "Information:".toList),
  ("/h2".toList, "\n      ".toList),
  ("table".toList, "\n".toList ++ next)]

set_option maxRecDepth 4096 in
theorem topText_render (next rest : Str) : topText ++ (next ++ rest) = render (topParts next) ++ rest := by
  simp only [topText, printLine, topParts, render, List.flatMap_cons, List.flatMap_nil, List.append_assoc, List.cons_append, List.nil_append]
  rfl

/-- The tags and the texts between the tables. -/
def middleParts (next : Str) : List (Str × Str) := [
  ("/table".toList, "\n    ".toList),
  ("/div".toList, "\n    ".toList),
  ("div".toList, "\n      ".toList),
  ("h2".toList, "Statistics:".toList),
  ("/h2".toList, "\n      ".toList),
  ("table".toList, "\n".toList ++ next)]

theorem middleText_render (next rest : Str) :
    middleText ++ (next ++ rest) = "      ".toList ++ (render (middleParts next) ++ rest) := by
  simp only [middleText, printLine, middleParts, render, List.flatMap_cons, List.flatMap_nil, List.append_assoc, List.cons_append,
    List.nil_append]
  rfl

/-- The tags and the texts after the tables. -/
def clustersParts (next : Str) : List (Str × Str) := [
  ("/table".toList, "\n    ".toList),
  ("/div".toList, "\n    ".toList),
  ("div".toList, "\n      ".toList),
  ("h2".toList, "Clusters:".toList),
  ("/h2".toList, "\n".toList ++ next)]

theorem clustersText_render (next rest : Str) :
    clustersText ++ (next ++ rest) = "      ".toList ++ (render (clustersParts next) ++ rest) := by
  simp only [clustersText, printLine, clustersParts, render, List.flatMap_cons, List.flatMap_nil, List.append_assoc, List.cons_append,
    List.nil_append]
  rfl

/-- The tags and the texts of the bottom. -/
def bottomParts : List (Str × Str) := [
  ("/div".toList, "\n  ".toList),
  ("/body".toList, "\n".toList),
  ("html".toList, "\n".toList)]

theorem bottomText_render : bottomText = "    ".toList ++ render bottomParts := by decide

/-- The margin before a list which may be empty. -/
def margin {α : Type} (last other : Str) : List α → Str
  | [] => last
  | _ :: _ => other

/-- The tags and the texts of the items. -/
def itemsParts : List Str → List (Str × Str)
  | [] => []
  | v :: vs => ("li".toList, "\n          ".toList ++ (v ++ "\n        ".toList)) ::
      ("/li".toList, "\n".toList ++ margin "      ".toList "        ".toList vs) :: itemsParts vs

theorem itemText_render (v next rest : Str) : itemText v ++ (next ++ rest) = "        ".toList ++
    (render [("li".toList, "\n          ".toList ++ (v ++ "\n        ".toList)), ("/li".toList, "\n".toList ++ next)] ++ rest) := by
  simp only [itemText, printLine, render, List.flatMap_cons, List.flatMap_nil, List.append_assoc, List.cons_append, List.nil_append]
  rfl

theorem render_append (a b : List (Str × Str)) : render (a ++ b) = render a ++ render b := List.flatMap_append

theorem render_two (a b : Str × Str) (l : List (Str × Str)) : render (a :: b :: l) = render [a, b] ++ render l := by
  simp [render]

theorem itemsText_render (vs : List Str) (rest : Str) : vs.flatMap itemText ++ ("      ".toList ++ rest) =
    margin "      ".toList "        ".toList vs ++ (render (itemsParts vs) ++ rest) := by
  induction vs with
  | nil => rfl
  | cons v vs ih =>
      rw [List.flatMap_cons, List.append_assoc, ih, itemText_render, itemsParts, render_two _ _ (itemsParts vs), List.append_assoc]
      rfl

/-- The tags and the texts of a cluster. -/
def clusterParts (heading : Str) (vs : List Str) (next : Str) : List (Str × Str) :=
  ("p".toList, "\n        ".toList ++ (heading ++ "\n      ".toList)) ::
  ("ul".toList, "\n".toList ++ margin "      ".toList "        ".toList vs) ::
  (itemsParts vs ++ [("/ul".toList, "\n      ".toList), ("/p".toList, "\n".toList ++ next)])

/-- The values of a cluster, by decreasing number of rows. -/
def sortedValues (values : Dict Str Nat) (cluster : List Str) : List Str :=
  cluster.mergeSort fun a b => decide (count values b ≤ count values a)

theorem clusterHtml_render (values : Dict Str Nat) (i : Nat) (cluster : List Str) (next rest : Str) :
    clusterHtml values i cluster ++ (next ++ rest) =
      "      ".toList ++ (render (clusterParts (headingText values i cluster) (sortedValues values cluster) next) ++ rest) := by
  have h := itemsText_render (sortedValues values cluster) ("</ul>\n      </p>\n".toList ++ (next ++ rest))
  rw [clusterParts, render_two, render_append, show clusterHtml values i cluster = printLine "      <p>".toList ++
    (printLine ("        ".toList ++ headingText values i cluster) ++ (printLine "      <ul>".toList ++
    ((sortedValues values cluster).flatMap itemText ++ (printLine "      </ul>".toList ++ printLine "      </p>".toList)))) from rfl]
  generalize sortedValues values cluster = vs at h ⊢
  generalize headingText values i cluster = heading
  generalize margin "      ".toList "        ".toList vs = m at h ⊢
  generalize vs.flatMap itemText = items at h ⊢
  generalize render (itemsParts vs) = rendered at h ⊢
  have h1 : "      ".toList ++ ("</ul>\n      </p>\n".toList ++ (next ++ rest)) =
      (printLine "      </ul>".toList ++ printLine "      </p>".toList) ++ (next ++ rest) := by rfl
  rw [h1] at h
  simp only [List.append_assoc] at h ⊢
  rw [h]
  simp only [printLine, render, List.flatMap_cons, List.flatMap_nil, List.append_assoc, List.cons_append, List.nil_append]
  rfl

/-- The tags and the texts of the clusters. -/
def allParts (values : Dict Str Nat) : List (List Str × Nat) → List (Str × Str)
  | [] => []
  | x :: xs => clusterParts (headingText values x.2 x.1) (sortedValues values x.1) (margin "    ".toList "      ".toList xs) ++
      allParts values xs

theorem allText_render (values : Dict Str Nat) (xs : List (List Str × Nat)) (rest : Str) :
    (xs.flatMap fun x => clusterHtml values x.2 x.1) ++ ("    ".toList ++ rest) =
      margin "    ".toList "      ".toList xs ++ (render (allParts values xs) ++ rest) := by
  induction xs with
  | nil => rfl
  | cons x xs ih =>
      rw [List.flatMap_cons, List.append_assoc, ih, clusterHtml_render, allParts, render_append, List.append_assoc]
      rfl

/-- The tags and the texts of the page. -/
def pageParts (date algorithm took : Str) (lines : Nat) (values : Dict Str Nat) (clusters : List (List Str)) : List (Str × Str) :=
  topParts "        ".toList ++ rowParts "Date".toList date "        ".toList ++ rowParts "Algorithm used".toList algorithm "      ".toList ++
  middleParts "        ".toList ++ rowParts "Lines".toList (thousands lines) "        ".toList ++
  rowParts "Distinct values".toList (thousands values.length) "        ".toList ++
  rowParts "Found clusters".toList (thousands clusters.length) "        ".toList ++ rowParts "Took".toList took "      ".toList ++
  clustersParts (margin "    ".toList "      ".toList clusters.zipIdx) ++ allParts values clusters.zipIdx ++ bottomParts

theorem report_render (date algorithm : Str) (took : Rat) (lines : Nat) (values : Dict Str Nat) (clusters : List (List Str)) :
    printHtmlReport date algorithm took lines values clusters = render (pageParts date algorithm (tookText took) lines values clusters) := by
  unfold printHtmlReport pageParts
  rw [bottomText_render]
  simp only [List.append_assoc, render_append]
  rw [allText_render, clustersText_render, rowText_render "Took".toList, rowText_render "Found clusters".toList,
    rowText_render "Distinct values".toList, rowText_render "Lines".toList, middleText_render, rowText_render "Algorithm used".toList,
    rowText_render "Date".toList, topText_render]

/-! ### Reading the page -/

theorem blank_not {c : Char} (h : blank c = true) : c ≠ '<' := by
  rintro rfl
  revert h
  decide

theorem good_blank {name text : Str} (h : name.head?.any opens = true) (h' : ∀ c ∈ name, c ≠ '>') (ht : ∀ c ∈ text, blank c = true) :
    GoodPart (name, text) := ⟨h, h', noTag_of fun c hc => blank_not (ht c hc)⟩

theorem good_text {name text : Str} (h : name.head?.any opens = true) (h' : ∀ c ∈ name, c ≠ '>') (ht : ∀ c ∈ text, c ≠ '<') :
    GoodPart (name, text) := ⟨h, h', noTag_of ht⟩

theorem good_wrap {name a v b : Str} (h : name.head?.any opens = true) (h' : ∀ c ∈ name, c ≠ '>') (ha : ∀ c ∈ a, c ≠ '<') (hv : NoTag v)
    (hb : ∀ c ∈ b, c ≠ '<') (hb' : b.head?.any opens = false) : GoodPart (name, a ++ (v ++ b)) := ⟨h, h', noTag_wrap ha hv hb hb'⟩

theorem blank_newline {next : Str} (h : ∀ c ∈ next, blank c = true) : ∀ c ∈ "\n".toList ++ next, blank c = true := by
  intro c hc
  rcases List.mem_append.mp hc with hc | hc
  · exact (by decide : ∀ c ∈ "\n".toList, blank c = true) c hc
  · exact h c hc

theorem blank_margin {α : Type} {last other : Str} (h : ∀ c ∈ last, blank c = true) (h' : ∀ c ∈ other, blank c = true) (l : List α) :
    ∀ c ∈ margin last other l, blank c = true := by
  cases l with
  | nil => exact h
  | cons x l => exact h'

theorem topParts_good {next : Str} (h : ∀ c ∈ next, blank c = true) : ∀ p ∈ topParts next, GoodPart p := by
  unfold topParts
  simp only [List.forall_mem_cons, List.not_mem_nil, false_imp_iff, implies_true, and_true]
  exact ⟨good_text (by decide) (by decide) (by decide), good_text (by decide) (by decide) (by decide),
    good_text (by decide) (by decide) (by decide), good_text (by decide) (by decide) (by decide),
    good_text (by decide) (by decide) (by decide), good_text (by decide) (by decide) (by decide),
    good_text (by decide) (by decide) (by decide), good_text (by decide) (by decide) (by decide),
    good_text (by decide) (by decide) (by decide), good_text (by decide) (by decide) (by decide),
    good_text (by decide) (by decide) (by decide), good_text (by decide) (by decide) (by decide),
    good_text (by decide) (by decide) (by decide), good_blank (by decide) (by decide) (blank_newline h)⟩

theorem middleParts_good {next : Str} (h : ∀ c ∈ next, blank c = true) : ∀ p ∈ middleParts next, GoodPart p := by
  unfold middleParts
  simp only [List.forall_mem_cons, List.not_mem_nil, false_imp_iff, implies_true, and_true]
  exact ⟨good_text (by decide) (by decide) (by decide), good_text (by decide) (by decide) (by decide),
    good_text (by decide) (by decide) (by decide), good_text (by decide) (by decide) (by decide),
    good_text (by decide) (by decide) (by decide), good_blank (by decide) (by decide) (blank_newline h)⟩

theorem clustersParts_good {next : Str} (h : ∀ c ∈ next, blank c = true) : ∀ p ∈ clustersParts next, GoodPart p := by
  unfold clustersParts
  simp only [List.forall_mem_cons, List.not_mem_nil, false_imp_iff, implies_true, and_true]
  exact ⟨good_text (by decide) (by decide) (by decide), good_text (by decide) (by decide) (by decide),
    good_text (by decide) (by decide) (by decide), good_text (by decide) (by decide) (by decide),
    good_blank (by decide) (by decide) (blank_newline h)⟩

theorem bottomParts_good : ∀ p ∈ bottomParts, GoodPart p := by
  unfold bottomParts
  simp only [List.forall_mem_cons, List.not_mem_nil, false_imp_iff, implies_true, and_true]
  exact ⟨good_text (by decide) (by decide) (by decide), good_text (by decide) (by decide) (by decide),
    good_text (by decide) (by decide) (by decide)⟩

theorem rowParts_good {name value next : Str} (hn : ∀ c ∈ name, c ≠ '<') (hv : NoTag value) (h : ∀ c ∈ next, blank c = true) :
    ∀ p ∈ rowParts name value next, GoodPart p := by
  unfold rowParts
  simp only [List.forall_mem_cons, List.not_mem_nil, false_imp_iff, implies_true, and_true]
  exact ⟨good_text (by decide) (by decide) (by decide), good_text (by decide) (by decide) (by decide),
    good_text (by decide) (by decide) hn, good_text (by decide) (by decide) (by decide), good_text (by decide) (by decide) (by decide),
    good_wrap (by decide) (by decide) (by decide) hv (by decide) (by decide), good_text (by decide) (by decide) (by decide),
    good_blank (by decide) (by decide) (blank_newline h)⟩

theorem itemsParts_good : ∀ {vs : List Str}, (∀ v ∈ vs, NoTag v) → ∀ p ∈ itemsParts vs, GoodPart p
  | [], _ => by simp [itemsParts]
  | v :: vs, h => by
      unfold itemsParts
      simp only [List.forall_mem_cons]
      exact ⟨good_wrap (by decide) (by decide) (by decide) (h v (by simp)) (by decide) (by decide),
        good_blank (by decide) (by decide) (blank_newline (blank_margin (by decide) (by decide) vs)),
        itemsParts_good fun w hw => h w (by simp [hw])⟩

theorem clusterParts_good {heading next : Str} {vs : List Str} (hh : NoTag heading) (hv : ∀ v ∈ vs, NoTag v)
    (h : ∀ c ∈ next, blank c = true) : ∀ p ∈ clusterParts heading vs next, GoodPart p := by
  unfold clusterParts
  simp only [List.forall_mem_cons, List.forall_mem_append, List.not_mem_nil, false_imp_iff, implies_true, and_true]
  exact ⟨good_wrap (by decide) (by decide) (by decide) hh (by decide) (by decide),
    good_blank (by decide) (by decide) (blank_newline (blank_margin (by decide) (by decide) vs)), itemsParts_good hv,
    good_text (by decide) (by decide) (by decide), good_blank (by decide) (by decide) (blank_newline h)⟩

/-- The text before the values of a cluster. -/
theorem heading_words (i k r : Nat) :
    Worded ("Cluster n°".toList ++ decimal i ++ " (".toList ++ decimal k ++ " unique values, ".toList ++ decimal r ++
      " affected rows):".toList) := by
  have hw : ∀ n, ∀ c ∈ decimal n, wordChar c = true := decimal_word
  have hd : ∀ n, decimal n ≠ [] := fun n => Nat.toDigits_ne_nil
  have h1 := hw i; have h2 := hw k; have h3 := hw r
  have e1 := hd i; have e3 := hd r
  clear hw hd
  generalize decimal i = a at h1 e1 ⊢
  generalize decimal k = b at h2 ⊢
  generalize decimal r = c at h3 e3 ⊢
  rw [show "Cluster n°".toList = "Cluster".toList ++ ' ' :: "n°".toList by decide, show " (".toList = [' ', '('] by decide,
    show " unique values, ".toList = ' ' :: ("unique".toList ++ ' ' :: ("values,".toList ++ [' '])) by decide,
    show " affected rows):".toList = ' ' :: ("affected".toList ++ ' ' :: "rows):".toList) by decide]
  refine ⟨"Cluster".toList, ["n°".toList ++ a, '(' :: b, "unique".toList, "values,".toList, c, "affected".toList, "rows):".toList], ?_, ?_⟩
  · simp only [List.flatMap_cons, List.flatMap_nil, List.append_assoc, List.cons_append, List.nil_append, List.append_nil]
  · simp only [List.forall_mem_cons, List.not_mem_nil, false_imp_iff, implies_true, and_true, List.forall_mem_append]
    exact ⟨⟨by decide, by decide⟩, ⟨by simp, by decide, h1⟩, ⟨by simp, by decide, h2⟩, ⟨by decide, by decide⟩,
      ⟨by decide, by decide⟩, ⟨e3, h3⟩, ⟨by decide, by decide⟩, by decide, by decide⟩

theorem heading_worded (values : Dict Str Nat) (i : Nat) (cluster : List Str) : Worded (headingText values i cluster) :=
  heading_words _ _ _

theorem allParts_good (values : Dict Str Nat) : ∀ {xs : List (List Str × Nat)}, (∀ x ∈ xs, ∀ v ∈ x.1, NoTag v) →
    ∀ p ∈ allParts values xs, GoodPart p
  | [], _ => by simp [allParts]
  | x :: xs, h => by
      unfold allParts
      simp only [List.forall_mem_append]
      refine ⟨clusterParts_good (heading_worded values x.2 x.1).noTag (fun v hv => ?_) (blank_margin (by decide) (by decide) xs),
        allParts_good values fun y hy => h y (by simp [hy])⟩
      exact h x (by simp) v ((List.mergeSort_perm _ _).mem_iff.mp hv)

/-- The sections of a row. -/
def rowSections (name value : Str) : List (Str × Str) := [
  ("tr".toList, "\n          ".toList),
  ("td".toList, "\n            ".toList),
  ("b".toList, name),
  ("/b".toList, "\n          ".toList),
  ("/td".toList, "\n          ".toList),
  ("td".toList, "\n            ".toList ++ (value ++ "\n          ".toList)),
  ("/td".toList, "\n        ".toList)]

theorem elements_row (name value next : Str) (b : List (Str × Str)) :
    elements "tr".toList (rowParts name value next ++ b) = rowSections name value :: elements "tr".toList b :=
  elements_one (name := "tr".toList) (inner := (rowSections name value).tail) (c := ("/tr".toList, "\n".toList ++ next)) rfl rfl
    (show _ ∉ (rowSections [] []).tail.map Prod.fst by decide) (show _ ∉ (rowSections [] []).tail.map Prod.fst by decide) b

theorem cells_row (name value : Str) : (elements "td".toList (rowSections name value)).map content = [shown name, shown value] := by
  have h1 : elements "td".toList (rowSections name value) =
      [[("td".toList, "\n            ".toList), ("b".toList, name), ("/b".toList, "\n          ".toList)],
        [("td".toList, "\n            ".toList ++ (value ++ "\n          ".toList))]] := rfl
  rw [h1]
  simp only [List.map_cons, List.map_nil, content, List.flatMap_cons, List.flatMap_nil, List.append_nil]
  rw [shown_wrap (by decide) (by decide), shown_wrap (by decide) (by decide)]

theorem clusterParts_fst (heading next : Str) (vs : List Str) : (clusterParts heading vs next).map Prod.fst =
    "p".toList :: "ul".toList :: ((itemsParts vs).map Prod.fst ++ ["/ul".toList, "/p".toList]) := by
  simp [clusterParts]

theorem itemsParts_fst (vs : List Str) : ∀ x ∈ (itemsParts vs).map Prod.fst, x = "li".toList ∨ x = "/li".toList := by
  induction vs with
  | nil => simp [itemsParts]
  | cons v vs ih =>
      unfold itemsParts
      simp only [List.map_cons, List.forall_mem_cons, true_or, or_true, true_and]
      exact ih

theorem itemsParts_not {name : Str} (h : name ≠ "li".toList) (h' : name ≠ "/li".toList) (vs : List Str) :
    name ∉ (itemsParts vs).map Prod.fst := fun hm => (itemsParts_fst vs name hm).elim h h'

theorem elements_items (vs : List Str) (s : Str × Str) (hs : s.1 ≠ "li".toList) :
    (elements "li".toList (s :: itemsParts vs)).map content = vs.map shown := by
  rw [elements, if_neg hs]
  induction vs with
  | nil => rfl
  | cons v vs ih =>
      have := elements_one (name := "li".toList) (s := ("li".toList, "\n          ".toList ++ (v ++ "\n        ".toList)))
        (c := ("/li".toList, "\n".toList ++ margin "      ".toList "        ".toList vs)) (inner := []) rfl rfl (by simp) (by simp)
        (itemsParts vs)
      rw [itemsParts]
      rw [List.nil_append] at this
      rw [this, List.map_cons, ih, List.map_cons]
      simp only [content, List.flatMap_cons, List.flatMap_nil, List.append_nil]
      rw [shown_wrap (by decide) (by decide)]

theorem elements_clusters (values : Dict Str Nat) (xs : List (List Str × Nat)) (b : List (Str × Str)) :
    (elements "ul".toList (allParts values xs ++ b)).map (fun l => (elements "li".toList l).map content) =
      xs.map (fun x => (sortedValues values x.1).map shown) ++
        (elements "ul".toList b).map (fun l => (elements "li".toList l).map content) := by
  induction xs with
  | nil => rfl
  | cons x xs ih =>
      generalize hm : margin "    ".toList "      ".toList xs = next
      rw [allParts, clusterParts, hm]
      have := elements_one (name := "ul".toList)
        (s := ("ul".toList, "\n".toList ++ margin "      ".toList "        ".toList (sortedValues values x.1)))
        (c := ("/ul".toList, "\n      ".toList)) (inner := itemsParts (sortedValues values x.1)) rfl rfl
        (itemsParts_not (by decide) (by decide) _) (itemsParts_not (by decide) (by decide) _)
        (("/p".toList, "\n".toList ++ next) :: (allParts values xs ++ b))
      simp only [List.cons_append, List.append_assoc, List.nil_append]
      rw [elements, if_neg (show "p".toList ≠ "ul".toList by decide), this, elements,
        if_neg (show "/p".toList ≠ "ul".toList by decide), List.map_cons, ih,
        elements_items _ _ (show "ul".toList ≠ "li".toList by decide)]
      rfl

theorem paragraphs_clusters (values : Dict Str Nat) (xs : List (List Str × Nat)) :
    ((allParts values xs).filter fun s => s.1 = "p".toList).map (fun s => shown s.2) =
      xs.map fun x => headingText values x.2 x.1 := by
  induction xs with
  | nil => rfl
  | cons x xs ih =>
      have hi : (itemsParts (sortedValues values x.1)).filter (fun s => decide (s.1 = "p".toList)) = [] := by
        rw [List.filter_eq_nil_iff]
        intro s hs
        have := itemsParts_not (name := "p".toList) (by decide) (by decide) (sortedValues values x.1)
        simp only [decide_eq_true_eq]
        exact fun e => this (List.mem_map.mpr ⟨s, hs, e⟩)
      have keep : ∀ {n : Str} (t : Str) (l : List (Str × Str)), n = "p".toList →
          ((n, t) :: l).filter (fun s => decide (s.1 = "p".toList)) = (n, t) :: l.filter (fun s => decide (s.1 = "p".toList)) :=
        fun t l h => List.filter_cons_of_pos (by simpa using h)
      have drop : ∀ {n : Str} (t : Str) (l : List (Str × Str)), n ≠ "p".toList →
          ((n, t) :: l).filter (fun s => decide (s.1 = "p".toList)) = l.filter (fun s => decide (s.1 = "p".toList)) :=
        fun t l h => List.filter_cons_of_neg (by simpa using h)
      rw [allParts, clusterParts, List.filter_append, List.map_append, ih, keep _ _ rfl, drop _ _ (by decide), List.filter_append, hi,
        drop _ _ (by decide), drop _ _ (by decide)]
      simp only [List.filter_nil, List.append_nil, List.map_cons, List.map_nil, List.cons_append, List.nil_append]
      rw [shown_wrap (by decide) (by decide), (heading_worded values x.2 x.1).shown]

theorem forall₂_map_self {α β : Type} {R : α → β → Prop} {f : α → β} (h : ∀ x, R x (f x)) (l : List α) : List.Forall₂ R l (l.map f) := by
  induction l with
  | nil => exact .nil
  | cons x l ih => exact .cons (h x) ih

theorem sortedValues_spec (values : Dict Str Nat) (cluster : List Str) :
    (sortedValues values cluster).Perm cluster ∧
      (sortedValues values cluster).Pairwise (fun v w => count values w ≤ count values v) ∧
      ∀ n, (sortedValues values cluster).filter (fun v => count values v = n) = cluster.filter fun v => count values v = n := by
  have ht : ∀ a b c : Str, decide (count values b ≤ count values a) = true → decide (count values c ≤ count values b) = true →
      decide (count values c ≤ count values a) = true := by
    intro a b c
    simp only [decide_eq_true_eq]
    omega
  have hs : ∀ a b : Str, (decide (count values b ≤ count values a) || decide (count values a ≤ count values b)) = true := by
    intro a b
    simp only [Bool.or_eq_true, decide_eq_true_eq]
    omega
  refine ⟨List.mergeSort_perm _ _, ?_, fun n => ?_⟩
  · have := List.pairwise_mergeSort ht hs cluster
    simp only [decide_eq_true_eq] at this
    exact this
  · have hsub : (cluster.filter fun v => count values v = n).Sublist (sortedValues values cluster) := by
      refine List.sublist_mergeSort ht hs ?_ List.filter_sublist
      rw [List.pairwise_filter]
      refine List.pairwise_iff_forall_sublist.mpr fun {a b} _ ha hb => ?_
      simp only [decide_eq_true_eq] at ha hb ⊢
      omega
    have hf := hsub.filter fun v => decide (count values v = n)
    rw [List.filter_filter] at hf
    simp only [Bool.and_self] at hf
    refine (hf.eq_of_length ?_).symm
    exact (((List.mergeSort_perm cluster _).filter _).length_eq).symm

theorem allParts_fst (values : Dict Str Nat) (xs : List (List Str × Nat)) : ∀ x ∈ (allParts values xs).map Prod.fst,
    x ∈ ["p".toList, "ul".toList, "li".toList, "/li".toList, "/ul".toList, "/p".toList] := by
  induction xs with
  | nil => simp [allParts]
  | cons y xs ih =>
      intro x hx
      rw [allParts, List.map_append, clusterParts_fst, List.mem_append, List.mem_cons, List.mem_cons, List.mem_append] at hx
      rcases hx with (rfl | rfl | hx | hx) | hx
      · decide
      · decide
      · rcases itemsParts_fst _ x hx with rfl | rfl <;> decide
      · simp only [List.mem_cons, List.not_mem_nil, or_false] at hx
        rcases hx with rfl | rfl <;> decide
      · exact ih x hx

theorem skip_top {name : Str} (h : name ∉ (topParts []).map Prod.fst) (next : Str) (b : List (Str × Str)) :
    elements name (topParts next ++ b) = elements name b := elements_skip (a := topParts next) h b

theorem skip_middle {name : Str} (h : name ∉ (middleParts []).map Prod.fst) (next : Str) (b : List (Str × Str)) :
    elements name (middleParts next ++ b) = elements name b := elements_skip (a := middleParts next) h b

theorem skip_clusters {name : Str} (h : name ∉ (clustersParts []).map Prod.fst) (next : Str) (b : List (Str × Str)) :
    elements name (clustersParts next ++ b) = elements name b := elements_skip (a := clustersParts next) h b

theorem skip_row {name : Str} (h : name ∉ (rowParts [] [] []).map Prod.fst) (n v next : Str) (b : List (Str × Str)) :
    elements name (rowParts n v next ++ b) = elements name b := elements_skip (a := rowParts n v next) h b

theorem page_report {date algorithm : Str} (hd : NoTag date) (ha : NoTag algorithm) (took : Rat) (lines : Nat)
    (values : Dict Str Nat) {clusters : List (List Str)} (hv : ∀ c ∈ clusters, ∀ v ∈ c, NoTag v) :
    page (printHtmlReport date algorithm took lines values clusters) =
      pageParts date algorithm (tookText took) lines values clusters := by
  rw [report_render]
  refine page_render ?_
  unfold pageParts
  have hx : ∀ x ∈ clusters.zipIdx, ∀ v ∈ x.1, NoTag v := fun x hx => hv x.1 (List.fst_mem_of_mem_zipIdx hx)
  simp only [List.forall_mem_append]
  exact ⟨⟨⟨⟨⟨⟨⟨⟨⟨⟨topParts_good (by decide), rowParts_good (by decide) hd (by decide)⟩, rowParts_good (by decide) ha (by decide)⟩,
    middleParts_good (by decide)⟩, rowParts_good (by decide) (thousands_worded _).noTag (by decide)⟩,
    rowParts_good (by decide) (thousands_worded _).noTag (by decide)⟩, rowParts_good (by decide) (thousands_worded _).noTag (by decide)⟩,
    rowParts_good (by decide) (timedeltaStr_worded _).noTag (by decide)⟩, clustersParts_good (blank_margin (by decide) (by decide) _)⟩,
    allParts_good values hx⟩, bottomParts_good⟩

theorem roundEven_spec {x : Rat} (hx : 0 ≤ x) :
    x - roundEven x ≤ 1 / 2 ∧ (roundEven x : Rat) - x ≤ 1 / 2 ∧ (x - roundEven x = 1 / 2 ∨ (roundEven x : Rat) - x = 1 / 2 → roundEven x % 2 = 0) := by
  have h0 : (0 : Int) ≤ x.floor := Rat.le_floor_iff.mpr (by simpa using hx)
  have hf : ((x.floor.toNat : Nat) : Rat) = (x.floor : Rat) := by
    exact_mod_cast Int.toNat_of_nonneg h0
  have h1 := Rat.floor_le (a := x)
  have h2 := Rat.lt_floor_add_one (a := x)
  push_cast at h2
  have hs : (roundEven x = x.floor.toNat ∧ x - x.floor.toNat < 1 / 2) ∨ (roundEven x = x.floor.toNat + 1 ∧ 1 / 2 < x - x.floor.toNat) ∨
      (roundEven x = x.floor.toNat ∧ x - x.floor.toNat = 1 / 2 ∧ x.floor.toNat % 2 = 0) ∨
      (roundEven x = x.floor.toNat + 1 ∧ x - x.floor.toNat = 1 / 2 ∧ x.floor.toNat % 2 ≠ 0) := by
    unfold roundEven
    simp only
    split
    · exact .inl ⟨rfl, by assumption⟩
    · split
      · exact .inr (.inl ⟨rfl, by assumption⟩)
      · have he : x - x.floor.toNat = 1 / 2 := by
          have := not_lt.mp ‹¬ x - x.floor.toNat < 1 / 2›
          have := not_lt.mp ‹¬ 1 / 2 < x - x.floor.toNat›
          linarith
        split
        · exact .inr (.inr (.inl ⟨rfl, he, by assumption⟩))
        · exact .inr (.inr (.inr ⟨rfl, he, by assumption⟩))
  rcases hs with ⟨e, h⟩ | ⟨e, h⟩ | ⟨e, h, hm⟩ | ⟨e, h, hm⟩
  · rw [e, hf] at *
    refine ⟨by linarith, by linarith, ?_⟩
    rintro (h3 | h3) <;> exfalso <;> linarith
  · rw [hf] at h
    have e' : (roundEven x : Rat) = x.floor + 1 := by rw [e]; push_cast; rw [hf]
    rw [e']
    refine ⟨by linarith, by linarith, ?_⟩
    rintro (h3 | h3) <;> exfalso <;> linarith
  · rw [hf] at h
    have e' : (roundEven x : Rat) = x.floor := by rw [e, hf]
    rw [e']
    exact ⟨by linarith, by linarith, fun _ => by rw [e]; exact hm⟩
  · rw [hf] at h
    have e' : (roundEven x : Rat) = x.floor + 1 := by rw [e]; push_cast; rw [hf]
    rw [e']
    exact ⟨by linarith, by linarith, fun _ => by omega⟩

/-- **C94**: a reader of HTML finds in the report what was written: in the tables the date, the algorithm, the numbers of rows, of distinct
values and of clusters with separated thousands and a duration; then for each cluster its number from one, its size and its number of rows, and
the list of its values by decreasing number of rows, those of equal numbers in the order of the cluster. The values must not begin a tag, and
are found as they are shown. The duration is that of the time in seconds taken for microseconds. -/
theorem html_report_read {date algorithm : Str} (hd : NoTag date) (ha : NoTag algorithm) {took : Rat} (ht : 0 ≤ took) (lines : Nat)
    (values : Dict Str Nat) {clusters : List (List Str)} (hv : ∀ c ∈ clusters, ∀ v ∈ c, NoTag v) :
    ∃ (nLines nValues nClusters duration : Str) (us : Nat) (sorted : List (List Str)),
      Thousands lines nLines ∧ Thousands values.length nValues ∧ Thousands clusters.length nClusters ∧
      Duration us duration ∧ took - us ≤ 1 / 2 ∧ us - took ≤ 1 / 2 ∧ (took - us = 1 / 2 ∨ us - took = 1 / 2 → us % 2 = 0) ∧
      List.Forall₂ (fun c s => s.Perm c ∧ s.Pairwise (fun v w => count values w ≤ count values v) ∧
        ∀ n, s.filter (fun v => count values v = n) = c.filter fun v => count values v = n) clusters sorted ∧
      rows (printHtmlReport date algorithm took lines values clusters) = [
        ["Date".toList, shown date],
        ["Algorithm used".toList, shown algorithm],
        ["Lines".toList, nLines],
        ["Distinct values".toList, nValues],
        ["Found clusters".toList, nClusters],
        ["Took".toList, duration]] ∧
      paragraphs (printHtmlReport date algorithm took lines values clusters) = (clusters.zipIdx.map fun x =>
        "Cluster n°".toList ++ Nat.toDigits 10 (x.2 + 1) ++ " (".toList ++ Nat.toDigits 10 x.1.length ++ " unique values, ".toList ++
          Nat.toDigits 10 (x.1.map (count values)).sum ++ " affected rows):".toList) ∧
      lists (printHtmlReport date algorithm took lines values clusters) = sorted.map fun s => s.map shown := by
  have hp := page_report hd ha took lines values hv
  refine ⟨_, _, _, _, _, clusters.map (sortedValues values), thousands_spec _, thousands_spec _, thousands_spec _, timedeltaStr_spec _,
    (roundEven_spec ht).1, (roundEven_spec ht).2.1, (roundEven_spec ht).2.2, forall₂_map_self (f := sortedValues values) (sortedValues_spec values) clusters, ?_, ?_, ?_⟩
  · unfold rows
    rw [hp]
    unfold pageParts
    simp only [List.append_assoc]
    rw [skip_top (by decide), elements_row, elements_row,
      skip_middle (by decide), elements_row, elements_row, elements_row, elements_row,
      skip_clusters (by decide),
      elements_skip fun h => absurd (allParts_fst values _ _ h) (by decide)]
    simp only [List.map_cons, cells_row]
    rw [(thousands_worded _).shown, (thousands_worded _).shown, (thousands_worded _).shown, tookText, (timedeltaStr_worded _).shown,
      show elements "tr".toList bottomParts = [] by decide]
    rfl
  · unfold paragraphs
    rw [hp]
    unfold pageParts
    simp only [List.filter_append, List.map_append]
    rw [paragraphs_clusters]
    exact (List.append_nil _).trans rfl
  · unfold lists
    rw [hp]
    unfold pageParts
    simp only [List.append_assoc]
    rw [skip_top (by decide), skip_row (by decide),
      skip_row (by decide), skip_middle (by decide),
      skip_row (by decide), skip_row (by decide),
      skip_row (by decide), skip_row (by decide),
      skip_clusters (by decide), elements_clusters,
      show elements "ul".toList bottomParts = [] by decide, List.map_nil, List.append_nil, List.map_map]
    have : clusters.zipIdx.map (fun x => (sortedValues values x.1).map shown) =
        (clusters.zipIdx.map Prod.fst).map fun c => (sortedValues values c).map shown := by
      rw [List.map_map]
      rfl
    rw [this, List.zipIdx_map_fst]
    rfl

theorem sortedValues_one (values : Dict Str Nat) (v : Str) : sortedValues values [v] = [v] := by
  simp [sortedValues]

theorem sortedValues_two (values : Dict Str Nat) (v w : Str) :
    sortedValues values [v, w] = if count values w ≤ count values v then [v, w] else [w, v] := by
  simp [sortedValues, List.mergeSort, List.MergeSort.Internal.splitInTwo, List.merge]

-- A report with two clusters, one of whose values holds a `<` which begins no tag.
example : NoTag "2026-11-16".toList ∧ NoTag "fingerprint_collision".toList ∧ (0 : Rat) ≤ 3 / 2 ∧
    (∀ c ∈ [["a < b".toList, "b a <".toList], ["x".toList, "X".toList]], ∀ v ∈ c, NoTag v) ∧
    lists (printHtmlReport "2026-11-16".toList "fingerprint_collision".toList (3 / 2) 1234567
      [("a < b".toList, 1), ("b a <".toList, 3), ("x".toList, 1), ("X".toList, 1)]
      [["a < b".toList, "b a <".toList], ["x".toList, "X".toList]]) =
        [["b a <".toList, "a < b".toList], ["x".toList, "X".toList]] := by
  have h1 : NoTag "2026-11-16".toList := noTag_of (by decide)
  have h2 : NoTag "fingerprint_collision".toList := noTag_of (by decide)
  have h3 : ∀ c ∈ [["a < b".toList, "b a <".toList], ["x".toList, "X".toList]], ∀ v ∈ c, NoTag v := by decide
  refine ⟨h1, h2, by norm_num, h3, ?_⟩
  simp only [report_render, pageParts, List.zipIdx_cons, List.zipIdx_nil, allParts, sortedValues_two]
  decide +kernel

/-- When moreover the values are neat (no `&`, single spaces, none at both ends), the lists hold the values themselves. -/
theorem html_report_neat {date algorithm : Str} (hd : NoTag date) (ha : NoTag algorithm) {took : Rat} (ht : 0 ≤ took) (lines : Nat)
    (values : Dict Str Nat) {clusters : List (List Str)} (hv : ∀ c ∈ clusters, ∀ v ∈ c, NoTag v ∧ Neat v) :
    List.Forall₂ (fun c s => s.Perm c ∧ s.Pairwise fun v w => count values w ≤ count values v) clusters
      (lists (printHtmlReport date algorithm took lines values clusters)) := by
  obtain ⟨_, _, _, _, _, sorted, -, -, -, -, -, -, -, hs, -, -, hl⟩ :=
    html_report_read hd ha ht lines values fun c hc v h => (hv c hc v h).1
  rw [hl]
  clear hl
  induction hs with
  | nil => exact .nil
  | @cons c s clusters sorted h _ ih =>
      have hid : s.map shown = s := by
        conv_rhs => rw [← List.map_id s]
        exact List.map_congr_left fun v h' => shown_neat (hv c (by simp) v (h.1.mem_iff.mp h')).2
      rw [List.map_cons, hid]
      exact .cons ⟨h.1, h.2.1⟩ (ih fun c hc => hv c (by simp [hc]))

example : ∀ c ∈ [["a < b".toList, "b a <".toList], ["x".toList, "X".toList]], ∀ v ∈ c, NoTag v ∧ Neat v := by decide

/-- The duration shown is not the time taken, as soon as it is of two microseconds or more: it is not within half a microsecond of it. -/
theorem html_took_wrong {took : Rat} (h : 2 / 1000000 ≤ took) : 1 / 2 < took * 1000000 - roundEven took := by
  have := (roundEven_spec (x := took) (by linarith)).2.1
  linarith

/-- One minute and a half is shown as ninety microseconds. -/
theorem html_took_ninety : tookText 90 = "0:00:00.000090".toList ∧ timedeltaStr (90 * 1000000) = "0:01:30".toList := by
  decide +kernel

/-- The page is not closed: the last tag is a second opening tag. -/
theorem html_not_closed {date algorithm : Str} (hd : NoTag date) (ha : NoTag algorithm) (took : Rat) (lines : Nat)
    (values : Dict Str Nat) {clusters : List (List Str)} (hv : ∀ c ∈ clusters, ∀ v ∈ c, NoTag v) :
    "/html".toList ∉ (page (printHtmlReport date algorithm took lines values clusters)).map Prod.fst ∧
      (page (printHtmlReport date algorithm took lines values clusters)).getLast? = some ("html".toList, ['\n']) := by
  rw [page_report hd ha took lines values hv]
  unfold pageParts
  refine ⟨?_, by rw [List.getLast?_append]; rfl⟩
  simp only [List.map_append, List.mem_append, not_or]
  exact ⟨⟨⟨⟨⟨⟨⟨⟨⟨⟨show _ ∉ (topParts []).map Prod.fst by decide, show _ ∉ (rowParts [] [] []).map Prod.fst by decide⟩,
    show _ ∉ (rowParts [] [] []).map Prod.fst by decide⟩, show _ ∉ (middleParts []).map Prod.fst by decide⟩,
    show _ ∉ (rowParts [] [] []).map Prod.fst by decide⟩, show _ ∉ (rowParts [] [] []).map Prod.fst by decide⟩,
    show _ ∉ (rowParts [] [] []).map Prod.fst by decide⟩, show _ ∉ (rowParts [] [] []).map Prod.fst by decide⟩,
    show _ ∉ (clustersParts []).map Prod.fst by decide⟩, fun h => absurd (allParts_fst values _ _ h) (by decide)⟩, by decide⟩

/-- A value with a tag adds an item to the list of its cluster. -/
theorem html_tag_item : lists (printHtmlReport "2026-11-16".toList "fingerprint_collision".toList 0 2 [("a<li>b".toList, 2)]
    [["a<li>b".toList]]) = [["a".toList, "b".toList]] := by
  simp only [report_render, pageParts, List.zipIdx_cons, List.zipIdx_nil, allParts, sortedValues_one]
  decide +kernel

/-- A value with a closing tag ends the list of its cluster. -/
theorem html_tag_list : lists (printHtmlReport "2026-11-16".toList "fingerprint_collision".toList 0 4 [("a".toList, 2), ("</ul>".toList, 3)]
    [["a".toList, "</ul>".toList]]) = [[[]]] := by
  simp only [report_render, pageParts, List.zipIdx_cons, List.zipIdx_nil, allParts, sortedValues_two]
  decide +kernel

/-- Two values are shown as the same. -/
theorem html_same : shown "a &lt; b".toList = shown "a < b".toList ∧ shown "a  b".toList = shown "a b".toList := by decide

end Fog.Props
