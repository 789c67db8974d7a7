import Verif.Model.Words
import Verif.Spec.Smileys

/-!
# C92: which smileys are found
-/

namespace Fog.Props

open Words Spec

theorem noseThen_exact {last : List Char} (hd : ∀ c ∈ last, c ∉ noses) (k : Nat) (rest : List Char) (n : Nat) :
    noseThen last k rest = some n ↔
      (∃ m t, rest = m :: t ∧ m ∈ last ∧ n = k + 1) ∨ ∃ o m t, rest = o :: m :: t ∧ o ∈ noses ∧ m ∈ last ∧ n = k + 2 := by
  cases rest with
  | nil => simp [noseThen]
  | cons o rest =>
      unfold noseThen
      by_cases ho : o ∈ noses
      · have ho' : o ∉ last := fun h => hd o h ho
        simp only [if_pos ho, if_neg ho']
        cases rest with
        | nil => simp [ho']
        | cons m t =>
            simp only [List.head?_cons]
            by_cases hm : m ∈ last
            · simp only [if_pos hm, Option.some.injEq]
              constructor
              · intro h; exact Or.inr ⟨o, m, t, rfl, ho, hm, h.symm⟩
              · rintro (⟨a, b, h1, h2, h3⟩ | ⟨a, b, c, h1, h2, h3, h4⟩)
                · injection h1 with h1 _; subst h1; exact absurd h2 ho'
                · exact h4.symm
            · simp only [if_neg hm]
              constructor
              · intro h; cases h
              · rintro (⟨a, b, h1, h2, h3⟩ | ⟨a, b, c, h1, h2, h3, h4⟩)
                · injection h1 with h1 _; subst h1; exact absurd h2 ho'
                · injection h1 with _ h1; injection h1 with h1 _; subst h1; exact absurd h3 hm
      · simp only [if_neg ho]
        by_cases hm : o ∈ last
        · simp only [if_pos hm, Option.some.injEq]
          constructor
          · intro h; exact Or.inl ⟨o, rest, rfl, hm, h.symm⟩
          · rintro (⟨a, b, h1, h2, h3⟩ | ⟨a, b, c, h1, h2, h3, h4⟩)
            · exact h3.symm
            · injection h1 with h1 _; subst h1; exact absurd h2 ho
        · simp only [if_neg hm]
          constructor
          · intro h; cases h
          · rintro (⟨a, b, h1, h2, h3⟩ | ⟨a, b, c, h1, h2, h3, h4⟩)
            · injection h1 with h1 _; subst h1; exact absurd h2 hm
            · injection h1 with h1 _; subst h1; exact absurd h2 ho

theorem eyes_nose : ∀ c ∈ eyes, c ∉ noses := by decide
theorem mouths_nose : ∀ c ∈ mouths, c ∉ noses := by decide
theorem eyes_other : ∀ c ∈ eyes, c ≠ '-' ∧ c ≠ '<' ∧ c ≠ '>' := by decide
theorem mouths_other : ∀ c ∈ mouths, c ≠ '-' ∧ c ≠ '<' ∧ c ≠ '>' := by decide

theorem takeWhile_dashes (n : Nat) {t : List Char} (h : t.head? ≠ some '-') :
    (List.replicate n '-' ++ t).takeWhile (· == '-') = List.replicate n '-' := by
  induction n with
  | zero =>
      cases t with
      | nil => rfl
      | cons c t =>
          have : (c == '-') = false := by simpa using h
          simp [this]
  | succ n ih => rw [List.replicate_succ, List.cons_append, List.takeWhile_cons]; simp [ih]

theorem dashes_split (s : List Char) : ∃ n t, s = List.replicate n '-' ++ t ∧ t.head? ≠ some '-' := by
  induction s with
  | nil => exact ⟨0, [], rfl, by simp⟩
  | cons c s ih =>
      by_cases hc : c = '-'
      · obtain ⟨n, t, h1, h2⟩ := ih
        exact ⟨n + 1, t, by rw [h1, hc]; rfl, h2⟩
      · exact ⟨0, c :: s, rfl, by simpa using hc⟩

/-! ### The alternatives -/

/-- `[\-]+>`. -/
def arrowAlt (s : List Char) : Option Nat :=
  if 1 ≤ (s.takeWhile (· == '-')).length ∧ s[(s.takeWhile (· == '-')).length]? = some '>' then some ((s.takeWhile (· == '-')).length + 1) else none

/-- `<[\-]+`. -/
def backAlt (s : List Char) : Option Nat :=
  match s with
  | '<' :: rest => if 1 ≤ (rest.takeWhile (· == '-')).length then some ((rest.takeWhile (· == '-')).length + 1) else none
  | _ => none

/-- How long `[<>]?` is. -/
def hatLen (s : List Char) : Nat :=
  match s with
  | c :: _ => if c = '<' ∨ c = '>' then 1 else 0
  | [] => 0

/-- A face. -/
def rightAlt (s : List Char) : Option Nat :=
  match s.drop (hatLen s) with
  | c :: rest => if c ∈ eyes then noseThen mouths (hatLen s + 1) rest else none
  | [] => none

/-- A face in the other direction. -/
def leftAlt (s : List Char) : Option Nat :=
  match s with
  | c :: rest => if c ∈ mouths then noseThen eyes 1 rest else none
  | [] => none

/-- `[<:]3`. -/
def heartAlt (s : List Char) : Option Nat :=
  match s with
  | c :: d :: _ => if (c = '<' ∨ c = ':') ∧ d = '3' then some 2 else none
  | _ => none

/-- `\^\^`. -/
def hatsAlt (s : List Char) : Option Nat :=
  match s with
  | '^' :: '^' :: _ => some 2
  | _ => none

theorem smileyRe_alternatives (s : List Char) :
    smileyRe s = (arrowAlt s <|> backAlt s <|> rightAlt s <|> leftAlt s <|> heartAlt s <|> hatsAlt s) := rfl

theorem arrowAlt_iff (s : List Char) (n : Nat) :
    arrowAlt s = some n ↔ ∃ k t, s = List.replicate (k + 1) '-' ++ '>' :: t ∧ n = k + 2 := by
  obtain ⟨k, t, rfl, ht⟩ := dashes_split s
  unfold arrowAlt
  rw [takeWhile_dashes k ht, List.length_replicate, List.getElem?_append_right (by simp), List.length_replicate, Nat.sub_self]
  constructor
  · intro h
    split at h
    · next hc =>
        obtain ⟨h1, h2⟩ := hc
        injection h with h
        cases t with
        | nil => simp at h2
        | cons c t =>
            simp only [List.getElem?_cons_zero, Option.some.injEq] at h2
            obtain ⟨k, rfl⟩ : ∃ j, k = j + 1 := ⟨k - 1, by omega⟩
            exact ⟨k, t, by rw [h2], h.symm⟩
    · cases h
  · rintro ⟨j, t', h, rfl⟩
    have h1 := congrArg (fun l => (l.takeWhile (· == '-')).length) h
    simp only [takeWhile_dashes k ht, takeWhile_dashes (j + 1) (t := '>' :: t') (by simp), List.length_replicate] at h1
    subst h1
    rw [List.append_cancel_left h]
    simp

theorem backAlt_iff (s : List Char) (n : Nat) :
    backAlt s = some n ↔ ∃ k t, s = '<' :: (List.replicate (k + 1) '-' ++ t) ∧ t.head? ≠ some '-' ∧ n = k + 2 := by
  unfold backAlt
  constructor
  · intro h
    split at h
    · next rest =>
        obtain ⟨k, t, rfl, ht⟩ := dashes_split rest
        rw [takeWhile_dashes k ht, List.length_replicate] at h
        split at h
        · injection h with h
          obtain ⟨k, rfl⟩ : ∃ j, k = j + 1 := ⟨k - 1, by omega⟩
          exact ⟨k, t, rfl, ht, h.symm⟩
        · cases h
    · cases h
  · rintro ⟨k, t, rfl, ht, rfl⟩
    simp only [takeWhile_dashes (k + 1) ht, List.length_replicate]
    rw [if_pos (by omega)]

theorem rightAlt_iff (s : List Char) (n : Nat) : rightAlt s = some n ↔
    ∃ hat e r, s = hat ++ e :: r ∧ (hat = [] ∨ hat = ['<'] ∨ hat = ['>']) ∧ e ∈ eyes ∧ noseThen mouths (hat.length + 1) r = some n := by
  constructor
  · intro h
    cases s with
    | nil => simp [rightAlt, hatLen] at h
    | cons c s =>
        by_cases hc : c = '<' ∨ c = '>'
        · simp only [rightAlt, hatLen, if_pos hc, List.drop_succ_cons, List.drop_zero] at h
          cases s with
          | nil => cases h
          | cons e r =>
              simp only at h
              split at h
              · next he => exact ⟨[c], e, r, rfl, by rcases hc with rfl | rfl <;> simp, he, h⟩
              · cases h
        · simp only [rightAlt, hatLen, if_neg hc, List.drop_zero] at h
          split at h
          · next he => exact ⟨[], c, s, rfl, Or.inl rfl, he, h⟩
          · cases h
  · rintro ⟨hat, e, r, rfl, hhat, he, h⟩
    obtain ⟨_, e2, e3⟩ := eyes_other e he
    rcases hhat with rfl | rfl | rfl
    · simp only [List.nil_append, rightAlt, hatLen, e2, e3, or_self, if_false, List.drop_zero, if_pos he]; exact h
    · simp only [List.cons_append, List.nil_append, rightAlt, hatLen, true_or, if_true, List.drop_succ_cons, List.drop_zero, if_pos he]; exact h
    · simp only [List.cons_append, List.nil_append, rightAlt, hatLen, or_true, if_true, List.drop_succ_cons, List.drop_zero, if_pos he]; exact h

theorem leftAlt_iff (s : List Char) (n : Nat) : leftAlt s = some n ↔ ∃ m r, s = m :: r ∧ m ∈ mouths ∧ noseThen eyes 1 r = some n := by
  cases s with
  | nil => simp [leftAlt]
  | cons m r =>
      unfold leftAlt
      by_cases hm : m ∈ mouths
      · simp only [if_pos hm]
        constructor
        · intro h; exact ⟨m, r, rfl, hm, h⟩
        · rintro ⟨a, b, h1, _, h2⟩; injection h1 with _ h1; rw [h1]; exact h2
      · simp only [if_neg hm]
        constructor
        · intro h; cases h
        · rintro ⟨a, b, h1, h2, _⟩; injection h1 with h1 _; exact absurd (h1 ▸ h2) hm

theorem heartAlt_iff (s : List Char) (n : Nat) : heartAlt s = some n ↔ ∃ c t, s = c :: '3' :: t ∧ (c = '<' ∨ c = ':') ∧ n = 2 := by
  unfold heartAlt
  constructor
  · intro h
    split at h
    · next c d t =>
        split at h
        · next hc => injection h with h; exact ⟨c, t, by rw [hc.2], hc.1, h.symm⟩
        · cases h
    · cases h
  · rintro ⟨c, t, rfl, hc, rfl⟩
    simp [hc]

theorem hatsAlt_iff (s : List Char) (n : Nat) : hatsAlt s = some n ↔ ∃ t, s = '^' :: '^' :: t ∧ n = 2 := by
  unfold hatsAlt
  constructor
  · intro h
    split at h
    · next t => injection h with h; exact ⟨t, rfl, h.symm⟩
    · cases h
  · rintro ⟨t, rfl, rfl⟩; rfl

theorem orElse_some {a b : Option Nat} {n : Nat} (h : (a <|> b) = some n) : a = some n ∨ b = some n := by
  cases a with
  | none => exact Or.inr h
  | some x => exact Or.inl h

theorem orElse_ne {a b : Option Nat} (h : a ≠ none ∨ b ≠ none) : (a <|> b) ≠ none := by
  cases a with
  | none =>
      rcases h with h | h
      · exact absurd rfl h
      · exact h
  | some x => simp

theorem take_append_length {l t : List Char} {n : Nat} (h : n = l.length) : (l ++ t).take n = l := by
  rw [h]; simp

/-- What is found is a smiley. -/
theorem smiley_sound {s : List Char} {n : Nat} (h : smileyRe s = some n) : n ≤ s.length ∧ Smiley (s.take n) := by
  have nose : ∀ {last k r n}, (∀ c ∈ last, c ∉ noses) → noseThen last k r = some n →
      ∃ nose m t, r = nose ++ m :: t ∧ (nose = [] ∨ ∃ c, Nose c ∧ nose = [c]) ∧ m ∈ last ∧ n = k + nose.length + 1 := by
    intro last k r n hd h
    rcases (noseThen_exact hd k r n).mp h with ⟨m, t, rfl, hm, rfl⟩ | ⟨o, m, t, rfl, ho, hm, rfl⟩
    · exact ⟨[], m, t, rfl, Or.inl rfl, hm, rfl⟩
    · exact ⟨[o], m, t, rfl, Or.inr ⟨o, ho, rfl⟩, hm, rfl⟩
  have fin : ∀ {w t : List Char}, Smiley w → n = w.length → n ≤ (w ++ t).length ∧ Smiley ((w ++ t).take n) := by
    intro w t hw hn
    rw [take_append_length hn]
    exact ⟨by simp [hn], hw⟩
  rw [smileyRe_alternatives] at h
  rcases orElse_some h with h | h
  · obtain ⟨k, t, rfl, hn⟩ := (arrowAlt_iff s n).mp h
    have := fin (t := t) (Smiley.right_arrow k) (by simp [hn])
    simpa using this
  rcases orElse_some h with h | h
  · obtain ⟨k, t, rfl, _, hn⟩ := (backAlt_iff s n).mp h
    exact fin (t := t) (Smiley.left_arrow k) (by simp [hn])
  rcases orElse_some h with h | h
  · obtain ⟨hat, e, r, rfl, hhat, he, h⟩ := (rightAlt_iff s n).mp h
    obtain ⟨no, m, t, rfl, hno, hm, hn⟩ := nose mouths_nose h
    have := fin (t := t) (Smiley.face hhat he hno hm) (by simp [hn]; omega)
    simpa using this
  rcases orElse_some h with h | h
  · obtain ⟨m, r, rfl, hm, h⟩ := (leftAlt_iff s n).mp h
    obtain ⟨no, e, t, rfl, hno, he, hn⟩ := nose eyes_nose h
    have := fin (t := t) (Smiley.reversed hm hno he) (by simp [hn]; omega)
    simpa using this
  rcases orElse_some h with h | h
  · obtain ⟨c, t, rfl, hc, hn⟩ := (heartAlt_iff s n).mp h
    rcases hc with rfl | rfl
    · exact fin (t := t) Smiley.heart hn
    · exact fin (t := t) Smiley.kiss hn
  · obtain ⟨t, rfl, hn⟩ := (hatsAlt_iff s n).mp h
    exact fin (t := t) Smiley.hats hn

theorem arrowAlt_none {c : Char} {s : List Char} (h : c ≠ '-') : arrowAlt (c :: s) = none := by
  rw [Option.eq_none_iff_forall_ne_some]
  intro n hn
  obtain ⟨k, t, h', _⟩ := (arrowAlt_iff _ n).mp hn
  rw [List.replicate_succ, List.cons_append] at h'
  injection h' with h' _
  exact h h'

theorem backAlt_none {c : Char} {s : List Char} (h : c ≠ '<' ∨ s.head? ≠ some '-') : backAlt (c :: s) = none := by
  rw [Option.eq_none_iff_forall_ne_some]
  intro n hn
  obtain ⟨k, t, h', _⟩ := (backAlt_iff _ n).mp hn
  rw [List.replicate_succ, List.cons_append] at h'
  injection h' with h1 h2
  rcases h with h | h
  · exact h h1
  · rw [h2] at h; exact h rfl

/-- The match is the one of any alternative. -/
theorem smileyRe_of {s : List Char} {n : Nat} (h : arrowAlt s = some n ∨ backAlt s = some n ∨ rightAlt s = some n ∨ leftAlt s = some n ∨
    heartAlt s = some n ∨ hatsAlt s = some n) : smileyRe s = some n := by
  have step : ∀ {a b : Option Nat}, a = none → b = some n → (a <|> b) = some n := by
    intro a b ha hb; rw [ha]; exact hb
  have first : ∀ {a b : Option Nat}, a = some n → (a <|> b) = some n := by
    intro a b ha; rw [ha]; rfl
  rw [smileyRe_alternatives]
  rcases h with h | h | h | h | h | h
  · exact first h
  · refine step ?_ (first h)
    obtain ⟨k, t, rfl, _⟩ := (backAlt_iff _ n).mp h
    exact arrowAlt_none (by decide)
  · obtain ⟨hat, e, r, rfl, hhat, he, h'⟩ := (rightAlt_iff _ n).mp h
    obtain ⟨e1, e2, e3⟩ := eyes_other e he
    refine step ?_ (step ?_ (first h))
    · rcases hhat with rfl | rfl | rfl
      · exact arrowAlt_none e1
      · exact arrowAlt_none (by decide)
      · exact arrowAlt_none (by decide)
    · rcases hhat with rfl | rfl | rfl
      · exact backAlt_none (Or.inl e2)
      · exact backAlt_none (Or.inr (by simpa using e1))
      · exact backAlt_none (Or.inl (by decide))
  · obtain ⟨m, r, rfl, hm, h'⟩ := (leftAlt_iff _ n).mp h
    obtain ⟨e1, e2, e3⟩ := mouths_other m hm
    refine step (arrowAlt_none e1) (step (backAlt_none (Or.inl e2)) ?_)
    cases hr : rightAlt (m :: r) with
    | none => exact step rfl (first h)
    | some n' =>
        refine first ?_
        obtain ⟨hat, e, r', hs, hhat, he, h''⟩ := (rightAlt_iff _ n').mp hr
        rcases hhat with rfl | rfl | rfl
        · injection hs with hs1 hs2
          subst hs1 hs2
          congr 1
          rcases (noseThen_exact eyes_nose _ _ _).mp h' with ⟨a, t, rfl, ha, rfl⟩ | ⟨o, a, t, rfl, ho, ha, rfl⟩ <;>
            rcases (noseThen_exact mouths_nose _ _ _).mp h'' with ⟨a', t', ht, ha', rfl⟩ | ⟨o', a', t', ht, ho', ha', rfl⟩
          · rfl
          · injection ht with ht _; subst ht; exact absurd ho' (eyes_nose _ ha)
          · injection ht with ht _; subst ht; exact absurd ho (mouths_nose _ ha')
          · rfl
        · injection hs with hs _; exact absurd hs e2
        · injection hs with hs _; exact absurd hs e3
  · obtain ⟨c, t, rfl, hc, hn⟩ := (heartAlt_iff _ n).mp h
    refine step (arrowAlt_none (by rcases hc with rfl | rfl <;> decide)) (step (backAlt_none (Or.inr (by simp))) (step ?_ (step ?_ (first h))))
    · rw [Option.eq_none_iff_forall_ne_some]
      intro n' hr
      obtain ⟨hat, e, r', hs, hhat, he, h''⟩ := (rightAlt_iff _ n').mp hr
      have he' : e ≠ '3' ∧ e ≠ '<' ∧ e ≠ '>' := (show ∀ c ∈ eyes, c ≠ '3' ∧ c ≠ '<' ∧ c ≠ '>' by decide) e he
      rcases hhat with rfl | rfl | rfl
      · injection hs with hs1 hs2
        subst hs2
        rcases (noseThen_exact mouths_nose _ _ _).mp h'' with ⟨a', t', ht, ha', rfl⟩ | ⟨o', a', t', ht, ho', ha', rfl⟩
        · injection ht with ht _; subst ht; exact absurd ha' (by decide)
        · injection ht with ht _; subst ht; exact absurd ho' (by decide)
      · injection hs with _ hs; injection hs with hs _; exact he'.1 hs.symm
      · injection hs with _ hs; injection hs with hs _; exact he'.1 hs.symm
    · rw [Option.eq_none_iff_forall_ne_some]
      intro n' hr
      obtain ⟨m, r, hs, hm, h'⟩ := (leftAlt_iff _ n').mp hr
      injection hs with hs1 hs2
      subst hs2
      rcases (noseThen_exact eyes_nose _ _ _).mp h' with ⟨a', t', ht, ha', rfl⟩ | ⟨o', a', t', ht, ho', ha', rfl⟩
      · injection ht with ht _; subst ht; exact absurd ha' (by decide)
      · injection ht with ht _; subst ht; exact absurd ho' (by decide)
  · obtain ⟨t, rfl, hn⟩ := (hatsAlt_iff _ n).mp h
    refine step (arrowAlt_none (by decide)) (step (backAlt_none (Or.inl (by decide))) (step ?_ (step ?_ (step ?_ h))))
    · rw [Option.eq_none_iff_forall_ne_some]
      intro n' hr
      obtain ⟨hat, e, r', hs, hhat, he, h''⟩ := (rightAlt_iff _ n').mp hr
      rcases hhat with rfl | rfl | rfl
      · injection hs with hs _; subst hs; exact absurd he (by decide)
      · injection hs with hs _; exact absurd hs (by decide)
      · injection hs with hs _; exact absurd hs (by decide)
    · rfl
    · rfl

/-- **C92**: what is found is the longest smiley which begins the text, and nothing is found exactly when no smiley begins it. -/
theorem smiley_exact (s : List Char) :
    (∀ n, smileyRe s = some n ↔ n ≤ s.length ∧ Smiley (s.take n) ∧ ∀ m ≤ s.length, Smiley (s.take m) → m ≤ n) ∧
    (smileyRe s = none ↔ ∀ m ≤ s.length, ¬ Smiley (s.take m)) := by
  -- Whatever smiley begins the text, the match is at least as long.
  have complete : ∀ {w t : List Char}, Smiley w → s = w ++ t → ∃ n, smileyRe s = some n ∧ w.length ≤ n := by
    have nose : ∀ {last k no m t}, (∀ c ∈ last, c ∉ noses) → (no = [] ∨ ∃ c, Nose c ∧ no = [c]) → m ∈ last →
        noseThen last k (no ++ m :: t) = some (k + no.length + 1) := by
      intro last k no m t hd hno hm
      rw [noseThen_exact hd]
      rcases hno with rfl | ⟨c, hc, rfl⟩
      · exact Or.inl ⟨m, t, rfl, hm, rfl⟩
      · exact Or.inr ⟨c, m, t, rfl, hc, hm, rfl⟩
    intro w t hw hs
    cases hw with
    | right_arrow k => exact ⟨k + 2, smileyRe_of (Or.inl ((arrowAlt_iff _ _).mpr ⟨k, t, by simpa using hs, rfl⟩)), by simp⟩
    | left_arrow k =>
        obtain ⟨j, t', rfl, ht'⟩ := dashes_split t
        refine ⟨k + j + 2, smileyRe_of (Or.inr (Or.inl ((backAlt_iff _ _).mpr ⟨k + j, t', ?_, ht', rfl⟩))), by simp⟩
        rw [hs, List.cons_append, ← List.append_assoc, List.replicate_append_replicate]
        congr 3
        omega
    | @face hat no e m hhat he hno hm =>
        refine ⟨hat.length + 1 + no.length + 1, smileyRe_of (Or.inr (Or.inr (Or.inl ((rightAlt_iff _ _).mpr
          ⟨hat, e, no ++ m :: t, by simpa using hs, hhat, he, nose mouths_nose hno hm⟩)))), by simp; omega⟩
    | @reversed no e m hm hno he =>
        refine ⟨1 + no.length + 1, smileyRe_of (Or.inr (Or.inr (Or.inr (Or.inl ((leftAlt_iff _ _).mpr
          ⟨m, no ++ e :: t, by simpa using hs, hm, nose eyes_nose hno he⟩))))), by simp; omega⟩
    | heart => exact ⟨2, smileyRe_of (Or.inr (Or.inr (Or.inr (Or.inr (Or.inl ((heartAlt_iff _ _).mpr ⟨'<', t, hs, by simp, rfl⟩)))))), by simp⟩
    | kiss => exact ⟨2, smileyRe_of (Or.inr (Or.inr (Or.inr (Or.inr (Or.inl ((heartAlt_iff _ _).mpr ⟨':', t, hs, by simp, rfl⟩)))))), by simp⟩
    | hats => exact ⟨2, smileyRe_of (Or.inr (Or.inr (Or.inr (Or.inr (Or.inr ((hatsAlt_iff _ _).mpr ⟨t, hs, rfl⟩)))))), by simp⟩
  have complete' : ∀ m ≤ s.length, Smiley (s.take m) → ∃ n, smileyRe s = some n ∧ m ≤ n := by
    intro m hm hw
    obtain ⟨n, h1, h2⟩ := complete hw (List.take_append_drop m s).symm
    exact ⟨n, h1, by rw [List.length_take] at h2; omega⟩
  constructor
  · intro n
    constructor
    · intro h
      obtain ⟨h1, h2⟩ := smiley_sound h
      refine ⟨h1, h2, ?_⟩
      intro m hm hw
      obtain ⟨n', h3, h4⟩ := complete' m hm hw
      rw [h] at h3
      injection h3 with h3
      omega
    · rintro ⟨h1, h2, h3⟩
      obtain ⟨n', h4, h5⟩ := complete' n h1 h2
      obtain ⟨h6, h7⟩ := smiley_sound h4
      have := h3 n' h6 h7
      rw [h4]
      congr 1
      omega
  · constructor
    · intro h m hm hw
      obtain ⟨n, h1, _⟩ := complete' m hm hw
      rw [h] at h1
      cases h1
    · intro h
      rw [Option.eq_none_iff_forall_ne_some]
      intro n hn
      obtain ⟨h1, h2⟩ := smiley_sound hn
      exact h n h1 h2

example : smileyRe ":-) !".toList = some 3 ∧ smileyRe ">8o(".toList = some 4 ∧ smileyRe "<--- 3".toList = some 4 ∧
    smileyRe ":3".toList = some 2 ∧ smileyRe ": )".toList = none := by decide +kernel

end Fog.Props
