import Verif.Props.Fingerprint
import Mathlib.Tactic.IntervalCases

/-!
# C96: which texts have the same fingerprint
-/

namespace Fog.Props

open Fingerprint Spec

variable (u : Unicode)

theorem cleanWords_word (o : Options) {s w : List Char} (h : w ∈ cleanWords u o s) : w ≠ [] ∧ ∀ c ∈ w, u.isSpace c = false := by
  obtain ⟨x, hx, rfl⟩ := List.mem_map.mp h
  obtain ⟨x1, x2⟩ := mem_words hx
  unfold squeezed
  split
  · refine ⟨subRuns_ne_nil _ x1, fun c hc => (x2 c (subRuns_mem _ _ c hc)).1⟩
  · exact ⟨x1, fun c hc => (x2 c hc).1⟩

/-- The words of a key are the words of the text. -/
theorem words_key (hsp : u.isSpace ' ' = true) (o : Options) (s w : List Char) :
    w ∈ words u.isSpace (key u o s) ↔ w ∈ cleanWords u o s := by
  obtain ⟨_, h⟩ := fingerprint_tokens u o s
  unfold key
  rw [words_intercalate u.isSpace hsp]
  · simp only [List.mem_filter, h, decide_eq_true_eq]
    constructor
    · rintro ⟨h1 | ⟨_, h1⟩, h2⟩
      · exact h1
      · exact absurd h1 h2
    · intro h1
      exact ⟨Or.inl h1, (cleanWords_word u o h1).1⟩
  · intro w hw c hc
    rcases (h w).mp hw with h1 | ⟨_, rfl⟩
    · exact (cleanWords_word u o h1).2 c hc
    · simp at hc

/-- **C96**: two texts have the same fingerprint exactly when they have the same words, once cleaned. -/
theorem fingerprint_key_iff (hsp : u.isSpace ' ' = true) (o : Options) (s t : List Char) :
    key u o s = key u o t ↔ ∀ w, w ∈ cleanWords u o s ↔ w ∈ cleanWords u o t := by
  constructor
  · intro h w
    rw [← words_key u hsp, h, words_key u hsp]
  · intro h
    exact (fingerprint_same u o h).2

/-- The grams of a text: all its pieces of `n` characters, or the text itself when it is shorter. -/
def IsGram (n : Nat) (text g : List Char) : Prop := (text.length < n ∧ g = text) ∨ ∃ i, i + n ≤ text.length ∧ g = (text.drop i).take n

theorem flatten_inj {n : Nat} (hn : 0 < n) : ∀ {l l' : List (List Char)}, (∀ g ∈ l, g.length = n) → (∀ g ∈ l', g.length = n) →
    l.flatten = l'.flatten → l = l' := by
  intro l
  induction l with
  | nil =>
      intro l' _ h' h
      cases l' with
      | nil => rfl
      | cons g l' =>
          have hg := h' g (by simp)
          rw [List.flatten_nil, List.flatten_cons, eq_comm, List.append_eq_nil_iff] at h
          rw [h.1] at hg
          simp at hg
          omega
  | cons g l ih =>
      intro l' h0 h' h
      cases l' with
      | nil =>
          have hg := h0 g (by simp)
          rw [List.flatten_nil, List.flatten_cons, List.append_eq_nil_iff] at h
          rw [h.1] at hg
          simp at hg
          omega
      | cons g' l' =>
          rw [List.flatten_cons, List.flatten_cons] at h
          obtain ⟨h1, h2⟩ := List.append_inj h (by rw [h0 g (by simp), h' g' (by simp)])
          rw [h1, ih (fun x hx => h0 x (by simp [hx])) (fun x hx => h' x (by simp [hx])) h2]

/-- The tokens of a text are one text shorter than the grams, or grams of the right size. -/
theorem ngramsTokenize_shape (o : Options) (n : Nat) (s : List Char) :
    (∃ g, g.length < n ∧ ngramsTokenize u o n s = [g]) ∨ (ngramsTokenize u o n s ≠ [] ∧ ∀ g ∈ ngramsTokenize u o n s, g.length = n) := by
  obtain ⟨h1, h2⟩ := ngrams_fingerprint_tokens u o n s
  simp only at h2
  rcases Nat.lt_or_ge (cleanWords u o s).flatten.length n with hl | hl
  · left
    refine ⟨_, hl, sorted_ext h1 (by simp) fun t => ?_⟩
    rw [h2, List.mem_singleton]
    constructor
    · rintro (⟨_, h⟩ | ⟨i, hi, _⟩)
      · exact h
      · omega
    · intro h; exact Or.inl ⟨hl, h⟩
  · right
    constructor
    · intro h
      have := (h2 ((cleanWords u o s).flatten.take n)).mpr (Or.inr ⟨0, by omega, by simp⟩)
      rw [h] at this
      simp at this
    · intro g hg
      rcases (h2 g).mp hg with ⟨h, _⟩ | ⟨i, hi, rfl⟩
      · omega
      · rw [List.length_take, List.length_drop]; omega

/-- **C96**: two texts have the same n-gram fingerprint exactly when they have the same grams, once cleaned and without spaces. -/
theorem ngrams_fingerprint_key_iff (o : Options) {n : Nat} (hn : 0 < n) (s t : List Char) :
    ngramsKey u o n s = ngramsKey u o n t ↔
      ∀ g, IsGram n (cleanWords u o s).flatten g ↔ IsGram n (cleanWords u o t).flatten g := by
  obtain ⟨a1, a2⟩ := ngrams_fingerprint_tokens u o n s
  obtain ⟨b1, b2⟩ := ngrams_fingerprint_tokens u o n t
  have key : ngramsTokenize u o n s = ngramsTokenize u o n t ↔
      ∀ g, IsGram n (cleanWords u o s).flatten g ↔ IsGram n (cleanWords u o t).flatten g := by
    constructor
    · intro h g
      exact (a2 g).symm.trans ((by rw [h] : g ∈ ngramsTokenize u o n s ↔ g ∈ ngramsTokenize u o n t).trans (b2 g))
    · intro h
      exact sorted_ext a1 b1 fun g => (a2 g).trans ((h g).trans (b2 g).symm)
  rw [← key]
  constructor
  · intro h
    unfold ngramsKey at h
    have long : ∀ {l : List (List Char)} {g : List Char}, l ≠ [] → (∀ g ∈ l, g.length = n) → g.length < n → l.flatten ≠ g := by
      intro l g h1 h2 h3 h4
      obtain ⟨x, l, rfl⟩ := List.exists_cons_of_ne_nil h1
      have := congrArg List.length h4
      rw [List.flatten_cons, List.length_append, h2 x (by simp)] at this
      omega
    rcases ngramsTokenize_shape u o n s with ⟨g, h1, h2⟩ | ⟨h1, h2⟩ <;> rcases ngramsTokenize_shape u o n t with ⟨g', h3, h4⟩ | ⟨h3, h4⟩
    · rw [h2, h4] at h
      simp only [List.flatten_cons, List.flatten_nil, List.append_nil] at h
      rw [h2, h4, h]
    · rw [h2, List.flatten_cons, List.flatten_nil, List.append_nil] at h
      exact absurd h.symm (long h3 h4 h1)
    · rw [h4, List.flatten_cons, List.flatten_nil, List.append_nil] at h
      exact absurd h (long h1 h2 h3)
    · exact flatten_inj hn h2 h4 h
  · intro h
    unfold ngramsKey
    rw [h]

/-- **C96**: with grams of no character all texts collide. -/
theorem ngrams_fingerprint_key_zero (o : Options) (s : List Char) : ngramsKey u o 0 s = [] := by
  rcases ngramsTokenize_shape u o 0 s with ⟨g, h1, _⟩ | ⟨_, h2⟩
  · omega
  · unfold ngramsKey
    rw [List.flatten_eq_nil_iff]
    intro g hg
    exact List.length_eq_zero_iff.mp (h2 g hg)

-- Two texts with the same words in another order, and a text with other words.
example : cleanWords ascii {} "b a, b".toList = ["b".toList, "a".toList, "b".toList] ∧ cleanWords ascii {} "A B".toList = ["a".toList, "b".toList] ∧
    cleanWords ascii {} "ab".toList = ["ab".toList] := by decide +kernel

-- Two texts with the same grams of two characters.
example : ngramsKey ascii {} 2 "ABC ab".toList = ngramsKey ascii {} 2 "bca, bc".toList := by
  rw [ngrams_fingerprint_key_iff ascii {} (by decide)]
  have h1 : (cleanWords ascii {} "ABC ab".toList).flatten = "abcab".toList := by decide +kernel
  have h2 : (cleanWords ascii {} "bca, bc".toList).flatten = "bcabc".toList := by decide +kernel
  rw [h1, h2]
  intro g
  constructor
  · rintro (⟨h, _⟩ | ⟨i, hi, rfl⟩)
    · simp at h
    · right
      have : i < 4 := by simp at hi; omega
      interval_cases i
      · exact ⟨2, by decide, by decide⟩
      · exact ⟨0, by decide, by decide⟩
      · exact ⟨1, by decide, by decide⟩
      · exact ⟨2, by decide, by decide⟩
  · rintro (⟨h, _⟩ | ⟨i, hi, rfl⟩)
    · simp at h
    · right
      have : i < 4 := by simp at hi; omega
      interval_cases i
      · exact ⟨1, by decide, by decide⟩
      · exact ⟨2, by decide, by decide⟩
      · exact ⟨0, by decide, by decide⟩
      · exact ⟨1, by decide, by decide⟩

end Fog.Props
