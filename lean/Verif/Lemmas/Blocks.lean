import Verif.Model.KeyLevenshtein
import Verif.Lemmas.Lte1
import Verif.Lemmas.AlignPath

/-!
# Common blocks of strings at a small edit distance
-/

namespace Fog.KeyLevenshtein

open Fog.Spec

variable {α : Type _}

/-! ### One edit -/

theorem take_common {u v w : List α} {i : Nat} (h : i ≤ u.length) : (u ++ v).take i = (u ++ w).take i := by
  rw [List.take_append_of_le_length h, List.take_append_of_le_length h]

theorem drop_cons_right {u v : List α} {c : α} {i : Nat} (h : u.length ≤ i) :
    (u ++ c :: v).drop (i + 1) = (u ++ v).drop i := by
  rw [List.drop_append, List.drop_append, List.drop_eq_nil_of_le (as := u) (by omega),
    List.drop_eq_nil_of_le (as := u) h, show i + 1 - u.length = (i - u.length) + 1 by omega]
  simp

theorem first_half_mem (t : Bool) (flag : α) (s : List α) (h : s.length ≠ 1) :
    flag :: s.take (s.length / 2) ∈ levenshtein1dBlocks t flag s := by
  unfold levenshtein1dBlocks
  simp only [h, if_false]
  split
  · split <;> simp
  · simp

theorem second_half_mem (t : Bool) (flag : α) (s : List α) (h : s.length ≠ 1) :
    s.drop (s.length / 2) ++ [flag] ∈ levenshtein1dBlocks t flag s := by
  unfold levenshtein1dBlocks
  simp only [h, if_false]
  split
  · split <;> simp
  · simp

theorem first_half1_mem (t : Bool) (flag : α) (s : List α) (h1 : s.length % 2 = 1) :
    flag :: s.take (s.length / 2 + 1) ∈ levenshtein1dBlocks t flag s := by
  unfold levenshtein1dBlocks
  by_cases h : s.length = 1
  · simp only [h, if_true]
    simp [List.take_of_length_le (Nat.le_of_eq h)]
  · simp only [h, if_false]
    rw [if_neg (by omega)]
    simp

theorem second_half1_mem (t : Bool) (flag : α) (s : List α) (h1 : s.length % 2 = 1) :
    s.drop (s.length / 2 + 1) ++ [flag] ∈ levenshtein1dBlocks t flag s := by
  unfold levenshtein1dBlocks
  by_cases h : s.length = 1
  · simp only [h, if_true]
    simp [List.drop_of_length_le (Nat.le_of_eq h)]
  · simp only [h, if_false]
    rw [if_neg (by omega)]
    simp

theorem flag_mem_of_le_one (t : Bool) (flag : α) (s : List α) (h : s.length ≤ 1) :
    [flag] ∈ levenshtein1dBlocks t flag s := by
  cases s with
  | nil => cases t <;> simp [levenshtein1dBlocks]
  | cons x s =>
      cases s with
      | nil => simp [levenshtein1dBlocks]
      | cons y s => simp at h

/-- For a one-letter string the two ordinary halves are among the blocks as well. -/
theorem second_all_mem (t : Bool) (flag : α) (s : List α) :
    s.drop (s.length / 2) ++ [flag] ∈ levenshtein1dBlocks t flag s := by
  by_cases h : s.length = 1
  · unfold levenshtein1dBlocks
    simp only [h, if_true]
    simp
  · exact second_half_mem t flag s h

def Share (x y : List (List α)) : Prop := ∃ k, k ∈ x ∧ k ∈ y

theorem Share.symm {x y : List (List α)} (h : Share x y) : Share y x := by
  obtain ⟨k, h1, h2⟩ := h; exact ⟨k, h2, h1⟩

theorem share_subst (t : Bool) (flag : α) (u v : List α) (c d : α) :
    Share (levenshtein1dBlocks t flag (u ++ c :: v)) (levenshtein1dBlocks t flag (u ++ d :: v)) := by
  have hl : (u ++ d :: v).length = (u ++ c :: v).length := by simp
  by_cases h : (u ++ c :: v).length = 1
  · exact ⟨[flag], flag_mem_of_le_one _ _ _ (by omega), flag_mem_of_le_one _ _ _ (by omega)⟩
  · by_cases hu : (u ++ c :: v).length / 2 ≤ u.length
    · refine ⟨_, first_half_mem t flag _ h, ?_⟩
      have := first_half_mem t flag (u ++ d :: v) (by omega)
      rw [hl, take_common (w := c :: v) hu] at this
      exact this
    · refine ⟨_, second_half_mem t flag _ h, ?_⟩
      have := second_half_mem t flag (u ++ d :: v) (by omega)
      rw [hl] at this
      obtain ⟨m, hm⟩ : ∃ m, (u ++ c :: v).length / 2 = m + 1 := ⟨(u ++ c :: v).length / 2 - 1, by omega⟩
      rw [hm] at this hu ⊢
      rw [drop_cons_right (by omega)] at this ⊢
      exact this

theorem share_insert (t : Bool) (flag : α) (u v : List α) (c : α) :
    Share (levenshtein1dBlocks t flag (u ++ v)) (levenshtein1dBlocks t flag (u ++ c :: v)) := by
  have hl : (u ++ c :: v).length = (u ++ v).length + 1 := by simp; omega
  generalize hn : (u ++ v).length = n at hl
  rcases Nat.mod_two_eq_zero_or_one n with h | h
  · by_cases h0 : n = 0
    · exact ⟨[flag], flag_mem_of_le_one _ _ _ (by omega), flag_mem_of_le_one _ _ _ (by omega)⟩
    · by_cases hu : n / 2 ≤ u.length
      · refine ⟨_, first_half_mem t flag (u ++ v) (by omega), ?_⟩
        have := first_half_mem t flag (u ++ c :: v) (by omega)
        rw [hl, show (n + 1) / 2 = n / 2 by omega, take_common (w := v) hu] at this
        rw [hn]; exact this
      · refine ⟨_, second_half_mem t flag (u ++ v) (by omega), ?_⟩
        have := second_half1_mem t flag (u ++ c :: v) (by omega)
        rw [hl, show (n + 1) / 2 = n / 2 by omega, drop_cons_right (by omega)] at this
        rw [hn]; exact this
  · by_cases hu : n / 2 + 1 ≤ u.length
    · refine ⟨_, first_half1_mem t flag (u ++ v) (by omega), ?_⟩
      have := first_half_mem t flag (u ++ c :: v) (by omega)
      rw [hl, show (n + 1) / 2 = n / 2 + 1 by omega, take_common (w := v) hu] at this
      rw [hn]; exact this
    · refine ⟨_, second_all_mem t flag (u ++ v), ?_⟩
      have := second_half_mem t flag (u ++ c :: v) (by omega)
      rw [hl, show (n + 1) / 2 = n / 2 + 1 by omega, drop_cons_right (by omega)] at this
      rw [hn]; exact this

theorem share_swap (flag : α) (u v : List α) (c d : α) :
    Share (levenshtein1dBlocks true flag (u ++ c :: d :: v)) (levenshtein1dBlocks true flag (u ++ d :: c :: v)) := by
  have hl : (u ++ d :: c :: v).length = (u ++ c :: d :: v).length := by simp
  have hu0 : (u ++ c :: d :: v).length = u.length + v.length + 2 := by simp; omega
  generalize hn : (u ++ c :: d :: v).length = n at hl hu0
  by_cases hu : n / 2 ≤ u.length
  · refine ⟨_, first_half_mem true flag (u ++ c :: d :: v) (by omega), ?_⟩
    have := first_half_mem true flag (u ++ d :: c :: v) (by omega)
    rw [hl, take_common (w := c :: d :: v) hu] at this
    rw [hn]; exact this
  · by_cases hu2 : u.length + 2 ≤ n / 2
    · refine ⟨_, second_half_mem true flag (u ++ c :: d :: v) (by omega), ?_⟩
      have := second_half_mem true flag (u ++ d :: c :: v) (by omega)
      obtain ⟨m, hm⟩ : ∃ m, n / 2 = m + 1 + 1 := ⟨n / 2 - 2, by omega⟩
      rw [hl, hm, drop_cons_right (by omega), drop_cons_right (by omega)] at this
      rw [hn, hm, drop_cons_right (by omega), drop_cons_right (by omega)]
      exact this
    · have hh : n / 2 = u.length + 1 := by omega
      rcases Nat.mod_two_eq_zero_or_one n with h | h
      · refine ⟨flag :: (u ++ [d]), ?_, ?_⟩
        · unfold levenshtein1dBlocks
          simp only [hn, hh, h]
          rw [if_neg (by omega)]
          simp only [if_true]
          have e1 : (u ++ c :: d :: v).drop (u.length + 1) = d :: v := by
            rw [← List.drop_drop]; simp
          have e2 : (u ++ c :: d :: v).take (u.length + 1 - 1) = u := by simp
          rw [e1, e2]
          simp
        · have := first_half_mem true flag (u ++ d :: c :: v) (by omega)
          rw [hl, hh] at this
          have e1 : (u ++ d :: c :: v).take (u.length + 1) = u ++ [d] := by
            rw [List.take_append, List.take_of_length_le (by omega)]; simp
          rw [e1] at this; exact this
      · refine ⟨_, second_half1_mem true flag (u ++ c :: d :: v) (by omega), ?_⟩
        have := second_half1_mem true flag (u ++ d :: c :: v) (by omega)
        rw [hl, hh, drop_cons_right (by omega), drop_cons_right (by omega)] at this
        rw [hn, hh, drop_cons_right (by omega), drop_cons_right (by omega)]
        exact this

theorem share_edit (t : Bool) (flag : α) {A B : List α} (h : Edit A B) :
    Share (levenshtein1dBlocks t flag A) (levenshtein1dBlocks t flag B) := by
  cases h with
  | insert u v c => exact share_insert t flag u v c
  | delete u v c => exact (share_insert t flag u v c).symm
  | subst u v c d => exact share_subst t flag u v c d

theorem share_self (t : Bool) (flag : α) (A : List α) :
    Share (levenshtein1dBlocks t flag A) (levenshtein1dBlocks t flag A) := by
  by_cases h : A.length = 1
  · exact ⟨[flag], flag_mem_of_le_one _ _ _ (by omega), flag_mem_of_le_one _ _ _ (by omega)⟩
  · exact ⟨_, first_half_mem t flag A h, first_half_mem t flag A h⟩

/-! ### Two edits -/

/-- The blocks which are there with or without transpositions, as prefixes, middles and suffixes. -/
def Pre (s : List α) (i : Nat) : Prop :=
  (s.length % 3 = 0 ∧ i = s.length / 3) ∨ (s.length % 3 ≠ 0 ∧ (i = s.length / 3 ∨ i = s.length / 3 + 1))

def Mid (s : List α) (i j : Nat) : Prop :=
  let h := s.length / 3
  (s.length % 3 = 0 ∧ i = h ∧ j = h * 2) ∨
  (s.length % 3 = 1 ∧ ((i = h + 1 ∧ j = h * 2 + 1) ∨ (i = h ∧ j = h * 2 + 1) ∨ (i = h ∧ j = h * 2))) ∨
  (s.length % 3 = 2 ∧ ((i = h + 1 ∧ j = h * 2 + 2) ∨ (i = h ∧ j = h * 2 + 1) ∨ (i = h + 1 ∧ j = h * 2 + 1)))

def Suf (s : List α) (i : Nat) : Prop :=
  let h := s.length / 3
  (s.length % 3 = 0 ∧ i = h * 2) ∨ (s.length % 3 = 1 ∧ (i = h * 2 + 1 ∨ i = h * 2)) ∨
  (s.length % 3 = 2 ∧ (i = h * 2 + 2 ∨ i = h * 2 + 1))

/-- Every prefix, middle and suffix block is among the blocks. -/
theorem blocks2_mem {t : Bool} {f1 f2 f3 : α} {s : List α} {x : List (List α)}
    (h : levenshtein2dBlocks t f1 f2 f3 s = .ok x) :
    (∀ i, Pre s i → f1 :: s.take i ∈ x) ∧ (∀ i j, Mid s i j → f2 :: slice s i j ∈ x) ∧
      (∀ i, Suf s i → f3 :: s.drop i ∈ x) := by
  unfold levenshtein2dBlocks at h
  have h3 : s.length % 3 = 0 ∨ s.length % 3 = 1 ∨ s.length % 3 = 2 := by omega
  rcases h3 with h0 | h0 | h0
  · simp only [h0, if_true] at h
    have : f1 :: s.take (s.length / 3) ∈ x ∧ f2 :: slice s (s.length / 3) (s.length / 3 * 2) ∈ x ∧
        f3 :: s.drop (s.length / 3 * 2) ∈ x := by
      cases t
      · simp at h; subst h; simp
      · simp only [if_true] at h
        split at h
        · simp at h; subst h; simp
        · cases h
    refine ⟨?_, ?_, ?_⟩
    · intro i hi; rcases hi with ⟨_, rfl⟩ | ⟨h, _⟩
      · exact this.1
      · exact absurd h0 h
    · intro i j hi
      simp only [Mid, h0] at hi
      simp at hi
      rw [hi.1, hi.2]; exact this.2.1
    · intro i hi
      simp only [Suf, h0] at hi
      simp at hi
      rw [hi]; exact this.2.2
  · simp [h0] at h
    subst h
    refine ⟨?_, ?_, ?_⟩
    · intro i hi; simp [Pre, h0] at hi
      rcases hi with rfl | rfl <;> simp
    · intro i j hi; simp [Mid, h0] at hi
      rcases hi with ⟨rfl, rfl⟩ | ⟨rfl, rfl⟩ | ⟨rfl, rfl⟩
      · rw [show s.length / 3 * 2 + 1 = s.length / 3 + 1 + s.length / 3 by omega]; simp
      · rw [show s.length / 3 * 2 + 1 = s.length / 3 + (s.length / 3 + 1) by omega]; simp
      · simp
    · intro i hi; simp [Suf, h0] at hi
      rcases hi with rfl | rfl
      · rw [show s.length / 3 * 2 + 1 = s.length / 3 + 1 + s.length / 3 by omega]; simp
      · simp
  · simp [h0] at h
    subst h
    refine ⟨?_, ?_, ?_⟩
    · intro i hi; simp [Pre, h0] at hi
      rcases hi with rfl | rfl <;> simp
    · intro i j hi; simp [Mid, h0] at hi
      rcases hi with ⟨rfl, rfl⟩ | ⟨rfl, rfl⟩ | ⟨rfl, rfl⟩
      · rw [show s.length / 3 * 2 + 2 = (s.length / 3 + 1) * 2 by omega]; simp
      · rw [show s.length / 3 * 2 + 1 = s.length / 3 + 1 + s.length / 3 by omega]; simp
      · rw [show s.length / 3 * 2 + 1 = s.length / 3 + 1 + s.length / 3 by omega]; simp
    · intro i hi; simp [Suf, h0] at hi
      rcases hi with rfl | rfl
      · rw [show s.length / 3 * 2 + 2 = (s.length / 3 + 1) * 2 by omega]; simp
      · rw [show s.length / 3 * 2 + 1 = s.length / 3 + 1 + s.length / 3 by omega]; simp

/-- A common prefix, middle or suffix block. -/
def Common (A B : List α) : Prop :=
  (∃ i, Pre A i ∧ Pre B i ∧ A.take i = B.take i) ∨
  (∃ i j k l, Mid A i j ∧ Mid B k l ∧ slice A i j = slice B k l) ∨
  (∃ i j, Suf A i ∧ Suf B j ∧ A.drop i = B.drop j)

theorem Common.symm {A B : List α} (h : Common A B) : Common B A := by
  rcases h with ⟨i, h1, h2, h3⟩ | ⟨i, j, k, l, h1, h2, h3⟩ | ⟨i, j, h1, h2, h3⟩
  · exact Or.inl ⟨i, h2, h1, h3.symm⟩
  · exact Or.inr (Or.inl ⟨k, l, i, j, h2, h1, h3.symm⟩)
  · exact Or.inr (Or.inr ⟨j, i, h2, h1, h3.symm⟩)

theorem Common.share {t t' : Bool} {f1 f2 f3 : α} {A B : List α} {x y : List (List α)} (h : Common A B)
    (hx : levenshtein2dBlocks t f1 f2 f3 A = .ok x) (hy : levenshtein2dBlocks t' f1 f2 f3 B = .ok y) : Share x y := by
  obtain ⟨a1, a2, a3⟩ := blocks2_mem hx
  obtain ⟨b1, b2, b3⟩ := blocks2_mem hy
  rcases h with ⟨i, h1, h2, h3⟩ | ⟨i, j, k, l, h1, h2, h3⟩ | ⟨i, j, h1, h2, h3⟩
  · exact ⟨_, a1 i h1, h3 ▸ b1 i h2⟩
  · exact ⟨_, a2 i j h1, h3 ▸ b2 k l h2⟩
  · exact ⟨_, a3 i h1, h3 ▸ b3 j h2⟩


section Members

variable {s : List α} {h : Nat}

theorem pre_0 (hs : s.length = 3 * h) : Pre s h := by unfold Pre; omega
theorem pre_1 (hs : s.length = 3 * h + 1) : Pre s h ∧ Pre s (h + 1) := by unfold Pre; omega
theorem pre_2 (hs : s.length = 3 * h + 2) : Pre s h ∧ Pre s (h + 1) := by unfold Pre; omega
theorem suf_0 (hs : s.length = 3 * h) : Suf s (h * 2) := by unfold Suf; dsimp only; omega
theorem suf_1 (hs : s.length = 3 * h + 1) : Suf s (h * 2) ∧ Suf s (h * 2 + 1) := by unfold Suf; dsimp only; omega
theorem suf_2 (hs : s.length = 3 * h + 2) : Suf s (h * 2 + 1) ∧ Suf s (h * 2 + 2) := by unfold Suf; dsimp only; omega

theorem mid_0 (hs : s.length = 3 * h) : Mid s h (h * 2) := by
  have h1 : s.length / 3 = h := by omega
  have h2 : s.length % 3 = 0 := by omega
  simp [Mid, h1, h2]

theorem mid_1 (hs : s.length = 3 * h + 1) :
    Mid s (h + 1) (h * 2 + 1) ∧ Mid s h (h * 2 + 1) ∧ Mid s h (h * 2) := by
  have h1 : s.length / 3 = h := by omega
  have h2 : s.length % 3 = 1 := by omega
  simp [Mid, h1, h2]

theorem mid_2 (hs : s.length = 3 * h + 2) :
    Mid s (h + 1) (h * 2 + 2) ∧ Mid s h (h * 2 + 1) ∧ Mid s (h + 1) (h * 2 + 1) := by
  have h1 : s.length / 3 = h := by omega
  have h2 : s.length % 3 = 2 := by omega
  simp [Mid, h1, h2]

end Members

section Path

variable {A B : List α} {m : Nat} {f E : Nat → Nat}

theorem path_pre (p : IsPath A B m f E) {i : Nat} (hi : i ≤ A.length) (h1 : Pre A i) (h2 : Pre B i) :
    Common A B ∨ 1 ≤ E i := by
  by_cases h : E i = 0
  · exact Or.inl (Or.inl ⟨i, h1, h2, (p.take_eq hi h).2⟩)
  · right; omega

/-- A letter inserted at the end of a prefix changes nothing in it. -/
theorem path_pre' (p : IsPath A B m f E) {i : Nat} (hi : i + 1 ≤ A.length) (h1 : Pre A (i + 1)) (h2 : Pre B (i + 1))
    (h3 : E i = 0) (h4 : f (i + 1) = f i + 1 + (E (i + 1) - E i)) : Common A B := by
  obtain ⟨h5, h6⟩ := p.take_eq (by omega) h3
  have h7 := p.kept i (by omega) h4
  rw [h5] at h7
  refine Or.inl ⟨i + 1, h1, h2, ?_⟩
  rw [List.take_add_one, List.take_add_one, h6, h7]

theorem path_suf (p : IsPath A B m f E) {i j : Nat} (hi : i ≤ A.length) (h1 : Suf A i) (h2 : Suf B j)
    (h3 : j + (A.length - i) = B.length) : Common A B ∨ E i + 1 ≤ m := by
  by_cases h : E i = m
  · obtain ⟨h4, h5⟩ := p.drop_eq hi h
    refine Or.inl (Or.inr (Or.inr ⟨i, j, h1, h2, ?_⟩))
    rw [h5, show f i = j by omega]
  · have := p.step i A.length hi (Nat.le_refl _)
    have := p.total
    right; omega

theorem path_mid (p : IsPath A B m f E) {i j k l : Nat} (h1 : i ≤ j) (h2 : j ≤ A.length) (h3 : E i = E j)
    (h4 : Mid A i j) (h5 : Mid B k l) (h6 : f i = k) (h7 : f j = l) : Common A B := by
  refine Or.inr (Or.inl ⟨i, j, k, l, h4, h5, ?_⟩)
  rw [← h6, ← h7]; exact p.same i j h1 h2 h3

/-- A letter inserted at the end of a middle block changes nothing in it. -/
theorem path_mid' (p : IsPath A B m f E) {i j k l : Nat} (h1 : i ≤ j) (h2 : j + 1 ≤ A.length) (h3 : E i = E j)
    (h4 : Mid A i (j + 1)) (h5 : Mid B k (l + 1)) (h6 : f i = k) (h7 : f j = l) (h9 : l + 1 ≤ B.length)
    (h8 : f (j + 1) = f j + 1 + (E (j + 1) - E j)) : Common A B := by
  refine Or.inr (Or.inl ⟨i, j + 1, k, l + 1, h4, h5, ?_⟩)
  have e1 := p.same i j h1 (by omega) h3
  have e2 := p.kept j (by omega) h8
  have e3 := (p.step i j h1 (by omega)).1
  rw [h6, h7] at e1 e3
  rw [h7] at e2
  unfold slice at e1 ⊢
  rw [List.take_add_one, List.take_add_one, List.drop_append_of_le_length (by simp; omega),
    List.drop_append_of_le_length (by simp; omega), e1, e2]

variable {h : Nat}

theorem common_01 (p : IsPath A B m f E) (hm : m ≤ 2) (hA : A.length = 3 * h) (hB : B.length = 3 * h + 1) :
    Common A B := by
  rcases path_pre p (by omega) (pre_0 hA) (pre_1 hB).1 with hc | e1
  · exact hc
  rcases path_suf p (by omega) (suf_0 hA) (suf_1 hB).2 (by omega) with hc | e2
  · exact hc
  have s0 := p.start
  have s1 := p.step 0 h (by omega) (by omega)
  have s2 := p.step h (h * 2) (by omega) (by omega)
  have s3 := p.step (h * 2) A.length (by omega) (by omega)
  have s4 := p.stop
  have s5 := p.stop_le
  have s6 := p.total
  have hf : f h = h ∨ f h = h + 1 := by omega
  rcases hf with hf | hf
  · exact path_mid p (by omega) (by omega) (by omega) (mid_0 hA) (mid_1 hB).2.2 hf (by omega)
  · exact path_mid p (by omega) (by omega) (by omega) (mid_0 hA) (mid_1 hB).1 hf (by omega)

theorem common_02 (p : IsPath A B m f E) (hm : m ≤ 2) (hA : A.length = 3 * h) (hB : B.length = 3 * h + 2) :
    Common A B := by
  rcases path_pre p (by omega) (pre_0 hA) (pre_2 hB).1 with hc | e1
  · exact hc
  rcases path_suf p (by omega) (suf_0 hA) (suf_2 hB).2 (by omega) with hc | e2
  · exact hc
  have s0 := p.start
  have s1 := p.step 0 h (by omega) (by omega)
  have s2 := p.step h (h * 2) (by omega) (by omega)
  have s3 := p.step (h * 2) A.length (by omega) (by omega)
  have s4 := p.stop
  have s5 := p.stop_le
  have s6 := p.total
  exact path_mid p (by omega) (by omega) (by omega) (mid_0 hA) (mid_2 hB).2.2 (by omega) (by omega)

theorem common_11 (p : IsPath A B m f E) (hm : m ≤ 2) (hA : A.length = 3 * h + 1) (hB : B.length = 3 * h + 1) :
    Common A B := by
  rcases path_pre p (by omega) (pre_1 hA).1 (pre_1 hB).1 with hc | e1
  · exact hc
  rcases path_suf p (by omega) (suf_1 hA).2 (suf_1 hB).2 (by omega) with hc | e2
  · exact hc
  have s0 := p.start
  have s1 := p.step 0 h (by omega) (by omega)
  have s2 := p.step h (h * 2) (by omega) (by omega)
  have s3 := p.step (h * 2) (h * 2 + 1) (by omega) (by omega)
  have hE : E h = E (h * 2) := by omega
  have hf : f h = h ∨ f h = h + 1 ∨ f h + 1 = h := by omega
  rcases hf with hf | hf | hf
  · exact path_mid p (by omega) (by omega) hE (mid_1 hA).2.2 (mid_1 hB).2.2 hf (by omega)
  · exact path_mid p (by omega) (by omega) hE (mid_1 hA).2.2 (mid_1 hB).1 hf (by omega)
  · have s4 := p.step h (h + 1) (by omega) (by omega)
    have s5 := p.step (h + 1) (h * 2 + 1) (by omega) (by omega)
    exact path_mid p (by omega) (by omega) (by omega) (mid_1 hA).1 (mid_1 hB).2.2 (by omega) (by omega)

theorem common_12 (p : IsPath A B m f E) (hm : m ≤ 2) (hA : A.length = 3 * h + 1) (hB : B.length = 3 * h + 2) :
    Common A B := by
  rcases path_pre p (by omega) (pre_1 hA).1 (pre_2 hB).1 with hc | e1
  · exact hc
  rcases path_suf p (by omega) (suf_1 hA).2 (suf_2 hB).2 (by omega) with hc | e2
  · exact hc
  have s0 := p.start
  have s1 := p.step 0 h (by omega) (by omega)
  have s2 := p.step h (h * 2 + 1) (by omega) (by omega)
  have s3 := p.step (h * 2 + 1) A.length (by omega) (by omega)
  have s4 := p.stop
  have s5 := p.stop_le
  have s6 := p.total
  have hE : E h = E (h * 2 + 1) := by omega
  have hf : f h = h ∨ f h = h + 1 := by omega
  rcases hf with hf | hf
  · exact path_mid p (by omega) (by omega) hE (mid_1 hA).2.1 (mid_2 hB).2.1 hf (by omega)
  · exact path_mid p (by omega) (by omega) hE (mid_1 hA).2.1 (mid_2 hB).1 hf (by omega)

theorem common_10 (p : IsPath A B m f E) (hm : m ≤ 2) (hA : A.length = 3 * h + 1) (hB : B.length = 3 * (h + 1)) :
    Common A B := by
  rcases path_pre p (by omega) (pre_1 hA).2 (pre_0 hB) with hc | e1
  · exact hc
  rcases path_suf p (by omega) (suf_1 hA).1 (suf_0 hB) (by omega) with hc | e2
  · exact hc
  have s0 := p.start
  have s4 := p.stop
  have s5 := p.stop_le
  have s6 := p.total
  have s1 := p.step 0 h (by omega) (by omega)
  have s2 := p.step h (h + 1) (by omega) (by omega)
  have s3 := p.step (h + 1) A.length (by omega) (by omega)
  by_cases e3 : E h = 0
  · exact path_pre' p (by omega) (pre_1 hA).2 (pre_0 hB) e3 (by omega)
  · have t1 := p.step h (h * 2) (by omega) (by omega)
    have t2 := p.step (h * 2) (h * 2 + 1) (by omega) (by omega)
    have t3 := p.step (h * 2 + 1) A.length (by omega) (by omega)
    have hm0 := mid_0 hB
    rw [show (h + 1) * 2 = h * 2 + 1 + 1 by omega] at hm0
    exact path_mid' p (by omega) (by omega) (by omega) (mid_1 hA).2.1 hm0 (by omega) (by omega) (by omega) (by omega)

theorem common_22 (p : IsPath A B m f E) (hm : m ≤ 2) (hA : A.length = 3 * h + 2) (hB : B.length = 3 * h + 2) :
    Common A B := by
  rcases path_pre p (by omega) (pre_2 hA).1 (pre_2 hB).1 with hc | e1
  · exact hc
  rcases path_suf p (by omega) (suf_2 hA).2 (suf_2 hB).2 (by omega) with hc | e2
  · exact hc
  have s0 := p.start
  have s1 := p.step 0 h (by omega) (by omega)
  have s2 := p.step h (h * 2 + 1) (by omega) (by omega)
  have s3 := p.step (h * 2 + 1) (h * 2 + 2) (by omega) (by omega)
  have hE : E h = E (h * 2 + 1) := by omega
  have hf : f h = h ∨ f h = h + 1 ∨ f h + 1 = h := by omega
  rcases hf with hf | hf | hf
  · exact path_mid p (by omega) (by omega) hE (mid_2 hA).2.1 (mid_2 hB).2.1 hf (by omega)
  · exact path_mid p (by omega) (by omega) hE (mid_2 hA).2.1 (mid_2 hB).1 hf (by omega)
  · have s4 := p.step h (h + 1) (by omega) (by omega)
    have s5 := p.step (h + 1) (h * 2 + 2) (by omega) (by omega)
    exact path_mid p (by omega) (by omega) (by omega) (mid_2 hA).1 (mid_2 hB).2.1 (by omega) (by omega)

theorem common_20 (p : IsPath A B m f E) (hm : m ≤ 2) (hA : A.length = 3 * h + 2) (hB : B.length = 3 * (h + 1)) :
    Common A B := by
  rcases path_pre p (by omega) (pre_2 hA).2 (pre_0 hB) with hc | e1
  · exact hc
  rcases path_suf p (by omega) (suf_2 hA).1 (suf_0 hB) (by omega) with hc | e2
  · exact hc
  have s0 := p.start
  have s1 := p.step 0 h (by omega) (by omega)
  have s2 := p.step h (h + 1) (by omega) (by omega)
  have s3 := p.step (h + 1) (h * 2 + 1) (by omega) (by omega)
  have s4 := p.step (h * 2 + 1) (h * 2 + 2) (by omega) (by omega)
  have s5 := p.step (h * 2 + 2) A.length (by omega) (by omega)
  have s6 := p.stop
  have s7 := p.stop_le
  have s8 := p.total
  have hm0 := mid_0 hB
  rw [show (h + 1) * 2 = h * 2 + 1 + 1 by omega] at hm0
  have hf : f (h + 1) = h + 1 ∨ f (h + 1) = h + 2 := by omega
  rcases hf with hf | hf
  · have f2 : f (h * 2 + 1) = h * 2 + 1 := by omega
    by_cases e3 : E (h * 2 + 2) = E (h * 2 + 1)
    · exact path_mid p (by omega) (by omega) (by omega) (mid_2 hA).1 hm0 hf (by omega)
    · exact path_mid' p (by omega) (by omega) (by omega) (mid_2 hA).1 hm0 hf f2 (by omega)
        (by show f (h * 2 + 2) = _ + 1 + (E (h * 2 + 2) - _); omega)
  · by_cases e3 : E h = 0
    · exact path_pre' p (by omega) (pre_2 hA).2 (pre_0 hB) e3 (by omega)
    · exact path_mid p (by omega) (by omega) (by omega) (mid_2 hA).2.1 hm0 (by omega) (by omega)

theorem common_21 (p : IsPath A B m f E) (hm : m ≤ 2) (hA : A.length = 3 * h + 2) (hB : B.length = 3 * (h + 1) + 1) :
    Common A B := by
  rcases path_pre p (by omega) (pre_2 hA).2 (pre_1 hB).1 with hc | e1
  · exact hc
  rcases path_suf p (by omega) (suf_2 hA).1 (suf_1 hB).2 (by omega) with hc | e2
  · exact hc
  have s0 := p.start
  have s1 := p.step 0 h (by omega) (by omega)
  have s2 := p.step h (h + 1) (by omega) (by omega)
  have s3 := p.step (h + 1) (h * 2 + 1) (by omega) (by omega)
  have s4 := p.step (h * 2 + 1) A.length (by omega) (by omega)
  have s6 := p.stop
  have s7 := p.stop_le
  have s8 := p.total
  by_cases e3 : E h = 0
  · exact path_pre' p (by omega) (pre_2 hA).2 (pre_1 hB).1 e3 (by omega)
  · exact path_mid p (by omega) (by omega) (by omega) (mid_2 hA).2.1 (mid_1 hB).2.2 (by omega) (by omega)

theorem common_of_path (p : IsPath A B m f E) (hm : m ≤ 2)
    (hle : A.length ≤ B.length) (hex : A.length ≠ B.length ∨ A.length % 3 ≠ 0) : Common A B := by
  have hd : B.length ≤ A.length + 2 := by
    have h1 := p.total
    have h2 := p.stop
    have h3 := p.start
    have h4 := p.step 0 A.length (by omega) (Nat.le_refl _)
    omega
  obtain ⟨h, h3⟩ : ∃ h, A.length = 3 * h ∨ A.length = 3 * h + 1 ∨ A.length = 3 * h + 2 :=
    ⟨A.length / 3, by omega⟩
  have hd' : B.length = A.length ∨ B.length = A.length + 1 ∨ B.length = A.length + 2 := by omega
  rcases h3 with hA | hA | hA <;> rcases hd' with hB | hB | hB
  · omega
  · exact common_01 p hm hA (by omega)
  · exact common_02 p hm hA (by omega)
  · exact common_11 p hm hA (by omega)
  · exact common_12 p hm hA (by omega)
  · exact common_10 p hm hA (by omega)
  · exact common_22 p hm hA (by omega)
  · exact common_20 p hm hA (by omega)
  · exact common_21 p hm hA (by omega)

end Path

theorem differ_zero {A B : List α} (h : Differ 0 A B) : A = B := by
  generalize hn : 0 = n at h
  induction h with
  | nil => rfl
  | same x _ ih => rw [ih hn]
  | diff x y _ _ => cases hn

theorem differ_length {A B : List α} {n : Nat} (h : Differ n A B) : A.length = B.length := by
  induction h with
  | nil => rfl
  | same x _ ih => simp [ih]
  | diff x y _ ih => simp [ih]

theorem differ_split {A B : List α} {n : Nat} (h : Differ n A B) (i : Nat) :
    ∃ a b, a + b = n ∧ Differ a (A.take i) (B.take i) ∧ Differ b (A.drop i) (B.drop i) := by
  induction h generalizing i with
  | nil n => exact ⟨n, 0, by omega, by simpa using .nil n, by simpa using .nil 0⟩
  | @same n a b x h ih =>
      cases i with
      | zero => exact ⟨0, n, by omega, by simpa using .nil 0, by simpa using .same x h⟩
      | succ i =>
          obtain ⟨p, q, h1, h2, h3⟩ := ih i
          exact ⟨p, q, h1, by simpa using .same x h2, by simpa using h3⟩
  | @diff n a b x y h ih =>
      cases i with
      | zero => exact ⟨0, n + 1, by omega, by simpa using .nil 0, by simpa using .diff x y h⟩
      | succ i =>
          obtain ⟨p, q, h1, h2, h3⟩ := ih i
          exact ⟨p + 1, q, by omega, by simpa using .diff x y h2, by simpa using h3⟩

/-- Two strings which differ in at most two places have a third in common. -/
theorem common_of_differ {A B : List α} (h : Differ 2 A B) : Common A B := by
  have hl := differ_length h
  have key : ∀ i j, i ≤ j → Pre A i → Pre B i → Mid A i j → Mid B i j → Suf A j → Suf B j → Common A B := by
    intro i j hij p1 p2 m1 m2 s1 s2
    obtain ⟨a, b, h1, h2, h3⟩ := differ_split h j
    obtain ⟨c, d, h4, h5, h6⟩ := differ_split h2 i
    rw [List.take_take, List.take_take, Nat.min_eq_left hij] at h5
    by_cases hb : b = 0
    · subst hb; exact Or.inr (Or.inr ⟨j, j, s1, s2, differ_zero h3⟩)
    · by_cases hc : c = 0
      · subst hc; exact Or.inl ⟨i, p1, p2, differ_zero h5⟩
      · obtain rfl : d = 0 := by omega
        exact Or.inr (Or.inl ⟨i, j, i, j, m1, m2, differ_zero h6⟩)
  obtain ⟨h, h3⟩ : ∃ h, A.length = 3 * h ∨ A.length = 3 * h + 1 ∨ A.length = 3 * h + 2 :=
    ⟨A.length / 3, by omega⟩
  rcases h3 with hA | hA | hA
  · have hB : B.length = 3 * h := by omega
    exact key h (h * 2) (by omega) (pre_0 hA) (pre_0 hB) (mid_0 hA) (mid_0 hB) (suf_0 hA) (suf_0 hB)
  · have hB : B.length = 3 * h + 1 := by omega
    exact key h (h * 2) (by omega) (pre_1 hA).1 (pre_1 hB).1 (mid_1 hA).2.2 (mid_1 hB).2.2 (suf_1 hA).1 (suf_1 hB).1
  · have hB : B.length = 3 * h + 2 := by omega
    exact key h (h * 2 + 1) (by omega) (pre_2 hA).1 (pre_2 hB).1 (mid_2 hA).2.1 (mid_2 hB).2.1 (suf_2 hA).1 (suf_2 hB).1

end Fog.KeyLevenshtein
