import Verif.Model.KeyMisc

/-!
# Properties of the n-grams (C49) and of the n-gram keys (C11)
-/

namespace Fog.Props

open Fog.Ngrams Fog.KeyMisc

variable {α : Type _}

/-! ### C49 -/

/-- C49. A sequence shorter than `n` is its only gram. -/
theorem ngrams_short (n : Nat) (s : List α) (h : s.length < n) : ngrams n s = [s] := by
  simp [ngrams, h, show s.length + 1 - n = 0 by omega]

/-- C49. Otherwise there is a gram per position which leaves room for `n` tokens, in order: the `n` tokens from there. -/
theorem ngrams_windows (n : Nat) (s : List α) (h : n ≤ s.length) :
    (ngrams n s).length = s.length - n + 1 ∧
      ∀ i, i < s.length - n + 1 → (ngrams n s)[i]? = some ((s.drop i).take n) := by
  have hn : ¬ s.length < n := by omega
  simp only [ngrams, hn, if_false, List.nil_append, List.length_map, List.length_range]
  refine ⟨by omega, ?_⟩
  intro i hi
  rw [List.getElem?_map, List.getElem?_range (by omega)]
  simp only [Option.map_some, Option.some.injEq, slice]
  rw [List.drop_take]
  congr 1; omega

theorem lastTokens_windows (s : List α) (n : Nat) (is : List Nat) (h : ∀ i ∈ is, i + (n + 1) ≤ s.length) :
    lastTokens (is.map fun i => slice s i (i + (n + 1))) = .ok (is.filterMap fun i => s[i + n]?) := by
  induction is with
  | nil => rfl
  | cons i is ih =>
      have hi := h i (by simp)
      have hlast : (slice s i (i + (n + 1))).getLast? = s[i + n]? := by
        have hlen : (slice s i (i + (n + 1))).length = n + 1 := by simp [slice]; omega
        rw [List.getLast?_eq_getElem?, hlen]
        simp only [slice, Nat.add_sub_cancel]
        rw [List.getElem?_drop, List.getElem?_take, if_pos (by omega)]
      rw [List.map_cons, lastTokens, hlast, List.getElem?_eq_getElem (by omega), ih fun i hi => h i (by simp [hi])]
      simp [List.getElem?_eq_getElem (show i + n < s.length by omega), bind, Except.bind]

theorem filterMap_range' (s : List α) (m a d : Nat) :
    (List.range' a d).filterMap (fun i => s[i + m]?) = (s.drop (a + m)).take d := by
  induction d generalizing a with
  | zero => simp
  | succ d ih =>
      rw [List.range'_succ, List.filterMap_cons, ih]
      rcases Nat.lt_or_ge (a + m) s.length with h | h
      · rw [List.getElem?_eq_getElem h, List.drop_eq_getElem_cons h, List.take_succ_cons,
          show a + 1 + m = a + m + 1 by omega]
      · rw [List.getElem?_eq_none h, List.drop_eq_nil_of_le h, List.drop_eq_nil_of_le (by omega)]
        simp

/-- C49. Joining the grams gives the sequence back, when `n` is at least one. -/
theorem join_ngrams_ngrams (n : Nat) (hn : 1 ≤ n) (s : List α) : joinNgrams (ngrams n s) = .ok s := by
  rcases Nat.lt_or_ge s.length n with h | h
  · rw [ngrams_short n s h]
    simp [joinNgrams, lastTokens, bind, Except.bind]
  · obtain ⟨m, rfl⟩ : ∃ m, n = m + 1 := ⟨n - 1, by omega⟩
    have hn : ¬ s.length < m + 1 := by omega
    simp only [ngrams, hn, if_false, List.nil_append]
    rw [show s.length + 1 - (m + 1) = (s.length - (m + 1)) + 1 by omega, List.range_eq_range', List.range'_succ,
      List.map_cons, joinNgrams, lastTokens_windows s m _ (by
        intro i hi; simp [List.mem_range'_1] at hi; omega)]
    simp only [bind, Except.bind, Except.ok.injEq]
    rw [filterMap_range']
    simp only [slice, List.drop_zero, Nat.zero_add]
    rw [show 1 + m = m + 1 by omega]
    rw [List.take_of_length_le (l := s.drop (m + 1)) (by simp), List.take_append_drop]

/-- A string with repetitions, shorter and longer than the grams. -/
example : joinNgrams (ngrams 3 "banana".toList) = .ok "banana".toList ∧ ngrams 3 "ab".toList = ["ab".toList] :=
  ⟨rfl, rfl⟩

/-- Without grams at least as long as one, joining fails. -/
example : joinNgrams (ngrams 0 "ab".toList) = .error .indexError := rfl

/-- C49. The same for integers which are not negative. -/
theorem ngrams_int (n : Nat) (s : List α) : ngramsInt n s = ngrams n s := by
  unfold ngramsInt ngrams
  simp only [Int.ofNat_lt]
  congr 1
  rw [show ((s.length : Int) - n + 1).toNat = s.length + 1 - n by omega]
  refine List.map_congr_left fun i _ => ?_
  unfold sliceTo
  rw [if_neg (by omega)]
  congr 1

/-- C49. For a negative `n = -k`, the grams are all windows of `k` tokens fewer than the sequence but the last one, as if counted from its end, and
then empty ones, one more than the tokens: joining them always raises an `IndexError`. -/
theorem ngrams_negative (k : Nat) (hk : 1 ≤ k) (s : List α) :
    ngramsInt (-k) s = ((List.range k).map fun i => (s.drop i).take (s.length - k)) ++ List.replicate (s.length + 1) [] ∧
    joinNgrams (ngramsInt (-k) s) = .error .indexError := by
  have h1 : ngramsInt (-k) s = ((List.range k).map fun i => (s.drop i).take (s.length - k)) ++ List.replicate (s.length + 1) [] := by
    unfold ngramsInt
    simp only
    rw [if_neg (by omega), List.nil_append, show ((s.length : Int) - -k + 1).toNat = k + (s.length + 1) by omega, List.range_add,
      List.map_append, List.map_map]
    congr 1
    · refine List.map_congr_left fun i hi => ?_
      rw [List.mem_range] at hi
      unfold sliceTo slice
      rw [if_pos (by omega), List.drop_take]
      congr 1
      omega
    · rw [List.eq_replicate_iff]
      refine ⟨by simp, ?_⟩
      intro b hb
      obtain ⟨i, _, rfl⟩ := List.mem_map.mp hb
      simp only [Function.comp_apply, sliceTo, slice]
      rw [if_neg (by omega), List.drop_eq_nil_iff, List.length_take]
      omega
  refine ⟨h1, ?_⟩
  rw [h1]
  have key : ∀ l l' : List (List α), lastTokens (l ++ [] :: l') = .error .indexError := by
    intro l l'
    induction l with
    | nil => rfl
    | cons g l ih =>
        rw [List.cons_append, lastTokens]
        cases g.getLast? with
        | none => rfl
        | some x => simp only [ih]; rfl
  obtain ⟨k, rfl⟩ : ∃ k', k = k' + 1 := ⟨k - 1, by omega⟩
  rw [List.range_succ_eq_map, List.map_cons, List.cons_append, joinNgrams, List.replicate_succ, key]
  rfl

example : ngramsInt (-1) "abc".toList = ["ab".toList, [], [], [], []] := rfl

/-! ### C11 -/

theorem mem_combinations (l : List α) (r : Nat) (c : List α) :
    c ∈ combinations l r ↔ c.Sublist l ∧ c.length = r := by
  induction l generalizing r c with
  | nil =>
      cases r with
      | zero => simp [combinations]
      | succ r => simp [combinations]; rintro rfl; simp
  | cons a l ih =>
      cases r with
      | zero =>
          simp only [combinations, List.mem_singleton, List.length_eq_zero_iff]
          constructor
          · rintro rfl; simp
          · exact fun h => h.2
      | succ r =>
          simp only [combinations, List.mem_append, List.mem_map, ih]
          constructor
          · rintro (⟨d, ⟨h1, h2⟩, rfl⟩ | ⟨h1, h2⟩)
            · exact ⟨h1.cons_cons _, by simp [h2]⟩
            · exact ⟨h1.cons _, h2⟩
          · rintro ⟨h1, h2⟩
            cases h1 with
            | cons _ h => exact Or.inr ⟨h, h2⟩
            | cons_cons _ h => exact Or.inl ⟨_, ⟨h, by simpa using h2⟩, rfl⟩

theorem mem_combinationsDown (grams : List (List α)) (s : Int) (fuel : Nat) (hs : (fuel : Int) ≤ s) (c : List (List α)) :
    c ∈ combinationsDown grams s fuel ↔ c.Sublist grams ∧ s - fuel ≤ c.length ∧ (c.length : Int) < s := by
  induction fuel generalizing s with
  | zero => simp [combinationsDown]; try (intro _ h; omega)
  | succ fuel ih =>
      rw [combinationsDown, List.mem_append, mem_combinations, ih (s - 1) (by omega)]
      constructor
      · rintro (⟨h1, h2⟩ | ⟨h1, h2, h3⟩)
        · exact ⟨h1, by omega, by omega⟩
        · exact ⟨h1, by omega, by omega⟩
      · rintro ⟨h1, h2, h3⟩
        by_cases h : (c.length : Int) = s - 1
        · exact Or.inl ⟨h1, by omega⟩
        · exact Or.inr ⟨h1, by omega, by omega⟩

/-- C11. The first key is the concatenation of all grams. -/
theorem ngram_keys_first (n : Nat) (s : List α) (threshold : Rat) :
    (ngramKeys n s threshold).head? = some (ngrams n s).flatten := rfl

/-- C11. The keys are the concatenation of all grams and those of the selections, in order, of at least
`max(1, floor(threshold * number of grams))` grams. -/
theorem ngram_keys_exact (n : Nat) (s : List α) (threshold : Rat) (key : List α) :
    key ∈ ngramKeys n s threshold ↔ key = (ngrams n s).flatten ∨
      ∃ sel : List (List α), sel.Sublist (ngrams n s) ∧ max 1 (((ngrams n s).length : Rat) * threshold).floor ≤ (sel.length : Int) ∧
        key = sel.flatten := by
  unfold ngramKeys
  simp only [List.mem_cons, List.mem_map]
  rcases Nat.lt_or_ge s.length n with h | h
  · rw [ngrams_short n s h]
    have h0 : ∀ x : Int, ((s.length : Int) - (n - 1) - max 1 x).toNat = 0 := by intro x; omega
    rw [h0]
    simp only [combinationsDown, List.not_mem_nil, false_and, exists_false, or_false]
    constructor
    · exact Or.inl
    · rintro (h | ⟨sel, h1, h2, rfl⟩)
      · exact h
      · have hl := h1.length_le
        have : sel = [s] := h1.eq_of_length (by simp at hl ⊢; omega)
        rw [this]
  · obtain ⟨hlen, _⟩ := ngrams_windows n s h
    have hk : ((s.length : Int) - (n - 1)) = ((ngrams n s).length : Int) := by rw [hlen]; omega
    rw [hk]
    have hcast : (((ngrams n s).length : Int) : Rat) = ((ngrams n s).length : Rat) := rfl
    rw [hcast]
    generalize hl : max 1 (((ngrams n s).length : Rat) * threshold).floor = l
    have hl1 : 1 ≤ l := by omega
    constructor
    · rintro (h | ⟨sel, h1, rfl⟩)
      · exact Or.inl h
      · rw [mem_combinationsDown _ _ _ (by omega)] at h1
        exact Or.inr ⟨sel, h1.1, by omega, rfl⟩
    · rintro (h | ⟨sel, h1, h2, rfl⟩)
      · exact Or.inl h
      · have hle := h1.length_le
        by_cases he : sel.length = (ngrams n s).length
        · rw [h1.eq_of_length he]; exact Or.inl rfl
        · refine Or.inr ⟨sel, ?_, rfl⟩
          rw [mem_combinationsDown _ _ _ (by omega)]
          exact ⟨h1, by omega, by omega⟩

/-- C11. Two strings with a large enough selection of grams in common collide. -/
theorem ngram_keys_collide (n : Nat) (s t : List α) (threshold : Rat) (sel : List (List α))
    (hs : sel.Sublist (ngrams n s)) (ht : sel.Sublist (ngrams n t))
    (hls : max 1 (((ngrams n s).length : Rat) * threshold).floor ≤ (sel.length : Int))
    (hlt : max 1 (((ngrams n t).length : Rat) * threshold).floor ≤ (sel.length : Int)) :
    ∃ key, key ∈ ngramKeys n s threshold ∧ key ∈ ngramKeys n t threshold :=
  ⟨sel.flatten, (ngram_keys_exact ..).mpr (Or.inr ⟨sel, hs, hls, rfl⟩),
    (ngram_keys_exact ..).mpr (Or.inr ⟨sel, ht, hlt, rfl⟩)⟩

/-- Two strings which share three of their five bigrams. -/
example :
    let sel := ["ab".toList, "bc".toList, "ef".toList]
    sel.Sublist (ngrams 2 "abcdef".toList) ∧ sel.Sublist (ngrams 2 "abcxef".toList) ∧
      max 1 (((ngrams 2 "abcdef".toList).length : Rat) * (3 / 5)).floor ≤ (sel.length : Int) := by
  refine ⟨by decide, by decide, ?_⟩
  have : (((ngrams 2 "abcdef".toList).length : Rat) * (3 / 5)) = 3 := by
    show ((5 : Rat) * (3 / 5)) = 3
    grind
  rw [this]; decide

end Fog.Props
