import Verif.Props.BlocksShift

/-!
# C10: what damerau_levenshtein_2d_blocks finds of the strings two edits apart, one of them a swap
-/

namespace Fog.Props

open Fog.Spec Fog.KeyLevenshtein

variable {α : Type _}

section Windows

variable {A B : List α}

theorem common_pre (i : ℕ) (h1 : Pre A i) (h2 : Pre B i) (he : ∀ p < i, A[p]? = B[p]?) : Common A B := by
  refine .inl ⟨i, h1, h2, List.ext_getElem? fun p => ?_⟩
  rw [List.getElem?_take, List.getElem?_take]
  split
  · exact he p ‹_›
  · rfl

theorem common_mid (i j k l : ℕ) (h1 : Mid A i j) (h2 : Mid B k l) (hl : j - i = l - k) (he : ∀ p < j - i, A[i + p]? = B[k + p]?) :
    Common A B := by
  refine .inr (.inl ⟨i, j, k, l, h1, h2, List.ext_getElem? fun p => ?_⟩)
  rw [blocks_slice_getElem?, blocks_slice_getElem?, ← hl]
  split
  · exact he p ‹_›
  · rfl

theorem common_suf (i j : ℕ) (h1 : Suf A i) (h2 : Suf B j) (he : ∀ p, A[i + p]? = B[j + p]?) : Common A B := by
  refine .inr (.inr ⟨i, j, h1, h2, List.ext_getElem? fun p => ?_⟩)
  rw [List.getElem?_drop, List.getElem?_drop]
  exact he p

end Windows

section Variants

variable {f1 f2 f3 : α} {A B : List α} {x y : List (List α)}

theorem damerau_variants {h : ℕ} (hA : A.length = 3 * h) (h0 : 0 < h) (hx : levenshtein2dBlocks true f1 f2 f3 A = .ok x) :
    ∃ a b c, A[h]? = some a ∧ A[h - 1]? = some b ∧ A[h * 2 - 1]? = some c ∧ f1 :: (A.take (h - 1) ++ [a]) ∈ x ∧
      f2 :: b :: slice A (h + 1) (h * 2) ∈ x ∧ f3 :: c :: A.drop (h * 2 + 1) ∈ x := by
  unfold levenshtein2dBlocks at hx
  have e1 : A.length % 3 = 0 := by omega
  have e2 : A.length / 3 = h := by omega
  have g1 : A[h]? = some A[h] := List.getElem?_eq_getElem _
  have g2 : A[h - 1]? = some A[h - 1] := List.getElem?_eq_getElem _
  have g3 : A[h * 2 - 1]? = some A[h * 2 - 1] := List.getElem?_eq_getElem _
  refine ⟨_, _, _, g1, g2, g3, ?_⟩
  simp only [e1, e2, if_true, g1, g2, g3] at hx
  obtain rfl := Except.ok.inj hx
  refine ⟨by simp, by simp, by simp⟩

theorem share_first {h : ℕ} (hA : A.length = 3 * h) (h0 : 0 < h) (hB : h ≤ B.length) (hx : levenshtein2dBlocks true f1 f2 f3 A = .ok x)
    (hy : levenshtein2dBlocks true f1 f2 f3 B = .ok y) (hp : Pre B h) (he : ∀ p < h - 1, A[p]? = B[p]?) (hl : A[h]? = B[h - 1]?) :
    Share x y := by
  obtain ⟨a, b, c, g1, g2, g3, m1, -, -⟩ := damerau_variants hA h0 hx
  refine ⟨_, m1, ?_⟩
  have : A.take (h - 1) ++ [a] = B.take h := by
    obtain ⟨k, rfl⟩ : ∃ k, h = k + 1 := ⟨h - 1, by omega⟩
    rw [List.take_add_one]
    simp only [Nat.add_sub_cancel] at he hl ⊢
    rw [← hl, g1]
    congr 1
    apply List.ext_getElem?
    intro p
    rw [List.getElem?_take, List.getElem?_take]
    split
    · exact he p ‹_›
    · rfl
  rw [this]
  exact (blocks2_mem hy).1 h hp

theorem share_last {h j : ℕ} (hA : A.length = 3 * h) (h0 : 0 < h) (hx : levenshtein2dBlocks true f1 f2 f3 A = .ok x)
    (hy : levenshtein2dBlocks true f1 f2 f3 B = .ok y) (hp : Suf B j) (hl : A[h * 2 - 1]? = B[j]?)
    (he : ∀ p, A[h * 2 + 1 + p]? = B[j + 1 + p]?) : Share x y := by
  obtain ⟨a, b, c, g1, g2, g3, -, -, m3⟩ := damerau_variants hA h0 hx
  refine ⟨_, m3, ?_⟩
  have : c :: A.drop (h * 2 + 1) = B.drop j := by
    apply List.ext_getElem?
    intro p
    rw [List.getElem?_drop]
    cases p with
    | zero => rw [List.getElem?_cons_zero, ← g3, hl, Nat.add_zero]
    | succ p => rw [List.getElem?_cons_succ, List.getElem?_drop, he, show j + 1 + p = j + (p + 1) by omega]
  rw [this]
  exact (blocks2_mem hy).2.2 j hp

theorem share_middle {h i j : ℕ} (hA : A.length = 3 * h) (h0 : 0 < h) (hx : levenshtein2dBlocks true f1 f2 f3 A = .ok x)
    (hy : levenshtein2dBlocks true f1 f2 f3 B = .ok y) (hp : Mid B i j) (hij : j - i = h) (hl : A[h - 1]? = B[i]?)
    (he : ∀ p < h - 1, A[h + 1 + p]? = B[i + 1 + p]?) : Share x y := by
  obtain ⟨a, b, c, g1, g2, g3, -, m2, -⟩ := damerau_variants hA h0 hx
  refine ⟨_, m2, ?_⟩
  have : b :: slice A (h + 1) (h * 2) = slice B i j := by
    apply List.ext_getElem?
    intro p
    rw [blocks_slice_getElem?]
    cases p with
    | zero => rw [List.getElem?_cons_zero, ← g2, hl, if_pos (by omega), Nat.add_zero]
    | succ p =>
      rw [List.getElem?_cons_succ, blocks_slice_getElem?]
      by_cases hp : p < h - 1
      · rw [if_pos (by omega), if_pos (by omega), he p hp, show i + 1 + p = i + (p + 1) by omega]
      · rw [if_neg (by omega), if_neg (by omega)]
  rw [this]
  exact (blocks2_mem hy).2.1 i j hp

end Variants

/-! ### The letters of a string after an edit -/

theorem swap_getElem? (u v : List α) (c d : α) :
    (∀ p, p ≠ u.length → p ≠ u.length + 1 → (u ++ d :: c :: v)[p]? = (u ++ c :: d :: v)[p]?) ∧
      (u ++ d :: c :: v)[u.length]? = (u ++ c :: d :: v)[u.length + 1]? ∧
      (u ++ d :: c :: v)[u.length + 1]? = (u ++ c :: d :: v)[u.length]? := by
  refine ⟨fun p h1 h2 => ?_, by simp, by simp⟩
  rcases Nat.lt_or_ge p u.length with h | h
  · rw [List.getElem?_append_left h, List.getElem?_append_left h]
  · rw [List.getElem?_append_right h, List.getElem?_append_right h, show p - u.length = (p - u.length - 2) + 1 + 1 by omega]
    simp

theorem subst_getElem? (u v : List α) (c d : α) : ∀ p, p ≠ u.length → (u ++ d :: v)[p]? = (u ++ c :: v)[p]? := by
  intro p h1
  rcases Nat.lt_or_ge p u.length with h | h
  · rw [List.getElem?_append_left h, List.getElem?_append_left h]
  · rw [List.getElem?_append_right h, List.getElem?_append_right h, show p - u.length = (p - u.length - 1) + 1 by omega]
    simp

theorem insert_getElem? (u v : List α) (c : α) : (∀ p, p < u.length → (u ++ c :: v)[p]? = (u ++ v)[p]?) ∧
    ∀ p, u.length ≤ p → (u ++ c :: v)[p + 1]? = (u ++ v)[p]? := by
  refine ⟨fun p h => ?_, fun p h => ?_⟩
  · rw [List.getElem?_append_left h, List.getElem?_append_left h]
  · rw [List.getElem?_append_right h, List.getElem?_append_right (by omega), show p + 1 - u.length = (p - u.length) + 1 by omega]
    simp

theorem share_swap_subst {f1 f2 f3 : α} {A B M : List α} {x y : List (List α)} {i j : ℕ} (hx : levenshtein2dBlocks true f1 f2 f3 A = .ok x)
    (hy : levenshtein2dBlocks true f1 f2 f3 B = .ok y) (hlA : A.length = M.length) (hi : i + 1 < M.length)
    (hA1 : ∀ p, p ≠ i → p ≠ i + 1 → A[p]? = M[p]?) (hA2 : A[i]? = M[i + 1]?) (hA3 : A[i + 1]? = M[i]?)
    (hlB : B.length = M.length) (hB : ∀ p, p ≠ j → B[p]? = M[p]?) : Share x y := by
  obtain ⟨h, hn⟩ : ∃ h, M.length = 3 * h ∨ M.length = 3 * h + 1 ∨ M.length = 3 * h + 2 := ⟨M.length / 3, by omega⟩
  rcases hn with hn | hn | hn
  · by_cases hc4 : i + 1 < h
    · by_cases hc6 : j < h * 2
      · exact (common_suf (h * 2) (h * 2) (by unfold Suf; dsimp only; omega) (by unfold Suf; dsimp only; omega) fun p => by
            rw [hA1 _ (by omega) (by omega), hB _ (by omega)]).share hx hy
      · exact (common_mid (h) (h * 2) (h) (h * 2) (by unfold Mid; dsimp only; omega) (by unfold Mid; dsimp only; omega) (by omega) fun p hp => by
            rw [hA1 _ (by omega) (by omega), hB _ (by omega)]).share hx hy
    · by_cases hc6 : i + 1 = h
      · by_cases hc8 : j < h * 2
        · exact (common_suf (h * 2) (h * 2) (by unfold Suf; dsimp only; omega) (by unfold Suf; dsimp only; omega) fun p => by
              rw [hA1 _ (by omega) (by omega), hB _ (by omega)]).share hx hy
        · exact share_first (h := h) (by omega) (by omega) (by omega) hx hy (by unfold Pre; omega)
            (fun p hp => by rw [hA1 _ (by omega) (by omega), hB _ (by omega)])
            (by rw [show h = i + 1 by omega, hA3, hB _ (by omega)]; congr 1)
      · by_cases hc8 : j < h
        · by_cases hc10 : i + 1 < h * 2
          · exact (common_suf (h * 2) (h * 2) (by unfold Suf; dsimp only; omega) (by unfold Suf; dsimp only; omega) fun p => by
                rw [hA1 _ (by omega) (by omega), hB _ (by omega)]).share hx hy
          · by_cases hc12 : i + 1 = h * 2
            · exact share_last (h := h) (j := h * 2) (by omega) (by omega) hx hy (by unfold Suf; dsimp only; omega)
                (by rw [show h * 2 - 1 = i by omega, hA2, hB _ (by omega)]; congr 1)
                (fun p => by rw [hA1 _ (by omega) (by omega), hB _ (by omega)])
            · exact (common_mid (h) (h * 2) (h) (h * 2) (by unfold Mid; dsimp only; omega) (by unfold Mid; dsimp only; omega) (by omega) fun p hp => by
                  rw [hA1 _ (by omega) (by omega), hB _ (by omega)]).share hx hy
        · exact (common_pre (h) (by unfold Pre; omega) (by unfold Pre; omega) fun p hp => by
              rw [hA1 _ (by omega) (by omega), hB _ (by omega)]).share hx hy
  · by_cases hc4 : i < h
    · by_cases hc6 : j < h * 2 + 1
      · exact (common_suf (h * 2 + 1) (h * 2 + 1) (by unfold Suf; dsimp only; omega) (by unfold Suf; dsimp only; omega) fun p => by
            rw [hA1 _ (by omega) (by omega), hB _ (by omega)]).share hx hy
      · exact (common_mid (h + 1) (h * 2 + 1) (h + 1) (h * 2 + 1) (by unfold Mid; dsimp only; omega) (by unfold Mid; dsimp only; omega) (by omega) fun p hp => by
            rw [hA1 _ (by omega) (by omega), hB _ (by omega)]).share hx hy
    · by_cases hc6 : h ≤ j
      · exact (common_pre (h) (by unfold Pre; omega) (by unfold Pre; omega) fun p hp => by
            rw [hA1 _ (by omega) (by omega), hB _ (by omega)]).share hx hy
      · by_cases hc8 : i < h * 2
        · exact (common_suf (h * 2 + 1) (h * 2 + 1) (by unfold Suf; dsimp only; omega) (by unfold Suf; dsimp only; omega) fun p => by
              rw [hA1 _ (by omega) (by omega), hB _ (by omega)]).share hx hy
        · exact (common_mid (h) (h * 2) (h) (h * 2) (by unfold Mid; dsimp only; omega) (by unfold Mid; dsimp only; omega) (by omega) fun p hp => by
              rw [hA1 _ (by omega) (by omega), hB _ (by omega)]).share hx hy
  · by_cases hc4 : i < h
    · by_cases hc6 : j < h * 2 + 2
      · exact (common_suf (h * 2 + 2) (h * 2 + 2) (by unfold Suf; dsimp only; omega) (by unfold Suf; dsimp only; omega) fun p => by
            rw [hA1 _ (by omega) (by omega), hB _ (by omega)]).share hx hy
      · exact (common_mid (h + 1) (h * 2 + 1) (h + 1) (h * 2 + 1) (by unfold Mid; dsimp only; omega) (by unfold Mid; dsimp only; omega) (by omega) fun p hp => by
            rw [hA1 _ (by omega) (by omega), hB _ (by omega)]).share hx hy
    · by_cases hc6 : h ≤ j
      · exact (common_pre (h) (by unfold Pre; omega) (by unfold Pre; omega) fun p hp => by
            rw [hA1 _ (by omega) (by omega), hB _ (by omega)]).share hx hy
      · by_cases hc8 : i < h * 2 + 1
        · exact (common_suf (h * 2 + 2) (h * 2 + 2) (by unfold Suf; dsimp only; omega) (by unfold Suf; dsimp only; omega) fun p => by
              rw [hA1 _ (by omega) (by omega), hB _ (by omega)]).share hx hy
        · exact (common_mid (h + 1) (h * 2 + 1) (h + 1) (h * 2 + 1) (by unfold Mid; dsimp only; omega) (by unfold Mid; dsimp only; omega) (by omega) fun p hp => by
              rw [hA1 _ (by omega) (by omega), hB _ (by omega)]).share hx hy

theorem share_swap_insert {f1 f2 f3 : α} {A B M : List α} {x y : List (List α)} {i j : ℕ} (hx : levenshtein2dBlocks true f1 f2 f3 A = .ok x)
    (hy : levenshtein2dBlocks true f1 f2 f3 B = .ok y) (hlA : A.length = M.length) (hi : i + 1 < M.length)
    (hA1 : ∀ p, p ≠ i → p ≠ i + 1 → A[p]? = M[p]?) (hA2 : A[i]? = M[i + 1]?) (hA3 : A[i + 1]? = M[i]?)
    (hlB : B.length = M.length + 1) (hB1 : ∀ p, p < j → B[p]? = M[p]?) (hB2 : ∀ p, j ≤ p → B[p + 1]? = M[p]?) : Share x y := by
  obtain ⟨h, hn⟩ : ∃ h, M.length = 3 * h ∨ M.length = 3 * h + 1 ∨ M.length = 3 * h + 2 := ⟨M.length / 3, by omega⟩
  rcases hn with hn | hn | hn
  · by_cases hc4 : i + 1 < h
    · by_cases hc6 : j ≤ h * 2
      · exact (common_suf (h * 2) (h * 2 + 1) (by unfold Suf; dsimp only; omega) (by unfold Suf; dsimp only; omega) fun p => by
            rw [hA1 _ (by omega) (by omega), ← hB2 _ (by omega)]; try (congr 1; omega)).share hx hy
      · exact (common_mid (h) (h * 2) (h) (h * 2) (by unfold Mid; dsimp only; omega) (by unfold Mid; dsimp only; omega) (by omega) fun p hp => by
            rw [hA1 _ (by omega) (by omega), hB1 _ (by omega)]).share hx hy
    · by_cases hc6 : i + 1 = h
      · by_cases hc8 : j ≤ h * 2
        · exact (common_suf (h * 2) (h * 2 + 1) (by unfold Suf; dsimp only; omega) (by unfold Suf; dsimp only; omega) fun p => by
              rw [hA1 _ (by omega) (by omega), ← hB2 _ (by omega)]; try (congr 1; omega)).share hx hy
        · exact share_first (h := h) (by omega) (by omega) (by omega) hx hy (by unfold Pre; omega)
            (fun p hp => by rw [hA1 _ (by omega) (by omega), hB1 _ (by omega)])
            (by rw [show h = i + 1 by omega, hA3, hB1 _ (by omega)]; congr 1)
      · by_cases hc8 : h ≤ j
        · exact (common_pre (h) (by unfold Pre; omega) (by unfold Pre; omega) fun p hp => by
              rw [hA1 _ (by omega) (by omega), hB1 _ (by omega)]).share hx hy
        · by_cases hc10 : i + 1 < h * 2
          · exact (common_suf (h * 2) (h * 2 + 1) (by unfold Suf; dsimp only; omega) (by unfold Suf; dsimp only; omega) fun p => by
                rw [hA1 _ (by omega) (by omega), ← hB2 _ (by omega)]; try (congr 1; omega)).share hx hy
          · by_cases hc12 : i + 1 = h * 2
            · exact share_last (h := h) (j := h * 2 + 1) (by omega) (by omega) hx hy (by unfold Suf; dsimp only; omega)
                (by rw [show h * 2 - 1 = i by omega, hA2, hB2 _ (by omega)]; congr 1)
                (fun p => by rw [hA1 _ (by omega) (by omega), ← hB2 _ (by omega)]; congr 1; omega)
            · exact (common_mid (h) (h * 2) (h + 1) (h * 2 + 1) (by unfold Mid; dsimp only; omega) (by unfold Mid; dsimp only; omega) (by omega) fun p hp => by
                  rw [hA1 _ (by omega) (by omega), ← hB2 _ (by omega)]; try (congr 1; omega)).share hx hy
  · by_cases hc4 : i < h
    · by_cases hc6 : j ≤ h * 2 + 1
      · exact (common_suf (h * 2 + 1) (h * 2 + 2) (by unfold Suf; dsimp only; omega) (by unfold Suf; dsimp only; omega) fun p => by
            rw [hA1 _ (by omega) (by omega), ← hB2 _ (by omega)]; try (congr 1; omega)).share hx hy
      · exact (common_mid (h + 1) (h * 2 + 1) (h + 1) (h * 2 + 1) (by unfold Mid; dsimp only; omega) (by unfold Mid; dsimp only; omega) (by omega) fun p hp => by
            rw [hA1 _ (by omega) (by omega), hB1 _ (by omega)]).share hx hy
    · by_cases hc6 : h ≤ j
      · exact (common_pre (h) (by unfold Pre; omega) (by unfold Pre; omega) fun p hp => by
            rw [hA1 _ (by omega) (by omega), hB1 _ (by omega)]).share hx hy
      · by_cases hc8 : i < h * 2
        · exact (common_suf (h * 2 + 1) (h * 2 + 2) (by unfold Suf; dsimp only; omega) (by unfold Suf; dsimp only; omega) fun p => by
              rw [hA1 _ (by omega) (by omega), ← hB2 _ (by omega)]; try (congr 1; omega)).share hx hy
        · exact (common_mid (h) (h * 2) (h + 1) (h * 2 + 1) (by unfold Mid; dsimp only; omega) (by unfold Mid; dsimp only; omega) (by omega) fun p hp => by
              rw [hA1 _ (by omega) (by omega), ← hB2 _ (by omega)]; try (congr 1; omega)).share hx hy
  · by_cases hc4 : i < h
    · by_cases hc6 : j ≤ h * 2 + 1
      · exact (common_suf (h * 2 + 1) (h * 2 + 2) (by unfold Suf; dsimp only; omega) (by unfold Suf; dsimp only; omega) fun p => by
            rw [hA1 _ (by omega) (by omega), ← hB2 _ (by omega)]; try (congr 1; omega)).share hx hy
      · exact (common_mid (h + 1) (h * 2 + 2) (h + 1) (h * 2 + 2) (by unfold Mid; dsimp only; omega) (by unfold Mid; dsimp only; omega) (by omega) fun p hp => by
            rw [hA1 _ (by omega) (by omega), hB1 _ (by omega)]).share hx hy
    · by_cases hc6 : i = h
      · by_cases hc8 : j ≤ h * 2 + 1
        · by_cases hc10 : 0 < h
          · exact (common_suf (h * 2 + 1) (h * 2 + 2) (by unfold Suf; dsimp only; omega) (by unfold Suf; dsimp only; omega) fun p => by
                rw [hA1 _ (by omega) (by omega), ← hB2 _ (by omega)]; try (congr 1; omega)).share hx hy
          · by_cases hc12 : j = 0
            · exact (common_mid 1 2 1 2 (by unfold Mid; dsimp only; omega) (by unfold Mid; dsimp only; omega) rfl fun p hp => by
                  obtain rfl : p = 0 := by omega
                  obtain rfl : i = 0 := by omega
                  obtain rfl : j = 0 := by omega
                  exact hA3.trans (hB2 0 (by omega)).symm).share hx hy
            · exact (share_middle (h := 1) (i := 1) (j := 2) (by omega) (by omega) hy hx (by unfold Mid; dsimp only; omega) rfl
                (by obtain rfl : i = 0 := by omega
                    exact (hB1 0 (by omega)).trans hA3.symm)
                (fun p hp => by omega)).symm
        · exact (share_first (h := h + 1) (by omega) (by omega) (by omega) hy hx (by unfold Pre; omega)
            (fun p hp => by rw [hA1 _ (by omega) (by omega), hB1 _ (by omega)])
            (by rw [hB1 _ (by omega), show h + 1 - 1 = i by omega, hA2]; congr 1; omega)).symm
      · by_cases hc8 : h + 1 ≤ j
        · exact (common_pre (h + 1) (by unfold Pre; omega) (by unfold Pre; omega) fun p hp => by
              rw [hA1 _ (by omega) (by omega), hB1 _ (by omega)]).share hx hy
        · by_cases hc10 : i < h * 2
          · exact (common_suf (h * 2 + 1) (h * 2 + 2) (by unfold Suf; dsimp only; omega) (by unfold Suf; dsimp only; omega) fun p => by
                rw [hA1 _ (by omega) (by omega), ← hB2 _ (by omega)]; try (congr 1; omega)).share hx hy
          · by_cases hc12 : i = h * 2
            · exact (share_last (h := h + 1) (j := h * 2 + 1) (by omega) (by omega) hy hx (by unfold Suf; dsimp only; omega)
                (by rw [show h * 2 + 1 = i + 1 by omega, hA3, show (h + 1) * 2 - 1 = i + 1 by omega, hB2 _ (by omega)])
                (fun p => by rw [hA1 _ (by omega) (by omega), ← hB2 _ (by omega)]; congr 1; omega)).symm
            · exact (common_mid (h) (h * 2 + 1) (h + 1) (h * 2 + 2) (by unfold Mid; dsimp only; omega) (by unfold Mid; dsimp only; omega) (by omega) fun p hp => by
                  rw [hA1 _ (by omega) (by omega), ← hB2 _ (by omega)]; try (congr 1; omega)).share hx hy

theorem share_swap_delete {f1 f2 f3 : α} {A B M : List α} {x y : List (List α)} {i j : ℕ} (hx : levenshtein2dBlocks true f1 f2 f3 A = .ok x)
    (hy : levenshtein2dBlocks true f1 f2 f3 B = .ok y) (hlA : A.length = M.length) (hi : i + 1 < M.length)
    (hA1 : ∀ p, p ≠ i → p ≠ i + 1 → A[p]? = M[p]?) (hA2 : A[i]? = M[i + 1]?) (hA3 : A[i + 1]? = M[i]?)
    (hlB : B.length + 1 = M.length) (hB1 : ∀ p, p < j → B[p]? = M[p]?) (hB2 : ∀ p, j ≤ p → B[p]? = M[p + 1]?) : Share x y := by
  obtain ⟨h, hn⟩ : ∃ h, B.length = 3 * h ∨ B.length = 3 * h + 1 ∨ B.length = 3 * h + 2 := ⟨B.length / 3, by omega⟩
  rcases hn with hn | hn | hn
  · by_cases hc4 : i + 1 < h
    · by_cases hc6 : j ≤ h * 2
      · exact (common_suf (h * 2 + 1) (h * 2) (by unfold Suf; dsimp only; omega) (by unfold Suf; dsimp only; omega) fun p => by
            rw [hA1 _ (by omega) (by omega), hB2 _ (by omega)]; try (congr 1; omega)).share hx hy
      · exact (common_mid (h) (h * 2) (h) (h * 2) (by unfold Mid; dsimp only; omega) (by unfold Mid; dsimp only; omega) (by omega) fun p hp => by
            rw [hA1 _ (by omega) (by omega), hB1 _ (by omega)]).share hx hy
    · by_cases hc6 : i + 1 = h
      · by_cases hc8 : j ≤ h * 2
        · exact (common_suf (h * 2 + 1) (h * 2) (by unfold Suf; dsimp only; omega) (by unfold Suf; dsimp only; omega) fun p => by
              rw [hA1 _ (by omega) (by omega), hB2 _ (by omega)]; try (congr 1; omega)).share hx hy
        · exact (share_first (h := h) (by omega) (by omega) (by omega) hy hx (by unfold Pre; omega)
            (fun p hp => by rw [hA1 _ (by omega) (by omega), hB1 _ (by omega)])
            (by rw [hB1 _ (by omega), show h - 1 = i by omega, hA2]; congr 1; omega)).symm
      · by_cases hc8 : h ≤ j
        · exact (common_pre (h) (by unfold Pre; omega) (by unfold Pre; omega) fun p hp => by
              rw [hA1 _ (by omega) (by omega), hB1 _ (by omega)]).share hx hy
        · by_cases hc10 : i < h * 2
          · exact (common_suf (h * 2 + 1) (h * 2) (by unfold Suf; dsimp only; omega) (by unfold Suf; dsimp only; omega) fun p => by
                rw [hA1 _ (by omega) (by omega), hB2 _ (by omega)]; try (congr 1; omega)).share hx hy
          · by_cases hc12 : i = h * 2
            · exact (share_last (h := h) (j := h * 2 + 1) (by omega) (by omega) hy hx (by unfold Suf; dsimp only; omega)
                (by rw [show h * 2 + 1 = i + 1 by omega, hA3, hB2 _ (by omega)]; congr 1; omega)
                (fun p => by rw [hA1 _ (by omega) (by omega), hB2 _ (by omega)]; congr 1; omega)).symm
            · exact (common_mid (h + 1) (h * 2 + 1) (h) (h * 2) (by unfold Mid; dsimp only; omega) (by unfold Mid; dsimp only; omega) (by omega) fun p hp => by
                  rw [hA1 _ (by omega) (by omega), hB2 _ (by omega)]; try (congr 1; omega)).share hx hy
  · by_cases hc4 : i < h
    · by_cases hc6 : j ≤ h * 2 + 1
      · exact (common_suf (h * 2 + 2) (h * 2 + 1) (by unfold Suf; dsimp only; omega) (by unfold Suf; dsimp only; omega) fun p => by
            rw [hA1 _ (by omega) (by omega), hB2 _ (by omega)]; try (congr 1; omega)).share hx hy
      · exact (common_mid (h + 1) (h * 2 + 1) (h + 1) (h * 2 + 1) (by unfold Mid; dsimp only; omega) (by unfold Mid; dsimp only; omega) (by omega) fun p hp => by
            rw [hA1 _ (by omega) (by omega), hB1 _ (by omega)]).share hx hy
    · by_cases hc6 : h ≤ j
      · exact (common_pre (h) (by unfold Pre; omega) (by unfold Pre; omega) fun p hp => by
            rw [hA1 _ (by omega) (by omega), hB1 _ (by omega)]).share hx hy
      · by_cases hc8 : i ≤ h * 2
        · exact (common_suf (h * 2 + 2) (h * 2 + 1) (by unfold Suf; dsimp only; omega) (by unfold Suf; dsimp only; omega) fun p => by
              rw [hA1 _ (by omega) (by omega), hB2 _ (by omega)]; try (congr 1; omega)).share hx hy
        · exact (common_mid (h + 1) (h * 2 + 1) (h) (h * 2) (by unfold Mid; dsimp only; omega) (by unfold Mid; dsimp only; omega) (by omega) fun p hp => by
              rw [hA1 _ (by omega) (by omega), hB2 _ (by omega)]; try (congr 1; omega)).share hx hy
  · by_cases hc4 : i < h
    · by_cases hc6 : j ≤ h * 2 + 1
      · exact (common_suf (h * 2 + 2) (h * 2 + 1) (by unfold Suf; dsimp only; omega) (by unfold Suf; dsimp only; omega) fun p => by
            rw [hA1 _ (by omega) (by omega), hB2 _ (by omega)]; try (congr 1; omega)).share hx hy
      · exact (common_mid (h + 1) (h * 2 + 2) (h + 1) (h * 2 + 2) (by unfold Mid; dsimp only; omega) (by unfold Mid; dsimp only; omega) (by omega) fun p hp => by
            rw [hA1 _ (by omega) (by omega), hB1 _ (by omega)]).share hx hy
    · by_cases hc6 : i = h
      · by_cases hc8 : j ≤ h * 2 + 1
        · exact (common_suf (h * 2 + 2) (h * 2 + 1) (by unfold Suf; dsimp only; omega) (by unfold Suf; dsimp only; omega) fun p => by
              rw [hA1 _ (by omega) (by omega), hB2 _ (by omega)]; try (congr 1; omega)).share hx hy
        · exact share_first (h := h + 1) (by omega) (by omega) (by omega) hx hy (by unfold Pre; omega)
            (fun p hp => by rw [hA1 _ (by omega) (by omega), hB1 _ (by omega)])
            (by rw [show h + 1 = i + 1 by omega, hA3, hB1 _ (by omega)]; congr 1)
      · by_cases hc8 : h + 1 ≤ j
        · exact (common_pre (h + 1) (by unfold Pre; omega) (by unfold Pre; omega) fun p hp => by
              rw [hA1 _ (by omega) (by omega), hB1 _ (by omega)]).share hx hy
        · by_cases hc10 : i ≤ h * 2
          · exact (common_suf (h * 2 + 2) (h * 2 + 1) (by unfold Suf; dsimp only; omega) (by unfold Suf; dsimp only; omega) fun p => by
                rw [hA1 _ (by omega) (by omega), hB2 _ (by omega)]; try (congr 1; omega)).share hx hy
          · by_cases hc12 : i = h * 2 + 1
            · exact share_last (h := h + 1) (j := h * 2 + 1) (by omega) (by omega) hx hy (by unfold Suf; dsimp only; omega)
                (by rw [show (h + 1) * 2 - 1 = i by omega, hA2, hB2 _ (by omega)]; congr 1; omega)
                (fun p => by rw [hA1 _ (by omega) (by omega), hB2 _ (by omega)]; congr 1; omega)
            · exact (common_mid (h + 1) (h * 2 + 2) (h) (h * 2 + 1) (by unfold Mid; dsimp only; omega) (by unfold Mid; dsimp only; omega) (by omega) fun p hp => by
                  rw [hA1 _ (by omega) (by omega), hB2 _ (by omega)]; try (congr 1; omega)).share hx hy

theorem share_swap_swap {f1 f2 f3 : α} {A B M : List α} {x y : List (List α)} {i j : ℕ} (hx : levenshtein2dBlocks true f1 f2 f3 A = .ok x)
    (hy : levenshtein2dBlocks true f1 f2 f3 B = .ok y) (hlA : A.length = M.length) (hi : i + 1 < M.length)
    (hA1 : ∀ p, p ≠ i → p ≠ i + 1 → A[p]? = M[p]?) (hA2 : A[i]? = M[i + 1]?) (hA3 : A[i + 1]? = M[i]?)
    (hlB : B.length = M.length) (hB1 : ∀ p, p ≠ j → p ≠ j + 1 → B[p]? = M[p]?)
    (hB2 : B[j]? = M[j + 1]?) (hij : i < j) (hex : ¬ (M.length = 3 * (i + 1) + 1 ∧ j = 2 * (i + 1))) : Share x y := by
  obtain ⟨h, hn⟩ : ∃ h, M.length = 3 * h ∨ M.length = 3 * h + 1 ∨ M.length = 3 * h + 2 := ⟨M.length / 3, by omega⟩
  rcases hn with hn | hn | hn
  · by_cases hc4 : i + 1 < h
    · by_cases hc6 : j + 1 < h * 2
      · exact (common_suf (h * 2) (h * 2) (by unfold Suf; dsimp only; omega) (by unfold Suf; dsimp only; omega) fun p => by
            rw [hA1 _ (by omega) (by omega), hB1 _ (by omega) (by omega)]).share hx hy
      · by_cases hc8 : j + 1 = h * 2
        · exact (share_last (h := h) (j := h * 2) (by omega) (by omega) hy hx (by unfold Suf; dsimp only; omega)
            (by rw [show h * 2 - 1 = j by omega, hB2, hA1 _ (by omega) (by omega)]; congr 1)
            (fun p => by rw [hA1 _ (by omega) (by omega), hB1 _ (by omega) (by omega)])).symm
        · exact (common_mid (h) (h * 2) (h) (h * 2) (by unfold Mid; dsimp only; omega) (by unfold Mid; dsimp only; omega) (by omega) fun p hp => by
              rw [hA1 _ (by omega) (by omega), hB1 _ (by omega) (by omega)]).share hx hy
    · by_cases hc6 : i + 1 = h
      · by_cases hc8 : j + 1 < h * 2
        · exact (common_suf (h * 2) (h * 2) (by unfold Suf; dsimp only; omega) (by unfold Suf; dsimp only; omega) fun p => by
              rw [hA1 _ (by omega) (by omega), hB1 _ (by omega) (by omega)]).share hx hy
        · exact share_first (h := h) (by omega) (by omega) (by omega) hx hy (by unfold Pre; omega)
            (fun p hp => by rw [hA1 _ (by omega) (by omega), hB1 _ (by omega) (by omega)])
            (by rw [show h = i + 1 by omega, hA3, hB1 _ (by omega) (by omega)]; congr 1)
      · exact (common_pre (h) (by unfold Pre; omega) (by unfold Pre; omega) fun p hp => by
            rw [hA1 _ (by omega) (by omega), hB1 _ (by omega) (by omega)]).share hx hy
  · by_cases hc4 : i < h
    · by_cases hc6 : j < h * 2
      · exact (common_suf (h * 2 + 1) (h * 2 + 1) (by unfold Suf; dsimp only; omega) (by unfold Suf; dsimp only; omega) fun p => by
            rw [hA1 _ (by omega) (by omega), hB1 _ (by omega) (by omega)]).share hx hy
      · by_cases hc8 : j = h * 2
        · exact (common_mid (h) (h * 2) (h) (h * 2) (by unfold Mid; dsimp only; omega) (by unfold Mid; dsimp only; omega) (by omega) fun p hp => by
              rw [hA1 _ (by omega) (by omega), hB1 _ (by omega) (by omega)]).share hx hy
        · exact (common_mid (h + 1) (h * 2 + 1) (h + 1) (h * 2 + 1) (by unfold Mid; dsimp only; omega) (by unfold Mid; dsimp only; omega) (by omega) fun p hp => by
              rw [hA1 _ (by omega) (by omega), hB1 _ (by omega) (by omega)]).share hx hy
    · exact (common_pre (h) (by unfold Pre; omega) (by unfold Pre; omega) fun p hp => by
          rw [hA1 _ (by omega) (by omega), hB1 _ (by omega) (by omega)]).share hx hy
  · by_cases hc4 : i < h
    · by_cases hc6 : j ≤ h * 2
      · exact (common_suf (h * 2 + 2) (h * 2 + 2) (by unfold Suf; dsimp only; omega) (by unfold Suf; dsimp only; omega) fun p => by
            rw [hA1 _ (by omega) (by omega), hB1 _ (by omega) (by omega)]).share hx hy
      · exact (common_mid (h + 1) (h * 2 + 1) (h + 1) (h * 2 + 1) (by unfold Mid; dsimp only; omega) (by unfold Mid; dsimp only; omega) (by omega) fun p hp => by
            rw [hA1 _ (by omega) (by omega), hB1 _ (by omega) (by omega)]).share hx hy
    · exact (common_pre (h) (by unfold Pre; omega) (by unfold Pre; omega) fun p hp => by
          rw [hA1 _ (by omega) (by omega), hB1 _ (by omega) (by omega)]).share hx hy

/-- C10, Damerau variant: two strings reached from a third one by a swap and by an insertion, a deletion or a substitution share a block. -/
theorem damerau_levenshtein_2d_blocks_swap_edit (f1 f2 f3 : α) (u v : List α) (c d : α) (B : List α) (x y : List (List α))
    (he : Edit (u ++ c :: d :: v) B) (hx : levenshtein2dBlocks true f1 f2 f3 (u ++ d :: c :: v) = .ok x)
    (hy : levenshtein2dBlocks true f1 f2 f3 B = .ok y) : ∃ k, k ∈ x ∧ k ∈ y := by
  obtain ⟨h1, h2, h3⟩ := swap_getElem? u v c d
  generalize hM : u ++ c :: d :: v = M at he h1 h2 h3
  have hl : (u ++ d :: c :: v).length = M.length := by rw [← hM]; simp
  have hi : u.length + 1 < M.length := by rw [← hM]; simp
  cases he with
  | insert u' v' e =>
    exact share_swap_insert (i := u.length) hx hy hl hi h1 h2 h3 (j := u'.length) (by simp; omega) (insert_getElem? u' v' e).1
      (insert_getElem? u' v' e).2
  | delete u' v' e =>
    exact share_swap_delete (i := u.length) hx hy hl hi h1 h2 h3 (j := u'.length) (by simp; omega)
      (fun p hp => ((insert_getElem? u' v' e).1 p hp).symm) (fun p hp => ((insert_getElem? u' v' e).2 p hp).symm)
  | subst u' v' e f =>
    exact share_swap_subst (i := u.length) hx hy hl hi h1 h2 h3 (j := u'.length) (by simp) (subst_getElem? u' v' e f)

/-- Two swaps of the letters of a same string, where the blocks do not meet. -/
theorem swap_swap_apart {u v u' v' : List α} {c d c' d' : α} (h : u ++ c :: d :: v = u' ++ c' :: d' :: v') (hu : u.length + 2 ≤ u'.length) :
    ∃ t, u' = u ++ c :: d :: t ∧ v = t ++ c' :: d' :: v' := by
  rcases List.append_eq_append_iff.mp h with ⟨t, rfl, ht⟩ | ⟨t, rfl, ht⟩
  · match t, hu with
    | a :: b :: t, _ =>
      simp only [List.cons_append, List.cons.injEq] at ht
      obtain ⟨rfl, rfl, rfl⟩ := ht
      exact ⟨t, rfl, rfl⟩
    | [], hu => simp at hu; omega
    | [a], hu => simp at hu
  · simp only [List.length_append] at hu
    omega

/-- C10, Damerau variant: two strings reached from a third one by a swap each share a block, unless the length is `3 h + 1` and one swap is at
the end of the first `h` letters, the other before the last `h` letters. -/
theorem damerau_levenshtein_2d_blocks_swap_swap (f1 f2 f3 : α) (u v u' v' : List α) (c d c' d' : α) (x y : List (List α))
    (h : u ++ c :: d :: v = u' ++ c' :: d' :: v') (hx : levenshtein2dBlocks true f1 f2 f3 (u ++ d :: c :: v) = .ok x)
    (hy : levenshtein2dBlocks true f1 f2 f3 (u' ++ d' :: c' :: v') = .ok y)
    (h1 : ¬ (v'.length = u.length ∧ u'.length = 2 * u.length + 2)) (h2 : ¬ (v.length = u'.length ∧ u.length = 2 * u'.length + 2)) :
    ∃ k, k ∈ x ∧ k ∈ y := by
  obtain ⟨a1, a2, a3⟩ := swap_getElem? u v c d
  obtain ⟨b1, b2, b3⟩ := swap_getElem? u' v' c' d'
  have hl := congrArg List.length h
  simp only [List.length_append, List.length_cons] at hl
  rw [← h] at b1 b2 b3
  rcases Nat.lt_trichotomy u.length u'.length with hlt | heq | hlt
  · refine share_swap_swap (i := u.length) (j := u'.length) hx hy (by simp) (by simp) a1 a2 a3 (by simp; omega) b1 b2 hlt ?_
    simp only [List.length_append, List.length_cons]
    omega
  · obtain ⟨rfl, h4⟩ := List.append_inj h heq
    simp only [List.cons.injEq] at h4
    obtain ⟨rfl, rfl, rfl⟩ := h4
    have hxy : x = y := Except.ok.inj (hx.symm.trans hy)
    subst hxy
    have := (blocks2_mem hx).1 ((u ++ d :: c :: v).length / 3) (by unfold Pre; omega)
    exact ⟨_, this, this⟩
  · refine Share.symm (share_swap_swap (i := u'.length) (j := u.length) hy hx (by simp; omega) (by simp; omega) b1 b2 b3 (by simp) a1 a2 hlt ?_)
    simp only [List.length_append, List.length_cons]
    omega

/-- C10, Damerau variant, what holds: strings within two edits or swaps share a block, except possibly in two cases: the same length, a
multiple of three, with a letter taken away and another put elsewhere; or two swaps, both at the borders of the thirds. -/
theorem damerau_levenshtein_2d_blocks_complete_partial (f1 f2 f3 : α) (A B : List α) (x y : List (List α)) (h : WithinDEdits 2 A B)
    (hx : levenshtein2dBlocks true f1 f2 f3 A = .ok x) (hy : levenshtein2dBlocks true f1 f2 f3 B = .ok y) :
    (∃ k, k ∈ x ∧ k ∈ y) ∨ (A.length = B.length ∧ A.length % 3 = 0 ∧ MovesLetter A B) ∨ SwapsBorders A B := by
  have edits : WithinEdits 2 A B → (∃ k, k ∈ x ∧ k ∈ y) ∨ (A.length = B.length ∧ A.length % 3 = 0 ∧ MovesLetter A B) := by
    intro he
    by_cases hex : A.length ≠ B.length ∨ A.length % 3 ≠ 0
    · exact .inl (levenshtein_2d_blocks_complete_partial true f1 f2 f3 A B x y he hex hx hy)
    · push Not at hex
      rcases withinEdits_two_same_length hex.1 he with hd | ⟨u, c, v, d, w, h1, h2⟩ | ⟨u, c, v, d, w, h1, h2⟩
      · exact .inl (levenshtein_2d_blocks_substitutions_partial true f1 f2 f3 A B x y hd hx hy)
      · exact .inr ⟨hex.1, hex.2, u, c, v, d, w, .inl ⟨h1, h2⟩⟩
      · exact .inr ⟨hex.1, hex.2, u, c, v, d, w, .inr ⟨h1, h2⟩⟩
  obtain ⟨m, hm, hch⟩ := h
  match m, hm, hch with
  | 0, _, .nil _ => exact (edits ⟨0, by omega, .nil _⟩).imp_right .inl
  | 1, _, .cons h1 (.nil _) =>
    cases h1 with
    | edit h1 => exact (edits ⟨1, by omega, .cons h1 (.nil _)⟩).imp_right .inl
    | swap u v c d =>
      exact (edits ⟨2, by omega, .cons (.subst u (d :: v) c d) (.cons (by simpa using Edit.subst (u ++ [d]) v d c) (.nil _))⟩).imp_right .inl
  | 2, _, .cons h1 (.cons h2 (.nil _)) =>
    cases h1 with
    | edit h1 =>
      cases h2 with
      | edit h2 => exact (edits ⟨2, by omega, .cons h1 (.cons h2 (.nil _))⟩).imp_right .inl
      | swap u v c d =>
        obtain ⟨k, h3, h4⟩ := damerau_levenshtein_2d_blocks_swap_edit f1 f2 f3 u v c d A y x (Edit.symm h1) hy hx
        exact .inl ⟨k, h4, h3⟩
    | swap u v c d =>
      generalize hM : u ++ d :: c :: v = M at h2
      cases h2 with
      | edit h2 =>
        subst hM
        exact .inl (damerau_levenshtein_2d_blocks_swap_edit f1 f2 f3 u v d c B x y h2 hx hy)
      | swap u' v' c' d' =>
        by_cases h1 : v'.length = u.length ∧ u'.length = 2 * u.length + 2
        · obtain ⟨t, rfl, rfl⟩ := swap_swap_apart hM (by omega)
          simp only [List.length_append, List.length_cons] at h1
          exact .inr (.inr ⟨u, c, d, t, c', d', v', by omega, by omega, by simp, by simp⟩)
        · by_cases h2 : v.length = u'.length ∧ u.length = 2 * u'.length + 2
          · obtain ⟨t, rfl, rfl⟩ := swap_swap_apart hM.symm (by omega)
            simp only [List.length_append, List.length_cons] at h2
            exact .inr (.inr ⟨u', c', d', t, c, d, v, by omega, by omega, by simp, by simp⟩)
          · exact .inl (damerau_levenshtein_2d_blocks_swap_swap f1 f2 f3 u v u' v' d c c' d' x y hM hx hy h1 h2)

/-- "abcdef" and "bacdxef" are a swap and an insertion apart. -/
example : WithinDEdits 2 (cps "abcdef") (cps "bacdxef") ∧ ¬ SwapsBorders (cps "abcdef") (cps "bacdxef") ∧
    (cps "abcdef").length ≠ (cps "bacdxef").length :=
  ⟨⟨2, Nat.le_refl 2, .cons (.swap [] (cps "cdef") 97 98) (.cons (.edit (.insert (cps "bacd") (cps "ef") 120)) (.nil _))⟩, by
    rintro ⟨u, a, b, v, c, d, w, h1, h2, h3, h4⟩
    have h5 := congrArg List.length h3
    have h6 := congrArg List.length h4
    have h7 : (cps "abcdef").length = 6 := by decide
    have h8 : (cps "bacdxef").length = 7 := by decide
    simp only [List.length_append, List.length_cons] at h5 h6
    omega, by decide⟩

/-- Both swaps of "abcd" and "badc" are at the borders. -/
example : SwapsBorders (cps "abcd") (cps "badc") := ⟨[], 97, 98, [], 99, 100, [], rfl, rfl, by decide, by decide⟩

end Fog.Props
