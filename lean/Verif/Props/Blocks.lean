import Verif.Model.KeyLevenshtein
import Verif.Spec.Blocks

/-!
# C71: blocks are parts of the string
-/

namespace Fog.Props

open Fog.Spec Fog.KeyLevenshtein

variable {α : Type _}

private theorem three (s : List α) {i j : Nat} (hij : i ≤ j) : s = s.take i ++ slice s i j ++ s.drop j := by
  have : s.take i = (s.take j).take i := by rw [List.take_take, Nat.min_eq_left hij]
  rw [this, slice, List.take_append_drop, List.take_append_drop]

private theorem len_slice (s : List α) (i j : Nat) : (slice s i j).length = min j s.length - i := by simp [slice]

/-- `s` around the letters at `i` and `i + 1`. -/
private theorem around (s : List α) (i : Nat) {x y : α} (hx : s[i]? = some x) (hy : s[i + 1]? = some y) :
    s = s.take i ++ x :: y :: s.drop (i + 2) := by
  obtain ⟨h1, rfl⟩ := List.getElem?_eq_some_iff.mp hx
  obtain ⟨h2, rfl⟩ := List.getElem?_eq_some_iff.mp hy
  rw [← List.drop_eq_getElem_cons h2, ← List.drop_eq_getElem_cons h1, List.take_append_drop]

/-- C71. Every block of `levenshtein_1d_blocks` is a half of the string with the flag at the outside end, or, with transpositions, of the
string with two letters swapped; there are at most four. -/
theorem levenshtein_1d_blocks_halves (t : Bool) (flag : α) (s : List α) (hs : t = true → s ≠ []) :
    (levenshtein1dBlocks t flag s).length ≤ 4 ∧ ∀ b ∈ levenshtein1dBlocks t flag s, ∃ s' p q, Halves s' p q ∧
      (s' = s ∨ t = true ∧ UpToSwap s s') ∧ (b = flag :: p ∨ b = q ++ [flag]) := by
  unfold levenshtein1dBlocks
  simp only
  split
  · next h1 =>
    obtain ⟨c, rfl⟩ := List.length_eq_one_iff.mp h1
    refine ⟨by simp, fun b hb => ?_⟩
    simp only [List.mem_cons, List.not_mem_nil, or_false] at hb
    rcases hb with rfl | rfl | rfl
    · exact ⟨[c], [c], [], by simp [Halves], .inl rfl, .inl rfl⟩
    · exact ⟨[c], [], [c], by simp [Halves], .inl rfl, .inr rfl⟩
    · exact ⟨[c], [], [c], by simp [Halves], .inl rfl, .inl rfl⟩
  · next h1 =>
    have halves : ∀ i, i ≤ s.length → i ≤ s.length - i + 1 → s.length - i ≤ i + 1 → Halves s (s.take i) (s.drop i) := by
      intro i h2 h3 h4
      refine ⟨(List.take_append_drop i s).symm, ?_, ?_⟩ <;> simp <;> omega
    have hh := halves (s.length / 2) (by omega) (by omega) (by omega)
    split
    · next h2 =>
      split
      · next ht =>
        refine ⟨by simp, fun b hb => ?_⟩
        have hne := hs ht
        have hpos : 0 < s.length := List.length_pos_iff.mpr hne
        obtain ⟨x, hx⟩ : ∃ x, s[s.length / 2 - 1]? = some x := by
          rw [← Option.isSome_iff_exists]; simp; omega
        obtain ⟨y, hy⟩ : ∃ y, s[s.length / 2]? = some y := by
          rw [← Option.isSome_iff_exists]; simp; omega
        have hs2 := around s (s.length / 2 - 1) (y := y) hx (by rw [← hy]; congr 1; omega)
        rw [show s.length / 2 - 1 + 2 = s.length / 2 + 1 by omega] at hs2
        have hd : s.drop (s.length / 2) = y :: s.drop (s.length / 2 + 1) := by
          obtain ⟨h5, rfl⟩ := List.getElem?_eq_some_iff.mp hy
          exact List.drop_eq_getElem_cons h5
        have ht2 : s.take (s.length / 2) = s.take (s.length / 2 - 1) ++ [x] := by
          obtain ⟨h5, rfl⟩ := List.getElem?_eq_some_iff.mp hx
          rw [← List.take_succ_eq_append_getElem h5]
          congr 1
          omega
        have hsw : Halves (s.take (s.length / 2 - 1) ++ y :: x :: s.drop (s.length / 2 + 1))
            (s.take (s.length / 2 - 1) ++ [y]) (x :: s.drop (s.length / 2 + 1)) := by
          refine ⟨by simp, ?_, ?_⟩ <;> simp <;> omega
        have hup : UpToSwap s (s.take (s.length / 2 - 1) ++ y :: x :: s.drop (s.length / 2 + 1)) :=
          .inr ⟨_, _, _, _, hs2, rfl⟩
        have e1 : flag :: s.take (s.length / 2 - 1) ++ (s.drop (s.length / 2) ++ [flag]).head?.toList =
            flag :: (s.take (s.length / 2 - 1) ++ [y]) := by rw [hd]; simp
        have e2 : (flag :: s.take (s.length / 2)).getLast?.toList ++ s.drop (s.length / 2 + 1) ++ [flag] =
            x :: s.drop (s.length / 2 + 1) ++ [flag] := by rw [ht2, ← List.cons_append, List.getLast?_concat]; simp
        rw [e1, e2] at hb
        simp only [List.mem_cons, List.not_mem_nil, or_false] at hb
        rcases hb with rfl | rfl | rfl | rfl
        · exact ⟨s, _, _, hh, .inl rfl, .inl rfl⟩
        · exact ⟨s, _, _, hh, .inl rfl, .inr rfl⟩
        · exact ⟨_, _, _, hsw, .inr ⟨ht, hup⟩, .inl rfl⟩
        · exact ⟨_, _, _, hsw, .inr ⟨ht, hup⟩, .inr rfl⟩
      · refine ⟨by simp, fun b hb => ?_⟩
        simp only [List.mem_cons, List.not_mem_nil, or_false] at hb
        rcases hb with rfl | rfl
        · exact ⟨s, _, _, hh, .inl rfl, .inl rfl⟩
        · exact ⟨s, _, _, hh, .inl rfl, .inr rfl⟩
    · next h2 =>
      have hh1 := halves (s.length / 2 + 1) (by omega) (by omega) (by omega)
      refine ⟨by simp, fun b hb => ?_⟩
      simp only [List.mem_cons, List.not_mem_nil, or_false] at hb
      rcases hb with rfl | rfl | rfl | rfl
      · exact ⟨s, _, _, hh, .inl rfl, .inl rfl⟩
      · exact ⟨s, _, _, hh, .inl rfl, .inr rfl⟩
      · exact ⟨s, _, _, hh1, .inl rfl, .inl rfl⟩
      · exact ⟨s, _, _, hh1, .inl rfl, .inr rfl⟩

/-- The four blocks of "abcd" with transpositions. -/
example : levenshtein1dBlocks true '*' "abcd".toList = ["*ab", "cd*", "*ac", "bd*"].map String.toList := by decide

/-- The empty string is left out with transpositions: one of its blocks has two flags. -/
theorem damerau_levenshtein_1d_blocks_empty (flag : α) : [flag, flag] ∈ levenshtein1dBlocks true flag [] := by
  simp [levenshtein1dBlocks]

/-- C71. Every block of `levenshtein_2d_blocks` is a third of the string behind the flag of its rank, or, with transpositions, of the string
with two letters swapped; there are at most seven. -/
theorem levenshtein_2d_blocks_thirds (t : Bool) (flag1 flag2 flag3 : α) (s : List α) (blocks : List (List α))
    (h : levenshtein2dBlocks t flag1 flag2 flag3 s = .ok blocks) :
    blocks.length ≤ 7 ∧ ∀ b ∈ blocks, ∃ s' p q r, Thirds s' p q r ∧ (s' = s ∨ t = true ∧ UpToSwap s s') ∧
      (b = flag1 :: p ∨ b = flag2 :: q ∨ b = flag3 :: r) := by
  have cut : ∀ i j, i ≤ j → j ≤ s.length → i ≤ j - i + 1 → i ≤ s.length - j + 1 → j - i ≤ i + 1 → j - i ≤ s.length - j + 1 →
      s.length - j ≤ i + 1 → s.length - j ≤ j - i + 1 → Thirds s (s.take i) (slice s i j) (s.drop j) := by
    intro i j h1 h2 h3 h4 h5 h6 h7 h8
    refine ⟨three s h1, ?_⟩
    simp only [List.mem_cons, List.not_mem_nil, or_false, forall_eq_or_imp, forall_eq, len_slice, List.length_take, List.length_drop]
    omega
  unfold levenshtein2dBlocks at h
  simp only at h
  split at h
  · next h0 =>
    have hb := cut (s.length / 3) (s.length / 3 * 2) (by omega) (by omega) (by omega) (by omega) (by omega) (by omega) (by omega)
      (by omega)
    split at h
    · next ht =>
      split at h
      · next x y z hx hy hz =>
        cases h
        refine ⟨by simp, fun b hb' => ?_⟩
        have hlt : s.length / 3 < s.length := (List.getElem?_eq_some_iff.mp hx).1
        have hpos : 0 < s.length / 3 := by omega
        generalize hH : s.length / 3 = H at *
        -- the swap at the first cut
        have hs1 := around s (H - 1) (y := x) hy (by rw [← hx]; congr 1; omega)
        rw [show H - 1 + 2 = H + 1 by omega] at hs1
        have hT1 : Thirds (s.take (H - 1) ++ x :: y :: s.drop (H + 1)) (s.take (H - 1) ++ [x]) (y :: slice s (H + 1) (H * 2))
            (s.drop (H * 2)) := by
          refine ⟨?_, ?_⟩
          · have e : s.drop (H + 1) = slice s (H + 1) (H * 2) ++ s.drop (H * 2) := by
              have := congrArg (List.drop (H + 1)) (three s (i := H + 1) (j := H * 2) (by omega))
              rw [List.append_assoc, List.drop_left' (by simp; omega)] at this
              exact this
            rw [e]; simp
          · simp only [List.mem_cons, List.not_mem_nil, or_false, forall_eq_or_imp, forall_eq, len_slice, List.length_take,
              List.length_drop, List.length_append, List.length_cons, List.length_nil]
            omega
        have hU1 : UpToSwap s (s.take (H - 1) ++ x :: y :: s.drop (H + 1)) := .inr ⟨_, _, _, _, hs1, rfl⟩
        -- the swap at the second cut
        obtain ⟨w, hw⟩ : ∃ w, s[H * 2]? = some w := by
          rw [← Option.isSome_iff_exists]; simp; omega
        have hs2 := around s (H * 2 - 1) (y := w) hz (by rw [← hw]; congr 1; omega)
        rw [show H * 2 - 1 + 2 = H * 2 + 1 by omega] at hs2
        have hT2 : Thirds (s.take (H * 2 - 1) ++ w :: z :: s.drop (H * 2 + 1)) (s.take H) (slice s H (H * 2 - 1) ++ [w])
            (z :: s.drop (H * 2 + 1)) := by
          refine ⟨?_, ?_⟩
          · have e : s.take (H * 2 - 1) = s.take H ++ slice s H (H * 2 - 1) := by
              have h1 : s.take H = (s.take (H * 2 - 1)).take H := by rw [List.take_take, Nat.min_eq_left (by omega)]
              rw [h1, slice, List.take_append_drop]
            rw [e]; simp
          · simp only [List.mem_cons, List.not_mem_nil, or_false, forall_eq_or_imp, forall_eq, len_slice, List.length_take,
              List.length_drop, List.length_append, List.length_cons, List.length_nil]
            omega
        have hU2 : UpToSwap s (s.take (H * 2 - 1) ++ w :: z :: s.drop (H * 2 + 1)) := .inr ⟨_, _, _, _, hs2, rfl⟩
        simp only [List.cons_append, List.nil_append, List.mem_cons, List.not_mem_nil, or_false] at hb'
        rcases hb' with rfl | rfl | rfl | rfl | rfl | rfl
        · exact ⟨s, _, _, _, hb, .inl rfl, .inl rfl⟩
        · exact ⟨s, _, _, _, hb, .inl rfl, .inr (.inl rfl)⟩
        · exact ⟨s, _, _, _, hb, .inl rfl, .inr (.inr rfl)⟩
        · exact ⟨_, _, _, _, hT1, .inr ⟨ht, hU1⟩, .inl rfl⟩
        · exact ⟨_, _, _, _, hT1, .inr ⟨ht, hU1⟩, .inr (.inl rfl)⟩
        · exact ⟨_, _, _, _, hT2, .inr ⟨ht, hU2⟩, .inr (.inr rfl)⟩
      · cases h
    · cases h
      refine ⟨by simp, fun b hb' => ?_⟩
      simp only [List.mem_cons, List.not_mem_nil, or_false] at hb'
      rcases hb' with rfl | rfl | rfl
      · exact ⟨s, _, _, _, hb, .inl rfl, .inl rfl⟩
      · exact ⟨s, _, _, _, hb, .inl rfl, .inr (.inl rfl)⟩
      · exact ⟨s, _, _, _, hb, .inl rfl, .inr (.inr rfl)⟩
  · next h0 =>
    split at h
    · next h2 =>
      cases h
      refine ⟨by simp, fun b hb' => ?_⟩
      have hb1 := cut (s.length / 3 + 1) ((s.length / 3 + 1) * 2) (by omega) (by omega) (by omega) (by omega) (by omega) (by omega)
        (by omega) (by omega)
      have hb2 := cut (s.length / 3) (s.length / 3 + 1 + s.length / 3) (by omega) (by omega) (by omega) (by omega) (by omega)
        (by omega) (by omega) (by omega)
      have hb3 := cut (s.length / 3 + 1) (s.length / 3 + 1 + s.length / 3) (by omega) (by omega) (by omega) (by omega) (by omega)
        (by omega) (by omega) (by omega)
      simp only [List.mem_cons, List.not_mem_nil, or_false] at hb'
      rcases hb' with rfl | rfl | rfl | rfl | rfl | rfl | rfl
      · exact ⟨s, _, _, _, hb1, .inl rfl, .inl rfl⟩
      · exact ⟨s, _, _, _, hb1, .inl rfl, .inr (.inl rfl)⟩
      · exact ⟨s, _, _, _, hb1, .inl rfl, .inr (.inr rfl)⟩
      · exact ⟨s, _, _, _, hb2, .inl rfl, .inl rfl⟩
      · exact ⟨s, _, _, _, hb2, .inl rfl, .inr (.inl rfl)⟩
      · exact ⟨s, _, _, _, hb2, .inl rfl, .inr (.inr rfl)⟩
      · exact ⟨s, _, _, _, hb3, .inl rfl, .inr (.inl rfl)⟩
    · next h2 =>
      cases h
      refine ⟨by simp, fun b hb' => ?_⟩
      have hb1 := cut (s.length / 3 + 1) (s.length / 3 + 1 + s.length / 3) (by omega) (by omega) (by omega) (by omega) (by omega)
        (by omega) (by omega) (by omega)
      have hb2 := cut (s.length / 3) (s.length / 3 + (s.length / 3 + 1)) (by omega) (by omega) (by omega) (by omega) (by omega)
        (by omega) (by omega) (by omega)
      have hb3 := cut (s.length / 3) (s.length / 3 * 2) (by omega) (by omega) (by omega) (by omega) (by omega)
        (by omega) (by omega) (by omega)
      simp only [List.mem_cons, List.not_mem_nil, or_false] at hb'
      rcases hb' with rfl | rfl | rfl | rfl | rfl | rfl | rfl
      · exact ⟨s, _, _, _, hb1, .inl rfl, .inl rfl⟩
      · exact ⟨s, _, _, _, hb1, .inl rfl, .inr (.inl rfl)⟩
      · exact ⟨s, _, _, _, hb1, .inl rfl, .inr (.inr rfl)⟩
      · exact ⟨s, _, _, _, hb2, .inl rfl, .inl rfl⟩
      · exact ⟨s, _, _, _, hb2, .inl rfl, .inr (.inl rfl)⟩
      · exact ⟨s, _, _, _, hb3, .inl rfl, .inr (.inl rfl)⟩
      · exact ⟨s, _, _, _, hb3, .inl rfl, .inr (.inr rfl)⟩

/-- The hypothesis is met: the blocks of "abcd". -/
example : levenshtein2dBlocks true '1' '2' '3' "abcd".toList =
    .ok (["1ab", "2c", "3d", "1a", "2bc", "2b", "3cd"].map String.toList) := by rfl

end Fog.Props
