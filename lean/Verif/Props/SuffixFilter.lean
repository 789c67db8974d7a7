import Verif.Lemmas.SuffixFilter
import Mathlib.Data.Finset.Card

/-!
# C88: the suffix filter of ppjoin+
-/

namespace Fog.Props

open Ppjoin

variable {τ : Type} [LinearOrder τ]

theorem suffixFilter_ge {x y : List τ} (d : Nat) : ∀ {xs xe ys ye hd r : Int},
    (((xe - xs) - (ye - ys)).natAbs : Int) ≤ hd → suffixFilter x y d xs xe ys ye hd = .ok r →
    (((xe - xs) - (ye - ys)).natAbs : Int) ≤ r := by
  induction d with
  | zero =>
      intro xs xe ys ye hd r hhd h
      rw [suffixFilter.eq_def] at h
      split at h
      · cases h; exact le_refl _
      · cases hp : suffixProbe x y xs xe ys ye hd with
        | error e => rw [hp] at h; cases h
        | ok o =>
            rw [hp] at h
            rcases o with _ | ⟨pos, _ | _⟩
            · simp only [Except.ok.injEq] at h; omega
            · simp only at h
              split at h <;> (simp only [Except.ok.injEq] at h; omega)
            · simp only at h
              split at h <;> (simp only [Except.ok.injEq] at h; omega)
  | succ d ih =>
      intro xs xe ys ye hd r hhd h
      rw [suffixFilter.eq_def] at h
      split at h
      · cases h; exact le_refl _
      · cases hp : suffixProbe x y xs xe ys ye hd with
        | error e => rw [hp] at h; cases h
        | ok o =>
            rw [hp] at h
            rcases o with _ | ⟨pos, _ | _⟩
            · simp only [Except.ok.injEq] at h; omega
            · simp only at h
              split at h
              · simp only [Except.ok.injEq] at h; omega
              · rename_i hb
                split at h
                · cases h
                · rename_i l hl
                  have h1 := ih (by omega) hl
                  split at h
                  · simp only [Except.ok.injEq] at h; omega
                  · split at h
                    · cases h
                    · rename_i r' hr
                      have h2 := ih (by omega) hr
                      simp only [Except.ok.injEq] at h; omega
            · simp only at h
              split at h
              · simp only [Except.ok.injEq] at h; omega
              · rename_i hb
                split at h
                · cases h
                · rename_i l hl
                  have h1 := ih (by omega) hl
                  split at h
                  · simp only [Except.ok.injEq] at h; omega
                  · split at h
                    · cases h
                    · rename_i r' hr
                      have h2 := ih (by omega) hr
                      simp only [Except.ok.injEq] at h; omega

theorem hamming_eq {x y : List τ} (hx : x.Nodup) (hy : y.Nodup) :
    hamming x y = ((x.toFinset \ y.toFinset ∪ y.toFinset \ x.toFinset).card : Int) := by
  have h1 : (x.toFinset \ y.toFinset ∪ y.toFinset \ x.toFinset).card = (x.toFinset \ y.toFinset).card + (y.toFinset \ x.toFinset).card :=
    Finset.card_union_of_disjoint (Finset.disjoint_left.mpr fun a ha hb => (Finset.mem_sdiff.mp ha).2 (Finset.mem_sdiff.mp hb).1)
  have h2 := Finset.card_sdiff_add_card_inter x.toFinset y.toFinset
  have h3 := Finset.card_sdiff_add_card_inter y.toFinset x.toFinset
  have h4 : (x.toFinset ∩ y.toFinset).card = common x y := by
    have : x.toFinset ∩ y.toFinset = (x.filter (· ∈ y)).toFinset := by ext a; simp
    rw [this, List.toFinset_card_of_nodup (hx.filter _)]
    rfl
  rw [Finset.inter_comm, h4, List.toFinset_card_of_nodup hy] at h3
  rw [h4, List.toFinset_card_of_nodup hx] at h2
  unfold hamming
  omega

/-- **C88** For two lists of tokens in increasing order and a budget not smaller than the difference of their sizes, `suffix_filter` raises nothing
and returns a number between the difference of the sizes and, when it is not more than the budget, the number of tokens found in
one of the lists only. -/
theorem suffix_filter_bounds {x y : List τ} (hx : x.Pairwise (· < ·)) (hy : y.Pairwise (· < ·)) {hd : Int}
    (hhd : (((x.length : Int) - y.length).natAbs : Int) ≤ hd) :
    ∃ r, suffixFilter x y maxDepth 0 x.length 0 y.length hd = .ok r ∧ (((x.length : Int) - y.length).natAbs : Int) ≤ r ∧
      (((x.toFinset \ y.toFinset ∪ y.toFinset \ x.toFinset).card : Int) ≤ hd →
        r ≤ ((x.toFinset \ y.toFinset ∪ y.toFinset \ x.toFinset).card : Int)) := by
  have h0 : ((((x.length : Int) - ((0 : Nat) : Int)) - ((y.length : Int) - ((0 : Nat) : Int))).natAbs : Int) ≤ hd := by simpa using hhd
  obtain ⟨r, h1, h2⟩ := suffixFilter_spec (x := x) (y := y) hx hy maxDepth (xs := 0) (xe := x.length) (ys := 0) (ye := y.length)
    (hd := hd) (Nat.zero_le _) (le_refl _) (Nat.zero_le _) (le_refl _) (Or.inl h0)
  have h3 := suffixFilter_ge maxDepth h0 h1
  refine ⟨r, h1, by simpa using h3, ?_⟩
  rw [← hamming_eq (Increasing.nodup hx) (Increasing.nodup hy)]
  simpa [segDist, seg] using h2

/-- A pair is removed only when the lists differ by more tokens than the budget. -/
theorem suffix_filter_removes {x y : List τ} (hx : x.Pairwise (· < ·)) (hy : y.Pairwise (· < ·)) {hd r : Int}
    (hhd : (((x.length : Int) - y.length).natAbs : Int) ≤ hd)
    (h : suffixFilter x y maxDepth 0 x.length 0 y.length hd = .ok r) (hr : hd < r) :
    hd < ((x.toFinset \ y.toFinset ∪ y.toFinset \ x.toFinset).card : Int) := by
  obtain ⟨r', h1, -, h2⟩ := suffix_filter_bounds hx hy hhd
  rw [h1] at h
  cases h
  by_contra hc
  have := h2 (by omega)
  omega

-- Two lists without a common token, removed.
example : suffixFilter [1, 3, 5, 7] [2, 4, 6, 8] maxDepth 0 4 0 4 2 = .ok 3 := by decide +kernel

end Fog.Props
