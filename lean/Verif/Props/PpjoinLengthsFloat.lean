import Verif.Props.PpjoinFloat
import Verif.Props.PpjoinBounds

/-!
# C110: the greatest length of a similar record, in double precision

`max_possible_length` is not used by the join itself.
-/

namespace Fog.Props

open Ppjoin Spec

variable {τ : Type} [DecidableEq τ] {fl : ℝ → ℝ}

/-- A number which is a small error below an integer reaches it once `EPSILON` is added. -/
theorem reach_eps (hfl : IsRounding fl) {m : Nat} (hm : m ≤ 2 ^ 26) {x : ℝ} (h : (m : ℝ) - 1 / 2 ^ 24 ≤ x) :
    (m : Int) ≤ pyInt (fl (fl x + PpjoinFloat.epsilon fl)) := by
  obtain ⟨k1, k2, k3⟩ := PpjoinFloat.eps hfl
  have hm' := PpjoinFloat.length_le hm
  have hm0 : (0 : ℝ) ≤ m := Nat.cast_nonneg m
  have c0 : (1 : ℝ) / 2 ^ 24 ≤ 1 := by norm_num
  have c1 : (1 : ℝ) / 2 ^ 24 + 1 / 2 ^ 26 + 1 / 2 ^ 53 ≤ 1 / 1000000 := by norm_num
  have h1 := (PpjoinFloat.err_sub hfl (x := (m : ℝ) - 1 / 2 ^ 24) (by linarith) (by linarith [show (2 : ℝ) ^ 26 ≤ 2 ^ 28 by norm_num])).2
  have h2 := hfl.mono h
  have h3 := hfl.mono (show (m : ℝ) ≤ fl x + PpjoinFloat.epsilon fl by linarith)
  rw [PpjoinFloat.length_exact hfl hm] at h3
  rw [le_pyInt (by linarith)]
  push_cast
  exact h3

/-- **C110**: the size of a set similar to `A` is at most the greatest possible one, for Jaccard. -/
theorem jaccard_max_length_float (hfl : IsRounding fl) {t : ℝ} (h0 : 0 < t) {A B : Finset τ} (hA : A.card ≤ 2 ^ 26) (hB : B.card ≤ 2 ^ 26)
    (hs : t ≤ ((jaccard A B : ℚ) : ℝ)) : (B.card : Int) ≤ (PpjoinFloat.jaccardHelper fl t).maxPossibleLength A.card := by
  simp only [PpjoinFloat.jaccardHelper]
  rw [PpjoinFloat.length_exact hfl hA]
  apply reach_eps hfl hB
  have hl := inter_le_left A B (K := ℝ)
  have hu : ((B.card : ℕ) : ℝ) ≤ ((A ∪ B).card : ℝ) := by exact_mod_cast Finset.card_le_card Finset.subset_union_right
  have h1 : t * ((A ∪ B).card : ℝ) ≤ ((A ∩ B).card : ℝ) := by
    rw [jaccard] at hs
    push_cast at hs
    rcases eq_or_lt_of_le (show (0 : ℝ) ≤ ((A ∪ B).card : ℝ) by positivity) with h | h
    · rw [← h, mul_zero]; positivity
    · rwa [le_div_iff₀ h] at hs
  have h2 : (B.card : ℝ) ≤ A.card / t := by
    rw [le_div_iff₀ h0]
    have := mul_le_mul_of_nonneg_left hu h0.le
    linarith
  linarith [show (0 : ℝ) ≤ 1 / 2 ^ 24 by norm_num]

/-- **C110**: and for Dice. -/
theorem dice_max_length_float (hfl : IsRounding fl) {t : ℝ} (h0 : 0 < t) (h1 : t ≤ 1) {A B : Finset τ} (hA : A.card ≤ 2 ^ 26)
    (hB : B.card ≤ 2 ^ 26) (hs : t ≤ ((dice A B : ℚ) : ℝ)) :
    (B.card : Int) ≤ (PpjoinFloat.diceHelper fl t).maxPossibleLength A.card := by
  simp only [PpjoinFloat.diceHelper]
  rw [PpjoinFloat.length_exact hfl hA]
  apply reach_eps hfl hB
  have hl := inter_le_left A B (K := ℝ)
  have ha0 : (0 : ℝ) ≤ (A.card : ℝ) := by positivity
  have hb0 : (0 : ℝ) ≤ (B.card : ℝ) := by positivity
  have hb1 := PpjoinFloat.length_le hB
  have h2 : t * B.card ≤ (2 - t) * A.card := by
    have : t * ((A.card : ℝ) + B.card) ≤ 2 * ((A ∩ B).card : ℝ) := by
      rw [dice] at hs
      push_cast at hs
      rcases eq_or_lt_of_le (show (0 : ℝ) ≤ (A.card : ℝ) + B.card by positivity) with h | h
      · rw [← h, mul_zero]; positivity
      · rwa [le_div_iff₀ h] at hs
    linarith
  have hr1 : 1 ≤ fl (2 - t) := by have := hfl.mono (show 1 ≤ 2 - t by linarith); rwa [hfl.one] at this
  have hr2 := (PpjoinFloat.unit_err hfl (x := 2 - t) (by linarith) (by linarith)).2
  have hq0 : 0 ≤ (A.card : ℝ) / t := by positivity
  have hf0 := hfl.nonneg hq0
  have hprod : fl ((A.card : ℝ) / t) ≤ fl ((A.card : ℝ) / t) * fl (2 - t) := le_mul_of_one_le_right hf0 hr1
  by_cases hbig : (B.card : ℝ) ≤ (A.card : ℝ) / t
  · have := hfl.mono hbig
    rw [PpjoinFloat.length_exact hfl hB] at this
    linarith [show (0 : ℝ) ≤ 1 / 2 ^ 24 by norm_num]
  · rw [not_le] at hbig
    have e1 := (PpjoinFloat.err hfl hq0 (by linarith [show (2 : ℝ) ^ 26 ≤ 2 ^ 28 by norm_num])).2
    have e2 : (B.card : ℝ) ≤ A.card / t * (2 - t) := by
      rw [div_mul_eq_mul_div, le_div_iff₀ h0]; linarith
    have e3 : fl ((A.card : ℝ) / t) * (2 - t - 1 / 2 ^ 53) ≤ fl ((A.card : ℝ) / t) * fl (2 - t) := mul_le_mul_of_nonneg_left hr2 hf0
    have e4 : ((A.card : ℝ) / t - 1 / 2 ^ 26) * (2 - t - 1 / 2 ^ 53) ≤ fl ((A.card : ℝ) / t) * (2 - t - 1 / 2 ^ 53) :=
      mul_le_mul_of_nonneg_right e1 (by linarith [show (1 : ℝ) / 2 ^ 53 ≤ 1 by norm_num])
    have e5 : (A.card : ℝ) / t * (1 / 2 ^ 53) ≤ 2 ^ 26 * (1 / 2 ^ 53) := mul_le_mul_of_nonneg_right (by linarith) (by norm_num)
    have e6 : (1 / 2 ^ 26 : ℝ) * (2 - t) ≤ 1 / 2 ^ 26 * 2 := mul_le_mul_of_nonneg_left (by linarith) (by norm_num)
    have e7 : (2 : ℝ) ^ 26 * (1 / 2 ^ 53) + 1 / 2 ^ 26 * 2 ≤ 1 / 2 ^ 24 := by norm_num
    have e8 : (0 : ℝ) ≤ 1 / 2 ^ 26 * (1 / 2 ^ 53) := by norm_num
    linarith

/-- **C110**: and for the binary cosine. -/
theorem cosine_max_length_float (hfl : IsRounding fl) {t : ℝ} (h0 : 0 < t) (h1 : t ≤ 1) {A B : Finset τ} (hA0 : A.Nonempty)
    (hA : A.card ≤ 2 ^ 26) (hB : B.card ≤ 2 ^ 26) (hs : t ≤ binaryCosine A B) :
    (B.card : Int) ≤ (PpjoinFloat.binaryCosineHelper fl t).maxPossibleLength A.card := by
  simp only [PpjoinFloat.binaryCosineHelper]
  rw [PpjoinFloat.length_exact hfl hA]
  apply reach_eps hfl hB
  have ha : (1 : ℝ) ≤ A.card := by exact_mod_cast hA0.card_pos
  have hb : (0 : ℝ) < B.card := by
    rcases Finset.eq_empty_or_nonempty B with rfl | hB
    · simp [binaryCosine] at hs; linarith
    · exact_mod_cast hB.card_pos
  have hb1 := PpjoinFloat.length_le hB
  have hl := inter_le_left A B (K := ℝ)
  have ho : (0 : ℝ) ≤ ((A ∩ B).card : ℝ) := by positivity
  have hsq : 0 < Real.sqrt ((A.card : ℝ) * B.card) := Real.sqrt_pos.mpr (by positivity)
  rw [binaryCosine, le_div_iff₀ hsq] at hs
  have hsq2 : Real.sqrt ((A.card : ℝ) * B.card) * Real.sqrt ((A.card : ℝ) * B.card) = (A.card : ℝ) * B.card := Real.mul_self_sqrt (by positivity)
  have h2 : t * t * ((A.card : ℝ) * B.card) ≤ ((A ∩ B).card : ℝ) * ((A ∩ B).card : ℝ) := by
    rw [← hsq2]
    have := mul_self_le_mul_self (by positivity : 0 ≤ t * Real.sqrt ((A.card : ℝ) * B.card)) hs
    linarith
  have h4 : t * t * B.card ≤ A.card := by
    have h3 : ((A ∩ B).card : ℝ) * ((A ∩ B).card : ℝ) ≤ A.card * A.card := mul_self_le_mul_self ho hl
    by_contra hc
    have := mul_lt_mul_of_pos_right (not_le.mp hc) (show (0 : ℝ) < A.card by linarith)
    linarith
  have hq1 : (1 : ℝ) ≤ (A.card : ℝ) / t := by rw [le_div_iff₀ h0]; linarith
  have hrel := hfl.relative (x := (A.card : ℝ) / t) (by
    have : (2 : ℝ) ^ (-1022 : ℤ) ≤ (2 : ℝ) ^ (0 : ℤ) := zpow_le_zpow_right₀ (by norm_num) (by norm_num)
    rw [zpow_zero] at this
    linarith)
  rw [abs_le] at hrel
  have e1 : (B.card : ℝ) ≤ A.card / t / t := by
    rw [le_div_iff₀ h0, le_div_iff₀ h0]; linarith
  have e2 : ((A.card : ℝ) / t - A.card / t / 2 ^ 53) / t ≤ fl ((A.card : ℝ) / t) / t := div_le_div_of_nonneg_right (by linarith) h0.le
  have e3 : ((A.card : ℝ) / t - A.card / t / 2 ^ 53) / t = A.card / t / t * (1 - 1 / 2 ^ 53) := by ring
  have e4 : (B.card : ℝ) * (1 - 1 / 2 ^ 53) ≤ A.card / t / t * (1 - 1 / 2 ^ 53) := mul_le_mul_of_nonneg_right e1 (by norm_num)
  have e5 : (B.card : ℝ) * (1 / 2 ^ 53) ≤ 2 ^ 26 * (1 / 2 ^ 53) := mul_le_mul_of_nonneg_right hb1 (by norm_num)
  have e6 : (2 : ℝ) ^ 26 * (1 / 2 ^ 53) ≤ 1 / 2 ^ 24 := by norm_num
  linarith

-- The set of 0 and 1 is similar to that of 0, 1 and 2.
example (hfl : IsRounding fl) :
    (3 : Int) ≤ (PpjoinFloat.jaccardHelper fl (1 / 2)).maxPossibleLength 2 ∧
    (3 : Int) ≤ (PpjoinFloat.diceHelper fl (3 / 4)).maxPossibleLength 2 := by
  have h1 := jaccard_max_length_float hfl (t := 1 / 2) (by norm_num) (A := {0, 1}) (B := ({0, 1, 2} : Finset Nat)) (by decide) (by decide) (by
    rw [show jaccard {0, 1} ({0, 1, 2} : Finset Nat) = 2 / 3 by decide +kernel]; push_cast; norm_num)
  have h2 := dice_max_length_float hfl (t := 3 / 4) (by norm_num) (by norm_num) (A := {0, 1}) (B := ({0, 1, 2} : Finset Nat)) (by decide)
    (by decide) (by rw [show dice {0, 1} ({0, 1, 2} : Finset Nat) = 4 / 5 by decide +kernel]; push_cast; norm_num)
  exact ⟨h1, h2⟩

end Fog.Props
