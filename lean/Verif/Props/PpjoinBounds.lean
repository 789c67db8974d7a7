import Verif.Lemmas.PpjoinHelpers
import Verif.Spec.SetSimilarity
import Verif.Spec.Cosine
import Mathlib.Data.Rat.Floor
import Mathlib.Tactic.Positivity

/-!
# C89: the bounds on sizes and overlaps used by ppjoin
-/

namespace Fog.Props

open Ppjoin Spec

variable {τ : Type} [DecidableEq τ]

theorem inter_le_left (A B : Finset τ) {K : Type} [Field K] [LinearOrder K] [IsStrictOrderedRing K] : ((A ∩ B).card : K) ≤ A.card := by
  exact_mod_cast Finset.card_le_card Finset.inter_subset_left

theorem inter_le_right (A B : Finset τ) {K : Type} [Field K] [LinearOrder K] [IsStrictOrderedRing K] : ((A ∩ B).card : K) ≤ B.card := by
  exact_mod_cast Finset.card_le_card Finset.inter_subset_right

theorem union_card_eq (A B : Finset τ) : ((A ∪ B).card : ℚ) = (A.card : ℚ) + B.card - ((A ∩ B).card : ℚ) := by
  have := Finset.card_union_add_card_inter A B
  have h2 : ((A ∪ B).card : ℚ) + ((A ∩ B).card : ℚ) = (A.card : ℚ) + B.card := by exact_mod_cast this
  linarith

/-- **C89** for Jaccard: the size of a set similar to `A` is between the least and the greatest possible ones and the intersection has the
required size. -/
theorem jaccard_bounds {t : ℚ} (h0 : 0 < t) {A B : Finset τ} (hA : A.Nonempty) (hs : t ≤ jaccard A B) :
    (jaccardHelper t).minPossibleLength A.card ≤ (B.card : Int) ∧ (B.card : Int) ≤ (jaccardHelper t).maxPossibleLength A.card ∧
    (jaccardHelper t).requireOverlap A.card B.card ≤ ((A ∩ B).card : Int) := by
  have ha : (0 : ℚ) < A.card := by exact_mod_cast hA.card_pos
  have hl := inter_le_left A B (K := ℚ)
  have hr := inter_le_right A B (K := ℚ)
  have hu : (0 : ℚ) < (A.card : ℚ) + B.card - ((A ∩ B).card : ℚ) := by
    have : (0 : ℚ) ≤ B.card - ((A ∩ B).card : ℚ) := by linarith
    rcases eq_or_lt_of_le hl with h | h
    · linarith
    · linarith
  rw [jaccard, union_card_eq, le_div_iff₀ hu] at hs
  have he := epsilon_pos (K := ℚ)
  have h1 : t * (A.card + B.card) ≤ (1 + t) * ((A ∩ B).card : ℚ) := by linarith
  have h2 : t * A.card ≤ B.card := by nlinarith
  have h3 : t * B.card ≤ A.card := by nlinarith
  refine ⟨?_, ?_, ?_⟩
  · simp only [jaccardHelper]
    rw [Int.ceil_le]; push_cast; linarith
  · simp only [jaccardHelper]
    rw [le_pyInt (by positivity)]
    have : (B.card : ℚ) ≤ A.card / t := by rw [le_div_iff₀ h0]; linarith
    push_cast; linarith
  · simp only [jaccardHelper]
    rw [Int.ceil_le]
    have : t / (1 + t) * ((A.card : ℚ) + B.card) ≤ ((A ∩ B).card : ℚ) := by
      rw [div_mul_eq_mul_div, div_le_iff₀ (by linarith)]; linarith
    push_cast; linarith

/-- **C89** for Dice. -/
theorem dice_bounds {t : ℚ} (h0 : 0 < t) (h1 : t < 2) {A B : Finset τ} (hA : A.Nonempty) (hs : t ≤ dice A B) :
    (diceHelper t).minPossibleLength A.card ≤ (B.card : Int) ∧ (B.card : Int) ≤ (diceHelper t).maxPossibleLength A.card ∧
    (diceHelper t).requireOverlap A.card B.card ≤ ((A ∩ B).card : Int) := by
  have ha : (0 : ℚ) < A.card := by exact_mod_cast hA.card_pos
  have hb : (0 : ℚ) ≤ B.card := by positivity
  have hl := inter_le_left A B (K := ℚ)
  have hr := inter_le_right A B (K := ℚ)
  rw [dice, le_div_iff₀ (by push_cast; linarith)] at hs
  push_cast at hs
  have he := epsilon_pos (K := ℚ)
  have hpos : 0 < 2 - t := by linarith
  refine ⟨?_, ?_, ?_⟩
  · simp only [diceHelper]
    rw [Int.ceil_le]
    have : (A.card : ℚ) * t / (2 - t) ≤ B.card := by rw [div_le_iff₀ hpos]; linarith
    push_cast; linarith
  · simp only [diceHelper]
    rw [le_pyInt (by positivity)]
    have : (B.card : ℚ) ≤ A.card / t * (2 - t) := by rw [div_mul_eq_mul_div, le_div_iff₀ h0]; linarith
    push_cast; linarith
  · simp only [diceHelper]
    rw [Int.ceil_le]; push_cast; linarith

/-- **C89** for the binary cosine. -/
theorem cosine_bounds {t : ℝ} (h0 : 0 < t) {A B : Finset τ} (hA : A.Nonempty) (hs : t ≤ binaryCosine A B) :
    (binaryCosineHelper t).minPossibleLength A.card ≤ (B.card : Int) ∧ (B.card : Int) ≤ (binaryCosineHelper t).maxPossibleLength A.card ∧
    (binaryCosineHelper t).requireOverlap A.card B.card ≤ ((A ∩ B).card : Int) := by
  have ha : (0 : ℝ) < A.card := by exact_mod_cast hA.card_pos
  have hb : (0 : ℝ) < B.card := by
    rcases Finset.eq_empty_or_nonempty B with rfl | hB
    · simp [binaryCosine] at hs; linarith
    · exact_mod_cast hB.card_pos
  have hl := inter_le_left A B (K := ℝ)
  have hr := inter_le_right A B (K := ℝ)
  have ho : (0 : ℝ) ≤ ((A ∩ B).card : ℝ) := by positivity
  have hsq : 0 < Real.sqrt ((A.card : ℝ) * B.card) := Real.sqrt_pos.mpr (by positivity)
  rw [binaryCosine, le_div_iff₀ hsq] at hs
  have he := epsilon_pos (K := ℝ)
  have hsq2 : Real.sqrt ((A.card : ℝ) * B.card) * Real.sqrt ((A.card : ℝ) * B.card) = (A.card : ℝ) * B.card := Real.mul_self_sqrt (by positivity)
  have h2 : t * t * ((A.card : ℝ) * B.card) ≤ ((A ∩ B).card : ℝ) * ((A ∩ B).card : ℝ) := by
    rw [← hsq2]
    have := mul_self_le_mul_self (by positivity : 0 ≤ t * Real.sqrt ((A.card : ℝ) * B.card)) hs
    linarith
  have h3 : t * t * A.card ≤ B.card := by
    have : ((A ∩ B).card : ℝ) * ((A ∩ B).card : ℝ) ≤ B.card * B.card := mul_self_le_mul_self ho hr
    by_contra hc
    have := mul_lt_mul_of_pos_right (not_le.mp hc) hb
    linarith
  have h4 : t * t * B.card ≤ A.card := by
    have : ((A ∩ B).card : ℝ) * ((A ∩ B).card : ℝ) ≤ A.card * A.card := mul_self_le_mul_self ho hl
    by_contra hc
    have := mul_lt_mul_of_pos_right (not_le.mp hc) ha
    linarith
  refine ⟨?_, ?_, ?_⟩
  · simp only [binaryCosineHelper]
    rw [Int.ceil_le]; push_cast; linarith
  · simp only [binaryCosineHelper]
    rw [le_pyInt (by positivity)]
    have : (B.card : ℝ) ≤ A.card / t / t := by rw [le_div_iff₀ h0, le_div_iff₀ h0]; linarith
    push_cast; linarith
  · simp only [binaryCosineHelper]
    rw [Int.ceil_le]; push_cast; linarith

/-- The sizes and overlaps let through for Jaccard, up to epsilon: `l t ≤ n ≤ l / t` and `t (l + n - o) ≤ o`. -/
theorem jaccard_bounds_tight {t : ℚ} (h0 : 0 < t) (l n : Nat) :
    ((jaccardHelper t).minPossibleLength l ≤ (n : Int) ↔ (l : ℚ) * t ≤ n + 1 / 1000000) ∧
    ((n : Int) ≤ (jaccardHelper t).maxPossibleLength l ↔ (n : ℚ) ≤ l / t + 1 / 1000000) ∧
    ∀ o : Nat, (jaccardHelper t).requireOverlap l n ≤ (o : Int) ↔ t * ((l : ℚ) + n - o) ≤ o + (1 + t) / 1000000 := by
  have he := epsilon_pos (K := ℚ)
  refine ⟨?_, ?_, fun o => ?_⟩
  · simp only [jaccardHelper, epsilon]
    rw [Int.ceil_le]; push_cast
    constructor <;> intro h <;> linarith
  · simp only [jaccardHelper]
    rw [le_pyInt (by positivity)]; simp [epsilon]
  · simp only [jaccardHelper, epsilon]
    rw [Int.ceil_le, sub_le_iff_le_add, div_mul_eq_mul_div, div_le_iff₀ (by linarith)]; push_cast
    constructor <;> intro h <;> linarith

/-- The bounds for Dice, up to epsilon. -/
theorem dice_bounds_tight {t : ℚ} (h0 : 0 < t) (h1 : t < 2) (l n : Nat) :
    ((diceHelper t).minPossibleLength l ≤ (n : Int) ↔ (l : ℚ) * t / (2 - t) ≤ n + 1 / 1000000) ∧
    ((n : Int) ≤ (diceHelper t).maxPossibleLength l ↔ (n : ℚ) ≤ l * (2 - t) / t + 1 / 1000000) ∧
    ∀ o : Nat, (diceHelper t).requireOverlap l n ≤ (o : Int) ↔ t * ((l : ℚ) + n) ≤ 2 * (o + 1 / 1000000) := by
  have he := epsilon_pos (K := ℚ)
  have hpos : 0 < 2 - t := by linarith
  refine ⟨?_, ?_, fun o => ?_⟩
  · simp only [diceHelper, epsilon]
    rw [Int.ceil_le]; push_cast
    constructor <;> intro h <;> linarith
  · simp only [diceHelper]
    rw [le_pyInt (by positivity), div_mul_eq_mul_div]; simp [epsilon]
  · simp only [diceHelper, epsilon]
    rw [Int.ceil_le]; push_cast
    constructor <;> intro h <;> linarith

/-- The bounds for the binary cosine, up to epsilon. -/
theorem cosine_bounds_tight {t : ℝ} (h0 : 0 < t) (l n : Nat) :
    ((binaryCosineHelper t).minPossibleLength l ≤ (n : Int) ↔ (l : ℝ) * t ^ 2 ≤ n + 1 / 1000000) ∧
    ((n : Int) ≤ (binaryCosineHelper t).maxPossibleLength l ↔ (n : ℝ) ≤ l / t ^ 2 + 1 / 1000000) ∧
    ∀ o : Nat, (binaryCosineHelper t).requireOverlap l n ≤ (o : Int) ↔ t * Real.sqrt ((l : ℝ) * n) ≤ o + 1 / 1000000 := by
  have he := epsilon_pos (K := ℝ)
  refine ⟨?_, ?_, fun o => ?_⟩
  · simp only [binaryCosineHelper, epsilon]
    rw [Int.ceil_le]; push_cast
    constructor <;> intro h <;> linarith
  · simp only [binaryCosineHelper]
    rw [le_pyInt (by positivity), div_div, ← sq]; simp [epsilon]
  · simp only [binaryCosineHelper, epsilon]
    rw [Int.ceil_le]; push_cast
    constructor <;> intro h <;> linarith

-- Three tokens out of four: similarity 3/4 with a set of three.
example : (1 / 2 : ℚ) ≤ jaccard ({1, 2, 3, 4} : Finset Nat) {2, 3, 4} ∧ (1 / 2 : ℚ) ≤ dice ({1, 2, 3, 4} : Finset Nat) {2, 3, 4} := by decide +kernel

example : (jaccardHelper (1 / 2 : ℚ)).minPossibleLength 4 = 2 ∧ (jaccardHelper (1 / 2 : ℚ)).maxPossibleLength 4 = 8 ∧
    (jaccardHelper (1 / 2 : ℚ)).requireOverlap 4 3 = 3 := by decide +kernel

end Fog.Props
