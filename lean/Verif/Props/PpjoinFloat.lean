import Verif.Props.Ppjoin
import Verif.Lemmas.PpjoinFloat

/-!
# C110: all_pairs in double precision

`EPSILON` is there to make up for the roundings of floats: it does, for records of at most `2 ^ 26` tokens.
-/

namespace Fog.Props

open Ppjoin Spec

variable {τ : Type} [LinearOrder τ] {fl : ℝ → ℝ}

/-- Only similar records are yielded, up to `EPSILON` and roundings, whatever the algorithm. -/
theorem ppjoin_jaccard_float_sound (hfl : IsRounding fl) {t : ℝ} {config : Config} {tokenizer : Bool} {records : List (List τ)}
    {ordering : Ppjoin.Ordering τ} (hcrc : NoCollision records ordering)
    {out : List (Nat × Nat)} (hout : ppjoinRecords (PpjoinFloat.jaccardHelper fl t) config tokenizer records ordering = .ok out) :
    out.Nodup ∧ ∀ p ∈ out, p.1 < records.length ∧ p.2 < records.length ∧ p.1 ≠ p.2 ∧ (p.2, p.1) ∉ out ∧
      t - 1 / 1000000 - 1 / 2 ^ 51 ≤ ((jaccard (tokenSet records p.1) (tokenSet records p.2) : ℚ) : ℝ) := by
  have hj : ∀ i j, ((jaccard (tokenSet records i) (tokenSet records j) : ℚ) : ℝ) =
      (((tokenSet records i ∩ tokenSet records j).card : Nat) : ℝ) /
        (((tokenSet records i).card : ℝ) + (tokenSet records j).card - ((tokenSet records i ∩ tokenSet records j).card : Nat)) := by
    intro i j
    rw [jaccard, ← card_union_cast]
    push_cast
    rfl
  obtain ⟨s1, s2⟩ := ppjoin_sound_any hcrc hout
  refine ⟨s1, fun p hp => ?_⟩
  obtain ⟨g1, g2, g3, g4, g5⟩ := s2 p hp
  refine ⟨g1, g2, g3, g4, ?_⟩
  have u : (jaccard (tokenSet records p.1) (tokenSet records p.2)) ≤ 1 ∧ 0 ≤ jaccard (tokenSet records p.1) (tokenSet records p.2) := by
    unfold jaccard
    constructor
    · apply div_le_one_of_le₀
      · exact_mod_cast Finset.card_le_card (Finset.inter_subset_left.trans Finset.subset_union_left)
      · positivity
    · positivity
  apply PpjoinFloat.of_plus_eps hfl (by exact_mod_cast u.2) (by exact_mod_cast u.1)
  rw [hj]
  simpa [PpjoinFloat.jaccardHelper] using g5


/-- **C110** for Jaccard: computing with doubles, `all_pairs` raises nothing, yields every pair whose similarity reaches the threshold
and only pairs whose similarity reaches it up to `EPSILON` and a rounding, for thresholds which are doubles from `2e-6` to one (excluded)
and records of 1 to `2 ^ 26` tokens. -/
theorem all_pairs_jaccard_float (hfl : IsRounding fl) {t : ℝ} (hd : IsDouble t) (h0 : 2 / 1000000 ≤ t) (h1 : t < 1) {tokenizer : Bool}
    {records : List (List τ)} {ordering : Ppjoin.Ordering τ} (hcrc : NoCollision records ordering)
    (hc : Counted tokenizer ordering) (hne : ∀ r ∈ records, r ≠ []) (hN : ∀ i < records.length, (tokenSet records i).card ≤ 2 ^ 26) :
    ∃ out, ppjoinRecords (PpjoinFloat.jaccardHelper fl t) ⟨true, false⟩ tokenizer records ordering = .ok out ∧ out.Nodup ∧
      (∀ i j, i < records.length → j < records.length → i ≠ j →
        t ≤ ((jaccard (tokenSet records i) (tokenSet records j) : ℚ) : ℝ) → (i, j) ∈ out ∨ (j, i) ∈ out) ∧
      ∀ p ∈ out, p.1 < records.length ∧ p.2 < records.length ∧ p.1 ≠ p.2 ∧ (p.2, p.1) ∉ out ∧
        t - 1 / 1000000 - 1 / 2 ^ 51 ≤ ((jaccard (tokenSet records p.1) (tokenSet records p.2) : ℚ) : ℝ) := by
  have hj : ∀ i j, ((jaccard (tokenSet records i) (tokenSet records j) : ℚ) : ℝ) =
      (((tokenSet records i ∩ tokenSet records j).card : Nat) : ℝ) /
        (((tokenSet records i).card : ℝ) + (tokenSet records j).card - ((tokenSet records i ∩ tokenSet records j).card : Nat)) := by
    intro i j
    rw [jaccard, ← card_union_cast]
    push_cast
    rfl
  obtain ⟨out, hout, hcomp⟩ := ppjoin_complete_up_to (PpjoinFloat.jaccard_lawful hfl hd h0 h1)
    (fun a b o h => by rw [add_comm]; exact h) (config := ⟨true, false⟩) hcrc hc hne hN
  obtain ⟨s1, s2⟩ := ppjoin_jaccard_float_sound hfl hcrc hout
  refine ⟨out, hout, s1, fun i j hi hj' hij hs => ?_, s2⟩
  · apply hcomp i j hi hj' hij
    · rw [hj] at hs
      exact hs
    · intro h; simp at h

/-- Only similar records are yielded, up to `EPSILON` and roundings, whatever the algorithm. -/
theorem ppjoin_dice_float_sound (hfl : IsRounding fl) {t : ℝ} {config : Config} {tokenizer : Bool} {records : List (List τ)}
    {ordering : Ppjoin.Ordering τ} (hcrc : NoCollision records ordering)
    {out : List (Nat × Nat)} (hout : ppjoinRecords (PpjoinFloat.diceHelper fl t) config tokenizer records ordering = .ok out) :
    out.Nodup ∧ ∀ p ∈ out, p.1 < records.length ∧ p.2 < records.length ∧ p.1 ≠ p.2 ∧ (p.2, p.1) ∉ out ∧
      t - 1 / 1000000 - 1 / 2 ^ 51 ≤ ((dice (tokenSet records p.1) (tokenSet records p.2) : ℚ) : ℝ) := by
  have hj : ∀ i j, ((dice (tokenSet records i) (tokenSet records j) : ℚ) : ℝ) =
      2 * (((tokenSet records i ∩ tokenSet records j).card : Nat) : ℝ) / (((tokenSet records i).card : ℝ) + (tokenSet records j).card) := by
    intro i j
    rw [dice]
    push_cast
    rfl
  obtain ⟨s1, s2⟩ := ppjoin_sound_any hcrc hout
  refine ⟨s1, fun p hp => ?_⟩
  obtain ⟨g1, g2, g3, g4, g5⟩ := s2 p hp
  refine ⟨g1, g2, g3, g4, ?_⟩
  have u : (dice (tokenSet records p.1) (tokenSet records p.2)) ≤ 1 ∧ 0 ≤ dice (tokenSet records p.1) (tokenSet records p.2) := by
    unfold dice
    constructor
    · apply div_le_one_of_le₀
      · have a := Finset.card_le_card (Finset.inter_subset_left (s₁ := tokenSet records p.1) (s₂ := tokenSet records p.2))
        have b := Finset.card_le_card (Finset.inter_subset_right (s₁ := tokenSet records p.1) (s₂ := tokenSet records p.2))
        have : 2 * (tokenSet records p.1 ∩ tokenSet records p.2).card ≤ (tokenSet records p.1).card + (tokenSet records p.2).card := by
          omega
        exact_mod_cast this
      · positivity
    · positivity
  apply PpjoinFloat.of_plus_eps hfl (by exact_mod_cast u.2) (by exact_mod_cast u.1)
  rw [hj]
  simpa [PpjoinFloat.diceHelper] using g5


/-- **C110** for Dice, from the threshold `4e-6`. -/
theorem all_pairs_dice_float (hfl : IsRounding fl) {t : ℝ} (hd : IsDouble t) (h0 : 4 / 1000000 ≤ t) (h1 : t < 1) {tokenizer : Bool}
    {records : List (List τ)} {ordering : Ppjoin.Ordering τ} (hcrc : NoCollision records ordering)
    (hc : Counted tokenizer ordering) (hne : ∀ r ∈ records, r ≠ []) (hN : ∀ i < records.length, (tokenSet records i).card ≤ 2 ^ 26) :
    ∃ out, ppjoinRecords (PpjoinFloat.diceHelper fl t) ⟨true, false⟩ tokenizer records ordering = .ok out ∧ out.Nodup ∧
      (∀ i j, i < records.length → j < records.length → i ≠ j →
        t ≤ ((dice (tokenSet records i) (tokenSet records j) : ℚ) : ℝ) → (i, j) ∈ out ∨ (j, i) ∈ out) ∧
      ∀ p ∈ out, p.1 < records.length ∧ p.2 < records.length ∧ p.1 ≠ p.2 ∧ (p.2, p.1) ∉ out ∧
        t - 1 / 1000000 - 1 / 2 ^ 51 ≤ ((dice (tokenSet records p.1) (tokenSet records p.2) : ℚ) : ℝ) := by
  have hj : ∀ i j, ((dice (tokenSet records i) (tokenSet records j) : ℚ) : ℝ) =
      2 * (((tokenSet records i ∩ tokenSet records j).card : Nat) : ℝ) / (((tokenSet records i).card : ℝ) + (tokenSet records j).card) := by
    intro i j
    rw [dice]
    push_cast
    rfl
  obtain ⟨out, hout, hcomp⟩ := ppjoin_complete_up_to (PpjoinFloat.dice_lawful hfl hd h0 h1)
    (fun a b o h => by rw [add_comm]; exact h) (config := ⟨true, false⟩) hcrc hc hne hN
  obtain ⟨s1, s2⟩ := ppjoin_dice_float_sound hfl hcrc hout
  refine ⟨out, hout, s1, fun i j hi hj' hij hs => ?_, s2⟩
  · apply hcomp i j hi hj' hij
    · rw [hj] at hs
      exact hs
    · intro h; simp at h

/-- Only similar records are yielded, up to `EPSILON` and roundings, whatever the algorithm. -/
theorem ppjoin_cosine_float_sound (hfl : IsRounding fl) {t : ℝ} {config : Config} {tokenizer : Bool} {records : List (List τ)}
    {ordering : Ppjoin.Ordering τ} (hcrc : NoCollision records ordering)
    (hne : ∀ r ∈ records, r ≠ []) (hN : ∀ i < records.length, (tokenSet records i).card ≤ 2 ^ 26)
    {out : List (Nat × Nat)} (hout : ppjoinRecords (PpjoinFloat.binaryCosineHelper fl t) config tokenizer records ordering = .ok out) :
    out.Nodup ∧ ∀ p ∈ out, p.1 < records.length ∧ p.2 < records.length ∧ p.1 ≠ p.2 ∧ (p.2, p.1) ∉ out ∧
      t - 1 / 1000000 - 1 / 2 ^ 50 ≤ binaryCosine (tokenSet records p.1) (tokenSet records p.2) := by
  obtain ⟨s1, s2⟩ := ppjoin_sound_any hcrc hout
  refine ⟨s1, fun p hp => ?_⟩
  obtain ⟨g1, g2, g3, g4, g5⟩ := s2 p hp
  refine ⟨g1, g2, g3, g4, ?_⟩
  have hpos : ∀ i < records.length, 1 ≤ (tokenSet records i).card := by
    intro i hi
    rw [Nat.one_le_iff_ne_zero, Ne, Finset.card_eq_zero]
    unfold tokenSet
    rw [List.getElem?_eq_getElem hi]
    simp only [Option.getD_some, List.toFinset_eq_empty_iff]
    exact hne _ (List.getElem_mem hi)
  have a1 := hpos _ g1
  have a2 := hpos _ g2
  have n1 := hN _ g1
  have n2 := hN _ g2
  have i1 := Finset.card_le_card (Finset.inter_subset_left (s₁ := tokenSet records p.1) (s₂ := tokenSet records p.2))
  have i2 := Finset.card_le_card (Finset.inter_subset_right (s₁ := tokenSet records p.1) (s₂ := tokenSet records p.2))
  simp only [PpjoinFloat.binaryCosineHelper, Int.cast_natCast] at g5
  unfold binaryCosine
  generalize (tokenSet records p.1).card = l1 at *
  generalize (tokenSet records p.2).card = l2 at *
  generalize (tokenSet records p.1 ∩ tokenSet records p.2).card = o at *
  have e0 : fl ((l1 : ℝ) * l2) = (l1 : ℝ) * l2 := by
    have hb : l1 * l2 ≤ 2 ^ 26 * 2 ^ 26 := Nat.mul_le_mul n1 n2
    have := hfl.nat (n := l1 * l2) (hb.trans (by norm_num))
    push_cast at this
    exact this
  rw [e0, PpjoinFloat.length_exact hfl (i1.trans n1)] at g5
  have b1 : (1 : ℝ) ≤ l1 := by exact_mod_cast a1
  have b2 : (1 : ℝ) ≤ l2 := by exact_mod_cast a2
  have c1 : (o : ℝ) ≤ l1 := by exact_mod_cast i1
  have c2 : (o : ℝ) ≤ l2 := by exact_mod_cast i2
  have o0 : (0 : ℝ) ≤ o := Nat.cast_nonneg o
  have hR1 : (1 : ℝ) ≤ Real.sqrt ((l1 : ℝ) * l2) := Real.le_sqrt_of_sq_le (by nlinarith)
  have hRo : (o : ℝ) ≤ Real.sqrt ((l1 : ℝ) * l2) := Real.le_sqrt_of_sq_le (by nlinarith)
  generalize Real.sqrt ((l1 : ℝ) * l2) = R at *
  have hr := hfl.relative (x := R) (by
    refine le_trans ?_ hR1
    rw [← zpow_zero (2 : ℝ)]
    exact zpow_le_zpow_right₀ (by norm_num) (by norm_num))
  rw [abs_le] at hr
  have hRf : (o : ℝ) ≤ fl R := by
    have := hfl.mono hRo
    rwa [PpjoinFloat.length_exact hfl (i1.trans n1)] at this
  have hRg : (1 : ℝ) ≤ fl R := by have := hfl.mono hR1; rwa [hfl.one] at this
  have k0 : 0 ≤ (o : ℝ) / fl R := div_nonneg o0 (by linarith)
  have k1 : (o : ℝ) / fl R ≤ 1 := by rw [div_le_one (by linarith)]; exact hRf
  have k2 := PpjoinFloat.of_plus_eps hfl k0 k1 g5
  -- from the quotient by the rounded root to the quotient by the root
  have k3 : (o : ℝ) / fl R ≤ o / R + 1 / 2 ^ 52 := by
    rw [div_le_iff₀ (by linarith)]
    have m1 : o / R * R = o := div_mul_cancel₀ _ (by linarith)
    have m2 : 0 ≤ (o : ℝ) / R := div_nonneg o0 (by linarith)
    have m3 : o / R * (R - R / 2 ^ 53) ≤ o / R * fl R := mul_le_mul_of_nonneg_left (by linarith) m2
    have m4 : (1 / 2 ^ 52 : ℝ) * (R - R / 2 ^ 53) ≤ 1 / 2 ^ 52 * fl R := mul_le_mul_of_nonneg_left (by linarith) (by norm_num)
    have m5 : o / R * (R / 2 ^ 53) = o / 2 ^ 53 := by
      rw [← mul_div_assoc, m1]
    have m6 : (o : ℝ) / 2 ^ 53 ≤ R / 2 ^ 53 := div_le_div_of_nonneg_right hRo (by norm_num)
    have m7 : R / 2 ^ 53 ≤ (1 / 2 ^ 52 : ℝ) * (R - R / 2 ^ 53) := by
      have : R / 2 ^ 53 = (1 / 2 ^ 53) * R := by ring
      rw [this]
      nlinarith [show (1 / 2 ^ 53 : ℝ) ≤ 1 / 2 ^ 52 * (1 - 1 / 2 ^ 53) by norm_num]
    nlinarith
  linarith [show (1 / 2 ^ 51 + 1 / 2 ^ 52 : ℝ) ≤ 1 / 2 ^ 50 by norm_num]


/-- **C110** for the binary cosine, for thresholds whose square is at least `2e-6`. -/
theorem all_pairs_cosine_float (hfl : IsRounding fl) {t : ℝ} (hd : IsDouble t) (h00 : 0 ≤ t) (h0 : 2 / 1000000 ≤ t * t) (h1 : t < 1)
    {tokenizer : Bool} {records : List (List τ)} {ordering : Ppjoin.Ordering τ} (hcrc : NoCollision records ordering)
    (hc : Counted tokenizer ordering) (hne : ∀ r ∈ records, r ≠ []) (hN : ∀ i < records.length, (tokenSet records i).card ≤ 2 ^ 26) :
    ∃ out, ppjoinRecords (PpjoinFloat.binaryCosineHelper fl t) ⟨true, false⟩ tokenizer records ordering = .ok out ∧ out.Nodup ∧
      (∀ i j, i < records.length → j < records.length → i ≠ j →
        t ≤ binaryCosine (tokenSet records i) (tokenSet records j) → (i, j) ∈ out ∨ (j, i) ∈ out) ∧
      ∀ p ∈ out, p.1 < records.length ∧ p.2 < records.length ∧ p.1 ≠ p.2 ∧ (p.2, p.1) ∉ out ∧
        t - 1 / 1000000 - 1 / 2 ^ 50 ≤ binaryCosine (tokenSet records p.1) (tokenSet records p.2) := by
  obtain ⟨out, hout, hcomp⟩ := ppjoin_complete_up_to (PpjoinFloat.binaryCosine_lawful hfl hd h00 h0 h1)
    (fun a b o h => by rw [mul_comm]; exact h) (config := ⟨true, false⟩) hcrc hc hne hN
  obtain ⟨s1, s2⟩ := ppjoin_cosine_float_sound hfl hcrc hne hN hout
  refine ⟨out, hout, s1, fun i j hi hj' hij hs => ?_, s2⟩
  · apply hcomp i j hi hj' hij
    · exact hs
    · intro h; simp at h

/-- The three records of the tests below. -/
theorem small_records : ∀ i < ([[1, 2, 3], [4, 3, 2, 2], [5]] : List (List Nat)).length,
    (tokenSet [[1, 2, 3], [4, 3, 2, 2], [5]] i).card ≤ 2 ^ 26 := by
  intro i hi
  unfold tokenSet
  refine (List.toFinset_card_le _).trans ?_
  match i, hi with
  | 0, _ => simp
  | 1, _ => simp
  | 2, _ => simp

-- The hypotheses hold on data, where half of the tokens are in common.
example : ∃ fl, IsRounding fl ∧ ∃ out, ppjoinRecords (PpjoinFloat.jaccardHelper fl (1 / 2)) ⟨true, false⟩ true
    [[1, 2, 3], [4, 3, 2, 2], [5]] .freq = .ok out ∧ ((0, 1) ∈ out ∨ (1, 0) ∈ out) := by
  obtain ⟨fl, hfl⟩ := exists_rounding
  have hd : IsDouble (1 / 2) := ⟨1, -1, by norm_num, by norm_num, by norm_num⟩
  obtain ⟨out, hout, -, hcomp, -⟩ := all_pairs_jaccard_float hfl hd (by norm_num) (by norm_num)
    (tokenizer := true) (records := [[1, 2, 3], [4, 3, 2, 2], [5]]) (ordering := .freq) trivial rfl (by simp) small_records
  refine ⟨fl, hfl, out, hout, hcomp 0 1 (by simp) (by simp) (by simp) ?_⟩
  have : (1 / 2 : ℚ) ≤ jaccard (tokenSet [[1, 2, 3], [4, 3, 2, 2], [5]] 0) (tokenSet [[1, 2, 3], [4, 3, 2, 2], [5]] 1) := by decide +kernel
  have h := (Rat.cast_le (K := ℝ)).mpr this
  push_cast at h
  exact h

-- With Dice and the threshold `0.6` as Python reads it, which is below six tenths.
example : ∃ fl, IsRounding fl ∧ ∃ out, ppjoinRecords (PpjoinFloat.diceHelper fl (fl (3 / 5))) ⟨true, false⟩ true
    [[1, 2, 3], [4, 3, 2, 2], [5]] .freq = .ok out ∧ ((0, 1) ∈ out ∨ (1, 0) ∈ out) := by
  obtain ⟨fl, hfl⟩ := exists_rounding
  have e := PpjoinFloat.unit_err hfl (x := 3 / 5) (by norm_num) (by norm_num)
  obtain ⟨out, hout, -, hcomp, -⟩ := all_pairs_dice_float hfl (hfl.double (3 / 5))
    (by linarith [show (4 / 1000000 : ℝ) ≤ 3 / 5 - 1 / 2 ^ 53 by norm_num]) (by linarith [show (3 / 5 + 1 / 2 ^ 53 : ℝ) < 1 by norm_num])
    (tokenizer := true) (records := [[1, 2, 3], [4, 3, 2, 2], [5]]) (ordering := .freq) trivial rfl (by simp) small_records
  refine ⟨fl, hfl, out, hout, hcomp 0 1 (by simp) (by simp) (by simp) ?_⟩
  have : (2 / 3 : ℚ) ≤ dice (tokenSet [[1, 2, 3], [4, 3, 2, 2], [5]] 0) (tokenSet [[1, 2, 3], [4, 3, 2, 2], [5]] 1) := by decide +kernel
  have h := (Rat.cast_le (K := ℝ)).mpr this
  push_cast at h
  linarith [show (3 / 5 + 1 / 2 ^ 53 : ℝ) ≤ 2 / 3 by norm_num]

example : ∃ fl, IsRounding fl ∧ ∃ out, ppjoinRecords (PpjoinFloat.binaryCosineHelper fl (1 / 2)) ⟨true, false⟩ true
    [[1, 2, 3], [4, 3, 2, 2], [5]] .freq = .ok out ∧ ((0, 1) ∈ out ∨ (1, 0) ∈ out) := by
  obtain ⟨fl, hfl⟩ := exists_rounding
  have hd : IsDouble (1 / 2) := ⟨1, -1, by norm_num, by norm_num, by norm_num⟩
  obtain ⟨out, hout, -, hcomp, -⟩ := all_pairs_cosine_float hfl hd (by norm_num) (by norm_num) (by norm_num)
    (tokenizer := true) (records := [[1, 2, 3], [4, 3, 2, 2], [5]]) (ordering := .freq) trivial rfl (by simp) small_records
  refine ⟨fl, hfl, out, hout, hcomp 0 1 (by simp) (by simp) (by simp) ?_⟩
  have h1 : (tokenSet ([[1, 2, 3], [4, 3, 2, 2], [5]] : List (List Nat)) 0).card = 3 := by decide +kernel
  have h2 : (tokenSet ([[1, 2, 3], [4, 3, 2, 2], [5]] : List (List Nat)) 1).card = 3 := by decide +kernel
  have h3 : (tokenSet ([[1, 2, 3], [4, 3, 2, 2], [5]] : List (List Nat)) 0 ∩ tokenSet [[1, 2, 3], [4, 3, 2, 2], [5]] 1).card = 2 := by
    decide +kernel
  rw [binaryCosine, h1, h2, h3, show (((3 : Nat) : ℝ) * ((3 : Nat) : ℝ)) = 3 ^ 2 by norm_num, Real.sqrt_sq (by norm_num)]
  norm_num

end Fog.Props
