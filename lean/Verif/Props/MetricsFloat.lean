import Verif.Props.Metrics
import Verif.Lemmas.Binary64
import Verif.Model.MetricsFloat
import Mathlib.Tactic.LinearCombination

/-!
# C109: the similarities in double precision
-/

namespace Fog.Props

open Metrics Spec

variable {α κ : Type _} [DecidableEq α] [DecidableEq κ] {fl : ℝ → ℝ}

/-! ## Sets -/

/-- The three functions on sets are those of the exact model, rounded once. -/
theorem set_similarities_rounded (hfl : IsRounding fl) (same : Bool) (A B : List α) :
    MetricsFloat.jaccardSimilarity fl same A B = fl (jaccardSimilarity same A B : ℚ) ∧
    MetricsFloat.diceCoefficient fl same A B = fl (diceCoefficient same A B : ℚ) ∧
    MetricsFloat.overlapCoefficient fl same A B = fl (overlapCoefficient same A B : ℚ) := by
  refine ⟨?_, ?_, ?_⟩
  · simp only [MetricsFloat.jaccardSimilarity, jaccardSimilarity]
    split_ifs <;> simp [hfl.one, hfl.zero]
  · simp only [MetricsFloat.diceCoefficient, diceCoefficient]
    split_ifs <;> simp [hfl.one, hfl.zero]
  · simp only [MetricsFloat.overlapCoefficient, overlapCoefficient]
    split_ifs <;> simp [hfl.one, hfl.zero]

/-- A ratio below one of numbers which are not too large is not rounded to one. -/
theorem ratio_below_one (hfl : IsRounding fl) {a b : Nat} (h : a < b) (hb : b ≤ 2 ^ 53) : fl ((a : ℝ) / b) < 1 := by
  have hb0 : (0 : ℝ) < b := by
    have : 0 < b := by omega
    exact_mod_cast this
  have hd : IsDouble (((2 ^ 53 - 1 : ℤ) : ℝ) * (2 : ℝ) ^ (-53 : ℤ)) := isDouble_of_le (by norm_num) (by norm_num)
  have h1 : ((2 ^ 53 - 1 : ℤ) : ℝ) * (2 : ℝ) ^ (-53 : ℤ) = 1 - 1 / 2 ^ 53 := by norm_num
  rw [h1] at hd
  have h2 : (a : ℝ) / b ≤ 1 - 1 / 2 ^ 53 := by
    rw [div_le_iff₀ hb0]
    have h3 : (a : ℝ) + 1 ≤ b := by exact_mod_cast h
    have h4 : (b : ℝ) ≤ 2 ^ 53 := by exact_mod_cast hb
    have h5 : (b : ℝ) / 2 ^ 53 ≤ 1 := by rw [div_le_one (by positivity)]; exact h4
    rw [sub_mul, one_mul, one_div_mul_eq_div]
    linarith
  have h3 := hfl.mono h2
  rw [hfl.of_double hd] at h3
  have : (0 : ℝ) < 1 / 2 ^ 53 := by positivity
  linarith

theorem ratio_eq_one_iff (hfl : IsRounding fl) {a b : Nat} (h : a ≤ b) (hb0 : 0 < b) (hb : b ≤ 2 ^ 53) :
    fl ((a : ℝ) / b) = 1 ↔ a = b := by
  constructor
  · intro h1
    by_contra hne
    have := ratio_below_one hfl (show a < b by omega) hb
    linarith
  · rintro rfl
    have : (a : ℝ) ≠ 0 := by exact_mod_cast hb0.ne'
    rw [div_self this, hfl.one]

/-- What rounding does to a number between zero and one: it remains there, it is not below any double which is not above the number,
and it is not above any double which is not below the number; the error is at most `2 ^ -54`. -/
theorem rounded_unit (hfl : IsRounding fl) {x : ℝ} (h0 : 0 ≤ x) (h1 : x ≤ 1) :
    0 ≤ fl x ∧ fl x ≤ 1 ∧ (∀ r, IsDouble r → r ≤ x → r ≤ fl x) ∧ (∀ r, IsDouble r → x ≤ r → fl x ≤ r) ∧ |fl x - x| ≤ 1 / 2 ^ 54 := by
  refine ⟨hfl.nonneg h0, hfl.le_one h1, fun r hr h => ?_, fun r hr h => ?_, ?_⟩
  · rw [← hfl.of_double hr]; exact hfl.mono h
  · rw [← hfl.of_double hr]; exact hfl.mono h
  · have := hfl.abs_error (k := 0) (by norm_num) (x := x) (by rw [abs_of_nonneg h0]; simpa using h1)
    refine this.trans (le_of_eq ?_)
    norm_num

/-- **C109** for sets: in double precision the three functions are symmetric, between zero and one, within `2 ^ -54` of the exact
value, at least any threshold which the exact value reaches, and at most any threshold which the exact value does not exceed. -/
theorem set_similarities_float (hfl : IsRounding fl) {same : Bool} {A B : List α} (hs : same = true → A = B) (hne : A ≠ []) :
    (MetricsFloat.jaccardSimilarity fl same A B = MetricsFloat.jaccardSimilarity fl same B A ∧
      MetricsFloat.diceCoefficient fl same A B = MetricsFloat.diceCoefficient fl same B A ∧
      MetricsFloat.overlapCoefficient fl same A B = MetricsFloat.overlapCoefficient fl same B A) ∧
    ∀ p : ℝ × ℚ, (p = (MetricsFloat.jaccardSimilarity fl same A B, jaccard A.toFinset B.toFinset) ∨
        p = (MetricsFloat.diceCoefficient fl same A B, dice A.toFinset B.toFinset) ∨
        p = (MetricsFloat.overlapCoefficient fl same A B, overlap A.toFinset B.toFinset)) →
      0 ≤ p.1 ∧ p.1 ≤ 1 ∧ (∀ r, IsDouble r → r ≤ (p.2 : ℝ) → r ≤ p.1) ∧ (∀ r, IsDouble r → (p.2 : ℝ) ≤ r → p.1 ≤ r) ∧
        |p.1 - (p.2 : ℝ)| ≤ 1 / 2 ^ 54 := by
  obtain ⟨⟨e1, e2, e3⟩, ⟨s1, s2, s3⟩, ⟨b1, b2, b3, b4, b5, b6⟩, -, -, -⟩ := set_similarities_partial hs hne
  obtain ⟨r1, r2, r3⟩ := set_similarities_rounded hfl same A B
  obtain ⟨t1, t2, t3⟩ := set_similarities_rounded hfl same B A
  refine ⟨⟨by rw [r1, t1, s1], by rw [r2, t2, s2], by rw [r3, t3, s3]⟩, ?_⟩
  have key : ∀ q : ℚ, 0 ≤ q → q ≤ 1 → _ := fun q h0 h1 =>
    rounded_unit hfl (x := (q : ℝ)) (by exact_mod_cast h0) (by exact_mod_cast h1)
  rintro p (rfl | rfl | rfl)
  · rw [r1, ← e1]; exact key _ b1 b2
  · rw [r2, ← e2]; exact key _ b3 b4
  · rw [r3, ← e3]; exact key _ b5 b6

/-- **C109** for sets: up to `2 ^ 53` elements in all, the similarity is one on equal sets only, as for exact numbers. -/
theorem set_similarities_float_one (hfl : IsRounding fl) {same : Bool} {A B : List α} (hs : same = true → A = B) (hne : A ≠ [])
    (hc : A.toFinset.card + B.toFinset.card ≤ 2 ^ 53) :
    (MetricsFloat.jaccardSimilarity fl same A B = 1 ↔ A.toFinset = B.toFinset) ∧
    (MetricsFloat.diceCoefficient fl same A B = 1 ↔ A.toFinset = B.toFinset) ∧
    (B ≠ [] → (MetricsFloat.overlapCoefficient fl same A B = 1 ↔ A.toFinset ⊆ B.toFinset ∨ B.toFinset ⊆ A.toFinset)) := by
  have hAne : A.toFinset.Nonempty := by
    obtain ⟨a, l, rfl⟩ := List.exists_cons_of_ne_nil hne
    exact ⟨a, by simp⟩
  have hA0 := hAne.card_pos
  obtain ⟨⟨e1, e2, e3⟩, -, -, o1, o2, -⟩ := set_similarities_partial hs hne
  obtain ⟨r1, r2, r3⟩ := set_similarities_rounded hfl same A B
  have hiA : (A.toFinset ∩ B.toFinset).card ≤ A.toFinset.card := Finset.card_le_card Finset.inter_subset_left
  have hiB : (A.toFinset ∩ B.toFinset).card ≤ B.toFinset.card := Finset.card_le_card Finset.inter_subset_right
  have hu := Finset.card_union_add_card_inter A.toFinset B.toFinset
  have one_iff : ∀ (a b : Nat), 0 < b → (((a : ℚ) / (b : ℚ) : ℚ) = 1 ↔ a = b) := by
    intro a b hb
    have : (b : ℚ) ≠ 0 := by exact_mod_cast hb.ne'
    rw [div_eq_one_iff_eq this]
    exact_mod_cast Iff.rfl
  refine ⟨?_, ?_, fun hB => ?_⟩
  · rw [← o1, r1, e1, jaccard]
    push_cast
    rw [ratio_eq_one_iff hfl (by omega) (by omega) (by omega), one_iff _ _ (by omega)]
  · rw [← o2, r2, e2, dice]
    have h1 : (((2 * ((A.toFinset ∩ B.toFinset).card : ℚ)) / ((A.toFinset.card + B.toFinset.card : ℕ) : ℚ) : ℚ) : ℝ) =
        ((2 * (A.toFinset ∩ B.toFinset).card : ℕ) : ℝ) / ((A.toFinset.card + B.toFinset.card : ℕ) : ℝ) := by push_cast; ring
    have h2 : (2 * ((A.toFinset ∩ B.toFinset).card : ℚ)) = ((2 * (A.toFinset ∩ B.toFinset).card : ℕ) : ℚ) := by push_cast; ring
    rw [h1, ratio_eq_one_iff hfl (by omega) (by omega) (by omega), h2, one_iff _ _ (by omega)]
  · have hBne : B.toFinset.Nonempty := by
      obtain ⟨a, l, rfl⟩ := List.exists_cons_of_ne_nil hB
      exact ⟨a, by simp⟩
    have hB0 := hBne.card_pos
    have o3 := ((set_similarity_laws A.toFinset B.toFinset).2.2 hAne).2.2 hBne
    rw [← o3, r3, e3, overlap]
    rw [show ((((A.toFinset ∩ B.toFinset).card : ℚ) / ((min A.toFinset.card B.toFinset.card : ℕ) : ℚ) : ℚ) : ℝ) =
      ((A.toFinset ∩ B.toFinset).card : ℝ) / ((min A.toFinset.card B.toFinset.card : ℕ) : ℝ) by push_cast; rfl]
    rw [ratio_eq_one_iff hfl (by omega) (by omega) (by omega), one_iff _ _ (by omega)]

-- 1 / 3 is not a double.
example : ∃ fl, IsRounding fl ∧ MetricsFloat.jaccardSimilarity fl false [1, 2] [2, 3] = fl (1 / 3) ∧
    MetricsFloat.jaccardSimilarity fl false [1, 2] [2, 3] < 1 := by
  obtain ⟨fl, hfl⟩ := exists_rounding
  have h1 : MetricsFloat.jaccardSimilarity fl false [1, 2] [2, 3] = fl (1 / 3) := by
    rw [(set_similarities_rounded hfl _ _ _).1, show jaccardSimilarity false [1, 2] [2, 3] = 1 / 3 by decide +kernel]
    norm_num
  refine ⟨fl, hfl, h1, ?_⟩
  rw [h1]
  exact_mod_cast ratio_below_one hfl (show 1 < 3 by norm_num) (by norm_num)

/-! ## Cosines -/

/-- The last line of both cosines on integers: within bounds, one on vectors of the same direction, and accurate. -/
theorem cosine_ratio_laws (hfl : IsRounding fl) {xx yy : Nat} {xy : ℤ} (hx : 0 < xx) (hy : 0 < yy) (hx' : xx ≤ 2 ^ 53)
    (hy' : yy ≤ 2 ^ 53) (hle : xy ^ 2 ≤ xx * yy) :
    ∃ c, MetricsFloat.cosineRatio fl xx xy yy = .ok c ∧ -1 ≤ c ∧ c ≤ 1 ∧ (0 ≤ xy → 0 ≤ c) ∧
      (xy ^ 2 = xx * yy → 0 ≤ xy → c = 1) ∧ (xx * yy ≤ 2 ^ 50 → c = 1 → xy ^ 2 = xx * yy ∧ 0 ≤ xy) ∧
      |c - (xy : ℝ) / Real.sqrt ((xx : ℝ) * yy)| ≤ 3 / 2 ^ 53 := by
  have hx0 : (1 : ℝ) ≤ xx := by exact_mod_cast hx
  have hy0 : (1 : ℝ) ≤ yy := by exact_mod_cast hy
  have hx2 : (xx : ℝ) ≤ 2 ^ 53 := by exact_mod_cast hx'
  have hy2 : (yy : ℝ) ≤ 2 ^ 53 := by exact_mod_cast hy'
  have hP1 : (1 : ℝ) ≤ (xx : ℝ) * yy := by nlinarith
  have hleR : (xy : ℝ) ^ 2 ≤ (xx : ℝ) * yy := by exact_mod_cast hle
  have hnat : xy.natAbs ≤ 2 ^ 53 := by
    have h1 : xy.natAbs ^ 2 ≤ xx * yy := by
      have : ((xy.natAbs ^ 2 : ℕ) : ℤ) ≤ ((xx * yy : ℕ) : ℤ) := by push_cast; rw [sq_abs]; exact hle
      exact_mod_cast this
    have h2 : xx * yy ≤ (2 ^ 53) ^ 2 := by
      rw [pow_two]
      exact Nat.mul_le_mul hx' hy'
    by_contra hc
    have : (2 ^ 53) ^ 2 < xy.natAbs ^ 2 := Nat.pow_lt_pow_left (by omega) (by norm_num)
    omega
  have habs : ((xy.natAbs : ℕ) : ℝ) = |(xy : ℝ)| := by rw [Nat.cast_natAbs]; push_cast; rfl
  -- the norm
  set D := fl (Real.sqrt (fl ((xx : ℝ) * yy))) with hD
  have hD1 : 1 ≤ D := by
    rw [hD, ← hfl.one]
    apply hfl.mono
    rw [Real.one_le_sqrt, ← hfl.one]
    exact hfl.mono hP1
  have hxyD : |(xy : ℝ)| ≤ D := by
    rw [← habs, ← hfl.sqrt_sq hnat, hD]
    apply hfl.mono
    apply Real.sqrt_le_sqrt
    apply hfl.mono
    rw [habs, sq_abs]
    exact hleR
  have hq : |(xy : ℝ) / D| ≤ 1 := by
    rw [abs_div, abs_of_pos (show 0 < D by linarith), div_le_one (by linarith)]
    exact hxyD
  have acc : |fl ((xy : ℝ) / D) - (xy : ℝ) / Real.sqrt ((xx : ℝ) * yy)| ≤ 3 / 2 ^ 53 := by
    set P := (xx : ℝ) * yy
    have hu : (0 : ℝ) < 1 / 2 ^ 53 := by positivity
    have hsP : 1 ≤ Real.sqrt P := Real.one_le_sqrt.mpr hP1
    have hss := Real.sq_sqrt (show 0 ≤ P by linarith)
    have hsmall : (2 : ℝ) ^ (-1022 : ℤ) ≤ 1 := by
      rw [show (1 : ℝ) = (2 : ℝ) ^ (0 : ℤ) by norm_num]
      exact zpow_le_zpow_right₀ (by norm_num) (by norm_num)
    have hr1 := abs_le.mp (hfl.relative (x := P) (hsmall.trans hP1))
    have hlow : (Real.sqrt P * (1 - 1 / 2 ^ 53)) ≤ Real.sqrt (fl P) := by
      apply Real.le_sqrt_of_sq_le
      rw [mul_pow, hss]
      nlinarith [hr1.1]
    have hhigh : Real.sqrt (fl P) ≤ Real.sqrt P * (1 + 1 / 2 ^ 53) := by
      rw [Real.sqrt_le_left (by positivity), mul_pow, hss]
      nlinarith [hr1.2]
    have hs1 : (1 : ℝ) / 2 ≤ Real.sqrt (fl P) := by
      have : (1 : ℝ) / 2 ≤ 1 - 1 / 2 ^ 53 := by norm_num
      nlinarith
    have hsmall2 : (2 : ℝ) ^ (-1022 : ℤ) ≤ 1 / 2 := by
      rw [show (1 : ℝ) / 2 = (2 : ℝ) ^ (-1 : ℤ) by norm_num]
      exact zpow_le_zpow_right₀ (by norm_num) (by norm_num)
    have hr2 := abs_le.mp (hfl.relative (x := Real.sqrt (fl P)) (hsmall2.trans hs1))
    rw [← hD] at hr2
    have hDP : |Real.sqrt P - D| ≤ Real.sqrt P * (2 / 2 ^ 53 + (1 / 2 ^ 53) ^ 2) := by
      rw [abs_le]
      constructor
      · have : Real.sqrt (fl P) * (1 + 1 / 2 ^ 53) ≤ Real.sqrt P * (1 + 1 / 2 ^ 53) * (1 + 1 / 2 ^ 53) :=
          mul_le_mul_of_nonneg_right hhigh (by positivity)
        linarith [hr2.2]
      · have : Real.sqrt P * (1 - 1 / 2 ^ 53) * (1 - 1 / 2 ^ 53) ≤ Real.sqrt (fl P) * (1 - 1 / 2 ^ 53) :=
          mul_le_mul_of_nonneg_right hlow (by norm_num)
        nlinarith [hr2.1]
    have hdiff : |(xy : ℝ) / D - (xy : ℝ) / Real.sqrt P| ≤ 2 / 2 ^ 53 + (1 / 2 ^ 53) ^ 2 := by
      have h1 : (xy : ℝ) / D - (xy : ℝ) / Real.sqrt P = ((xy : ℝ) / D) * ((Real.sqrt P - D) / Real.sqrt P) := by
        field_simp
      rw [h1, abs_mul, abs_div (Real.sqrt P - D), abs_of_pos (show 0 < Real.sqrt P by linarith)]
      have h2 : |Real.sqrt P - D| / Real.sqrt P ≤ 2 / 2 ^ 53 + (1 / 2 ^ 53) ^ 2 := by
        rw [div_le_iff₀ (by linarith), mul_comm]
        exact hDP
      calc _ ≤ 1 * (2 / 2 ^ 53 + (1 / 2 ^ 53) ^ 2) := mul_le_mul hq h2 (by positivity) (by norm_num)
        _ = _ := one_mul _
    have hlast := hfl.abs_error (k := 0) (by norm_num) (x := (xy : ℝ) / D) (by simpa using hq)
    calc _ = |(fl ((xy : ℝ) / D) - (xy : ℝ) / D) + ((xy : ℝ) / D - (xy : ℝ) / Real.sqrt P)| := by ring_nf
      _ ≤ |fl ((xy : ℝ) / D) - (xy : ℝ) / D| + |(xy : ℝ) / D - (xy : ℝ) / Real.sqrt P| := abs_add_le _ _
      _ ≤ (2 : ℝ) ^ ((0 : ℤ) - 54) + (2 / 2 ^ 53 + (1 / 2 ^ 53) ^ 2) := add_le_add hlast hdiff
      _ ≤ 3 / 2 ^ 53 := by norm_num
  refine ⟨fl ((xy : ℝ) / D), ?_, ?_, hfl.le_one (abs_le.mp hq).2, ?_, ?_, ?_, acc⟩
  · simp only [MetricsFloat.cosineRatio]
    rw [if_neg (by linarith)]
  · have h1 := hfl.mono (abs_le.mp hq).1
    have h2 := hfl.int (n := -1) (by norm_num)
    push_cast at h2
    rwa [h2] at h1
  · intro h
    have : (0 : ℝ) ≤ xy := by exact_mod_cast h
    exact hfl.nonneg (div_nonneg this (by linarith))
  · intro h h0
    have h0' : (0 : ℝ) ≤ xy := by exact_mod_cast h0
    have h1 : (xx : ℝ) * yy = ((xy.natAbs : ℕ) : ℝ) ^ 2 := by
      rw [habs, sq_abs]
      exact_mod_cast h.symm
    have h2 : D = xy := by
      rw [hD, h1, hfl.sqrt_sq hnat, habs, abs_of_nonneg h0']
    rw [← h2, div_self (by linarith), hfl.one]
  · intro hsmall hc
    have hsP : 1 ≤ Real.sqrt ((xx : ℝ) * yy) := Real.one_le_sqrt.mpr hP1
    have hss := Real.sq_sqrt (show 0 ≤ (xx : ℝ) * yy by linarith)
    rw [hc] at acc
    have h1 := (abs_le.mp acc).2
    have hpos : (0 : ℝ) < xy / Real.sqrt ((xx : ℝ) * yy) := by
      have : (3 : ℝ) / 2 ^ 53 < 1 := by norm_num
      linarith
    have hxy0 : (0 : ℝ) < xy := by
      by_contra hn
      exact absurd (div_nonpos_of_nonpos_of_nonneg (not_lt.mp hn) (by linarith : (0 : ℝ) ≤ Real.sqrt ((xx : ℝ) * yy))) (not_le.mpr hpos)
    have hxy0' : 0 ≤ xy := by exact_mod_cast hxy0.le
    refine ⟨le_antisymm hle ?_, hxy0'⟩
    by_contra hlt
    have h2 : xy ^ 2 + 1 ≤ xx * yy := by omega
    have h2R : (xy : ℝ) ^ 2 + 1 ≤ (xx : ℝ) * yy := by exact_mod_cast h2
    have h3 : (xx : ℝ) * yy ≤ 2 ^ 50 := by exact_mod_cast hsmall
    have h4 : Real.sqrt ((xx : ℝ) * yy) - 3 / 2 ^ 53 * Real.sqrt ((xx : ℝ) * yy) ≤ xy := by
      have : 1 - 3 / 2 ^ 53 ≤ (xy : ℝ) / Real.sqrt ((xx : ℝ) * yy) := by linarith
      rw [le_div_iff₀ (by linarith)] at this
      linarith
    set r := Real.sqrt ((xx : ℝ) * yy)
    have h5 : (r * (1 - 3 / 2 ^ 53)) ^ 2 ≤ (xy : ℝ) ^ 2 := by
      apply pow_le_pow_left₀ _ (by linarith)
      exact mul_nonneg (by linarith) (by norm_num)
    rw [mul_pow, hss] at h5
    have h6 : (xx : ℝ) * yy * (6 / 2 ^ 53) ≤ 2 ^ 50 * (6 / 2 ^ 53) := mul_le_mul_of_nonneg_right h3 (by norm_num)
    have h7 : (0 : ℝ) ≤ (xx : ℝ) * yy * (3 / 2 ^ 53) ^ 2 := by positivity
    have h8 : (xx : ℝ) * yy * (1 - 3 / 2 ^ 53) ^ 2 = xx * yy - xx * yy * (6 / 2 ^ 53) + xx * yy * (3 / 2 ^ 53) ^ 2 := by ring
    have h9 : (2 : ℝ) ^ 50 * (6 / 2 ^ 53) < 1 := by norm_num
    linarith

/-- The sums are exact on integers. -/
theorem cosine_fold_exact (hfl : IsRounding fl) (B : Dict κ ℝ) (hB : ∀ k, ∃ n : ℤ, weight B k = n) (l : List (κ × ℝ))
    (hl : ∀ item ∈ l, ∃ n : ℤ, item.2 = n) (xx xy : ℤ) (h0 : 0 ≤ xx)
    (h1 : (xx : ℝ) + (l.map fun item => item.2 ^ 2).sum ≤ 2 ^ 53)
    (h2 : |(xy : ℝ)| + (l.map fun item => |item.2 * weight B item.1|).sum ≤ 2 ^ 53) :
    l.foldl (MetricsFloat.cosineStep fl B) ((xx : ℝ), (xy : ℝ)) = l.foldl (cosineStep B) ((xx : ℝ), (xy : ℝ)) := by
  induction l generalizing xx xy with
  | nil => rfl
  | cons item l ih =>
      obtain ⟨w, hw⟩ := hl item (by simp)
      obtain ⟨v, hv⟩ := hB item.1
      have hl' : ∀ item ∈ l, ∃ n : ℤ, item.2 = n := fun i hi => hl i (by simp [hi])
      rw [List.map_cons, List.sum_cons] at h1 h2
      have s1 : 0 ≤ (l.map fun item => item.2 ^ 2).sum := List.sum_nonneg (by
        intro a ha
        obtain ⟨i, _, rfl⟩ := List.mem_map.mp ha
        positivity)
      have s2 : 0 ≤ (l.map fun item => |item.2 * weight B item.1|).sum := List.sum_nonneg (by
        intro a ha
        obtain ⟨i, _, rfl⟩ := List.mem_map.mp ha
        positivity)
      have h0' : (0 : ℝ) ≤ xx := by exact_mod_cast h0
      have hsq : 0 ≤ item.2 ^ 2 := sq_nonneg _
      have e1 : fl (item.2 ^ 2) = item.2 ^ 2 := by
        have h := hfl.int (n := w ^ 2) (by
          rw [abs_of_nonneg (sq_nonneg w)]
          have : ((w ^ 2 : ℤ) : ℝ) ≤ ((2 ^ 53 : ℤ) : ℝ) := by push_cast; rw [← hw]; linarith
          exact_mod_cast this)
        rw [hw]
        exact_mod_cast h
      have e2 : fl ((xx : ℝ) + item.2 ^ 2) = ((xx + w ^ 2 : ℤ) : ℝ) := by
        have h := hfl.int (n := xx + w ^ 2) (by
          rw [abs_of_nonneg (by positivity)]
          have : ((xx + w ^ 2 : ℤ) : ℝ) ≤ ((2 ^ 53 : ℤ) : ℝ) := by push_cast; rw [← hw]; linarith
          exact_mod_cast this)
        rw [← h, hw]
        push_cast
        rfl
      have x1 : (xx : ℝ) + item.2 ^ 2 = ((xx + w ^ 2 : ℤ) : ℝ) := by rw [hw]; push_cast; rfl
      rw [List.foldl_cons, List.foldl_cons]
      have hstep : MetricsFloat.cosineStep fl B ((xx : ℝ), (xy : ℝ)) item = cosineStep B ((xx : ℝ), (xy : ℝ)) item ∧
          ∃ xy' : ℤ, cosineStep B ((xx : ℝ), (xy : ℝ)) item = (((xx + w ^ 2 : ℤ) : ℝ), (xy' : ℝ)) ∧
            |(xy' : ℝ)| ≤ |(xy : ℝ)| + |item.2 * weight B item.1| := by
        simp only [MetricsFloat.cosineStep, cosineStep]
        rw [e1, e2, x1]
        cases hg : Dict.get? B item.1 with
        | none => exact ⟨rfl, xy, rfl, by linarith [abs_nonneg (item.2 * weight B item.1)]⟩
        | some v2 =>
            have hv2 : v2 = v := by rw [← hv]; simp [weight, hg]
            have hb : |((w * v : ℤ) : ℝ)| ≤ 2 ^ 53 ∧ |((xy + w * v : ℤ) : ℝ)| ≤ |(xy : ℝ)| + |item.2 * weight B item.1| := by
              push_cast
              rw [hw, hv] at h2 ⊢
              exact ⟨by linarith [abs_nonneg (xy : ℝ)], abs_add_le _ _⟩
            have e3 : fl (item.2 * v2) = ((w * v : ℤ) : ℝ) := by
              rw [← hfl.int (n := w * v) (by exact_mod_cast hb.1), hw, hv2]
              push_cast
              rfl
            have hb2 : |((xy + w * v : ℤ) : ℝ)| ≤ 2 ^ 53 := hb.2.trans (by linarith)
            have e4 : fl ((xy : ℝ) + ((w * v : ℤ) : ℝ)) = ((xy + w * v : ℤ) : ℝ) := by
              rw [← hfl.int (n := xy + w * v) (by exact_mod_cast hb2)]
              push_cast
              rfl
            have e5 : (xy : ℝ) + item.2 * v2 = ((xy + w * v : ℤ) : ℝ) := by rw [hw, hv2]; push_cast; rfl
            simp only
            rw [e3, e4, e5]
            exact ⟨rfl, _, rfl, hb.2⟩
      obtain ⟨hs1, xy', hs2, hs3⟩ := hstep
      rw [hs1, hs2]
      apply ih hl' (xx + w ^ 2) xy' (by positivity)
      · rw [← x1]; linarith
      · linarith

theorem square_fold_exact (hfl : IsRounding fl) (l : List (κ × ℝ)) (hl : ∀ item ∈ l, ∃ n : ℤ, item.2 = n) (yy : ℤ) (h0 : 0 ≤ yy)
    (h1 : (yy : ℝ) + (l.map fun item => item.2 ^ 2).sum ≤ 2 ^ 53) :
    l.foldl (fun yy item => fl (yy + fl (item.2 ^ 2))) (yy : ℝ) = (yy : ℝ) + (l.map fun item => item.2 ^ 2).sum := by
  have h := cosine_fold_exact hfl ([] : Dict κ ℝ) (fun k => ⟨0, by simp [weight, Dict.get?]⟩) l hl yy 0 h0 h1 (by
    simp [weight, Dict.get?])
  rw [cosineStep_foldl] at h
  have h2 : ∀ (l : List (κ × ℝ)) (a b : ℝ), (l.foldl (MetricsFloat.cosineStep fl ([] : Dict κ ℝ)) (a, b)).1 =
      l.foldl (fun yy item => fl (yy + fl (item.2 ^ 2))) a := by
    intro l
    induction l with
    | nil => intro a b; rfl
    | cons i l ih => intro a b; rw [List.foldl_cons, List.foldl_cons, ← ih _ b]; simp [MetricsFloat.cosineStep, Dict.get?]
  rw [← h2 l _ ((0 : ℤ) : ℝ), h]

/-- The sums computed on integers. -/
theorem cosine_folds_exact (hfl : IsRounding fl) (S : Finset κ) : ∀ P Q : Dict κ ℝ, (Dict.keys P).Nodup → (Dict.keys Q).Nodup →
    (∀ k, ∃ n : ℤ, weight P k = n) → (∀ k, ∃ n : ℤ, weight Q k = n) → S = (Dict.keys P).toFinset ∪ (Dict.keys Q).toFinset →
    dot S (weight P) (weight P) ≤ 2 ^ 53 → dot S (weight Q) (weight Q) ≤ 2 ^ 53 →
    P.foldl (MetricsFloat.cosineStep fl Q) (0, 0) = (dot S (weight P) (weight P), dot S (weight P) (weight Q)) ∧
    Q.foldl (fun yy item => fl (yy + fl (item.2 ^ 2))) 0 = dot S (weight Q) (weight Q) := by
  have hdd : ∀ f : κ → ℝ, dot S f f = ∑ k ∈ S, f k ^ 2 := by
    intro f; unfold dot; apply Finset.sum_congr rfl; intro k _; ring
  intro P Q hP hQ hPi hQi hS hP2 hQ2
  have iP : ∀ item ∈ P, ∃ n : ℤ, item.2 = n := fun item h => by
    obtain ⟨n, hn⟩ := hPi item.1
    exact ⟨n, by rw [← hn, weight_of_mem hP (v := item.2) h]⟩
  have iQ : ∀ item ∈ Q, ∃ n : ℤ, item.2 = n := fun item h => by
    obtain ⟨n, hn⟩ := hQi item.1
    exact ⟨n, by rw [← hn, weight_of_mem hQ (v := item.2) h]⟩
  have sP := sq_eq hP S (by rw [hS]; exact Finset.subset_union_left)
  have sQ := sq_eq hQ S (by rw [hS]; exact Finset.subset_union_right)
  rw [← hdd] at sP sQ
  have habs : (P.map fun item => |item.2 * weight Q item.1|).sum ≤ 2 ^ 53 := by
    rw [sum_items hP (fun k v => |v * weight Q k|)]
    calc _ ≤ ∑ k ∈ S, |weight P k * weight Q k| :=
          Finset.sum_le_sum_of_subset_of_nonneg (by rw [hS]; exact Finset.subset_union_left) fun k _ _ => abs_nonneg _
      _ ≤ ∑ k ∈ S, (weight P k ^ 2 + weight Q k ^ 2) / 2 := by
          apply Finset.sum_le_sum
          intro k _
          rw [abs_le]
          constructor <;> nlinarith [sq_nonneg (weight P k - weight Q k), sq_nonneg (weight P k + weight Q k)]
      _ = (dot S (weight P) (weight P) + dot S (weight Q) (weight Q)) / 2 := by
          rw [hdd, hdd, ← Finset.sum_add_distrib, Finset.sum_div]
      _ ≤ 2 ^ 53 := by linarith
  constructor
  · have h := cosine_fold_exact hfl Q hQi P iP 0 0 (by norm_num) (by rw [sP]; simpa using hP2) (by simpa using habs)
    rw [cosineStep_foldl, sP, dot_eq hP, ← hS] at h
    simpa [dot] using h
  · have h := square_fold_exact hfl Q iQ 0 (by norm_num) (by rw [sQ]; simpa using hQ2)
    rw [sQ] at h
    simpa using h

/-- The value computed on integers, whichever vector is iterated upon. -/
theorem sparse_cosine_float_value (hfl : IsRounding fl) {A B : Dict κ ℝ} (hA : (Dict.keys A).Nodup) (hB : (Dict.keys B).Nodup)
    (hAe : A ≠ []) (hBe : B ≠ []) (hAi : ∀ k, ∃ n : ℤ, weight A k = n) (hBi : ∀ k, ∃ n : ℤ, weight B k = n) (S : Finset κ)
    (hS : S = (Dict.keys A).toFinset ∪ (Dict.keys B).toFinset) (hA2 : dot S (weight A) (weight A) ≤ 2 ^ 53)
    (hB2 : dot S (weight B) (weight B) ≤ 2 ^ 53) :
    MetricsFloat.sparseCosineSimilarity fl false A B =
      MetricsFloat.cosineRatio fl (dot S (weight A) (weight A)) (dot S (weight A) (weight B)) (dot S (weight B) (weight B)) := by
  have key := cosine_folds_exact hfl S
  simp only [MetricsFloat.sparseCosineSimilarity, Bool.false_eq_true, if_false]
  rw [if_neg (by simp [hAe, hBe])]
  split
  · obtain ⟨h1, h2⟩ := key B A hB hA hBi hAi (by rw [hS, Finset.union_comm]) hB2 hA2
    simp only [h1, h2, MetricsFloat.cosineRatio]
    rw [mul_comm (dot S (weight B) (weight B)), show dot S (weight B) (weight A) = dot S (weight A) (weight B) by
      unfold dot; simp only [mul_comm (weight B _)]]
  · obtain ⟨h1, h2⟩ := key A B hA hB hAi hBi hS hA2 hB2
    simp only [h1, h2]

/-- **C109** for cosines: with integer weights whose squares have a sum of at most `2 ^ 53`, the cosine computed in double precision is
symmetric, between minus one and one, within `3 * 2 ^ -53` of the cosine, and one on vectors of the same direction, only on them if
the squares are small enough. -/
theorem sparse_cosine_float (hfl : IsRounding fl) {A B : Dict κ ℝ} (hA : (Dict.keys A).Nodup) (hB : (Dict.keys B).Nodup)
    (hAnz : ∃ k, weight A k ≠ 0) (hBnz : ∃ k, weight B k ≠ 0) (hAi : ∀ k, ∃ n : ℤ, weight A k = n)
    (hBi : ∀ k, ∃ n : ℤ, weight B k = n) (S : Finset κ) (hS : S = (Dict.keys A).toFinset ∪ (Dict.keys B).toFinset)
    (hA2 : dot S (weight A) (weight A) ≤ 2 ^ 53) (hB2 : dot S (weight B) (weight B) ≤ 2 ^ 53) :
    ∃ c, MetricsFloat.sparseCosineSimilarity fl false A B = .ok c ∧ MetricsFloat.sparseCosineSimilarity fl false B A = .ok c ∧
      -1 ≤ c ∧ c ≤ 1 ∧ |c - cosine S (weight A) (weight B)| ≤ 3 / 2 ^ 53 ∧ (0 ≤ dot S (weight A) (weight B) → 0 ≤ c) ∧
      (cosine S (weight A) (weight B) = 1 → c = 1) ∧
      (dot S (weight A) (weight A) * dot S (weight B) (weight B) ≤ 2 ^ 50 → c = 1 → cosine S (weight A) (weight B) = 1) := by
  have hdd : ∀ f : κ → ℝ, dot S f f = ∑ k ∈ S, f k ^ 2 := by
    intro f; unfold dot; apply Finset.sum_congr rfl; intro k _; ring
  have hmem : ∀ (D : Dict κ ℝ) k, weight D k ≠ 0 → k ∈ Dict.keys D := by
    intro D k h
    by_contra hc
    exact h (weight_of_not_mem hc)
  obtain ⟨ka, hka⟩ := hAnz
  obtain ⟨kb, hkb⟩ := hBnz
  have hAe : A ≠ [] := by rintro rfl; simp [weight, Dict.get?] at hka
  have hBe : B ≠ [] := by rintro rfl; simp [weight, Dict.get?] at hkb
  have pos : ∀ (f : κ → ℝ) k, k ∈ S → f k ≠ 0 → 0 < dot S f f := by
    intro f k hk hne
    rw [hdd]
    exact Finset.sum_pos' (fun i _ => sq_nonneg _) ⟨k, hk, by positivity⟩
  have pA := pos (weight A) ka (by rw [hS]; simp [hmem A ka hka]) hka
  have pB := pos (weight B) kb (by rw [hS]; simp [hmem B kb hkb]) hkb
  choose fA hfA using hAi
  choose fB hfB using hBi
  have natsq : ∀ (f : κ → ℝ) (g : κ → ℤ), (∀ k, f k = g k) → ∃ n : ℕ, dot S f f = n := by
    intro f g h
    refine ⟨∑ k ∈ S, (g k).natAbs ^ 2, ?_⟩
    rw [hdd]
    push_cast
    apply Finset.sum_congr rfl
    intro k _
    rw [h, Nat.cast_natAbs]
    push_cast
    rw [sq_abs]
  obtain ⟨xx, hxx⟩ := natsq _ _ hfA
  obtain ⟨yy, hyy⟩ := natsq _ _ hfB
  obtain ⟨xy, hxy⟩ : ∃ n : ℤ, dot S (weight A) (weight B) = n := by
    refine ⟨∑ k ∈ S, fA k * fB k, ?_⟩
    unfold dot
    push_cast
    apply Finset.sum_congr rfl
    intro k _
    rw [hfA, hfB]
  have hcs : xy ^ 2 ≤ xx * yy := by
    have := Finset.sum_mul_sq_le_sq_mul_sq S (weight A) (weight B)
    rw [← hdd, ← hdd, hxx, hyy] at this
    have h2 : (∑ k ∈ S, weight A k * weight B k) = (xy : ℝ) := hxy
    rw [h2] at this
    exact_mod_cast this
  have hcos : cosine S (weight A) (weight B) = (xy : ℝ) / Real.sqrt ((xx : ℝ) * yy) := by
    unfold cosine Spec.norm
    rw [hxy, hxx, hyy, Real.sqrt_mul (Nat.cast_nonneg _)]
  have hx0 : 0 < xx := by rw [hxx] at pA; exact_mod_cast pA
  have hy0 : 0 < yy := by rw [hyy] at pB; exact_mod_cast pB
  obtain ⟨c, h1, h2, h3, h0, h4, h5, h6⟩ := cosine_ratio_laws hfl hx0 hy0 (by rw [hxx] at hA2; exact_mod_cast hA2)
    (by rw [hyy] at hB2; exact_mod_cast hB2) hcs
  have hone : cosine S (weight A) (weight B) = 1 ↔ xy ^ 2 = xx * yy ∧ 0 ≤ xy := by
    have hP : (0 : ℝ) < (xx : ℝ) * yy := by rw [← hxx, ← hyy]; exact mul_pos pA pB
    rw [hcos, div_eq_one_iff_eq (Real.sqrt_pos.mpr hP).ne']
    constructor
    · intro h
      have h0 : (0 : ℝ) ≤ xy := by rw [h]; exact Real.sqrt_nonneg _
      have h7 : (xy : ℝ) ^ 2 = (xx : ℝ) * yy := by rw [h, Real.sq_sqrt hP.le]
      exact ⟨by exact_mod_cast h7, by exact_mod_cast h0⟩
    · rintro ⟨h7, h8⟩
      have h7' : (xx : ℝ) * yy = (xy : ℝ) ^ 2 := by exact_mod_cast h7.symm
      rw [h7', Real.sqrt_sq (by exact_mod_cast h8)]
  refine ⟨c, ?_, ?_, h2, h3, ?_, ?_, ?_, ?_⟩
  · rw [sparse_cosine_float_value hfl hA hB hAe hBe (fun k => ⟨_, hfA k⟩) (fun k => ⟨_, hfB k⟩) S hS hA2 hB2, hxx, hyy, hxy, h1]
  · rw [sparse_cosine_float_value hfl hB hA hBe hAe (fun k => ⟨_, hfB k⟩) (fun k => ⟨_, hfA k⟩) S (by rw [hS, Finset.union_comm])
      hB2 hA2, hxx, hyy, show dot S (weight B) (weight A) = xy by rw [← hxy]; unfold dot; simp only [mul_comm (weight B _)], ← h1]
    simp only [MetricsFloat.cosineRatio]
    rw [mul_comm (yy : ℝ)]
  · rw [hcos]; exact h6
  · rw [hxy]
    intro h
    exact h0 (by exact_mod_cast h)
  · intro h
    obtain ⟨h7, h8⟩ := hone.mp h
    exact h4 h7 h8
  · intro h hc
    rw [hxx, hyy] at h
    exact hone.mpr (h5 (by exact_mod_cast h) hc)

/-- **C109** for `cosine_similarity`, on sequences of at most `2 ^ 26` items. -/
theorem cosine_similarity_float (hfl : IsRounding fl) {A B : List κ} (hAe : A ≠ []) (hBe : B ≠ []) (hA : A.length ≤ 2 ^ 26)
    (hB : B.length ≤ 2 ^ 26) :
    ∃ c, MetricsFloat.cosineSimilarity fl A B = .ok c ∧ MetricsFloat.cosineSimilarity fl B A = .ok c ∧ 0 ≤ c ∧ c ≤ 1 ∧
      |c - cosine (A.toFinset ∪ B.toFinset) (fun k => (A.count k : ℝ)) (fun k => (B.count k : ℝ))| ≤ 3 / 2 ^ 53 ∧
      ((∀ k, A.count k = B.count k) → c = 1) := by
  obtain ⟨n1, m1, w1⟩ := counter_spec A
  obtain ⟨n2, m2, w2⟩ := counter_spec B
  have f1 : weight (counter A) = fun k => (A.count k : ℝ) := funext w1
  have f2 : weight (counter B) = fun k => (B.count k : ℝ) := funext w2
  have t1 : (Dict.keys (counter A)).toFinset = A.toFinset := by ext k; simp [m1]
  have t2 : (Dict.keys (counter B)).toFinset = B.toFinset := by ext k; simp [m2]
  have hnz : ∀ C : List κ, C ≠ [] → ∃ k, weight (counter C) k ≠ 0 := by
    intro C hC
    obtain ⟨a, l, rfl⟩ := List.exists_cons_of_ne_nil hC
    refine ⟨a, ?_⟩
    rw [(counter_spec _).2.2 a]
    have : 0 < (a :: l).count a := List.count_pos_iff.mpr (by simp)
    exact_mod_cast this.ne'
  have hsum : ∀ C : List κ, C.toFinset ⊆ A.toFinset ∪ B.toFinset → C.length ≤ 2 ^ 26 →
      dot (A.toFinset ∪ B.toFinset) (fun k => (C.count k : ℝ)) (fun k => (C.count k : ℝ)) ≤ 2 ^ 53 := by
    intro C hC hlen
    have h1 : ∑ k ∈ A.toFinset ∪ B.toFinset, C.count k = C.length := by
      rw [← List.sum_toFinset_count_eq_length C]
      symm
      apply Finset.sum_subset hC
      intro k _ hk
      rw [List.count_eq_zero]
      simpa using hk
    have h2 : ∑ k ∈ A.toFinset ∪ B.toFinset, C.count k * C.count k ≤ C.length * C.length := by
      calc _ ≤ ∑ k ∈ A.toFinset ∪ B.toFinset, C.count k * C.length :=
            Finset.sum_le_sum fun k _ => Nat.mul_le_mul_left _ List.count_le_length
        _ = _ := by rw [← Finset.sum_mul, h1]
    have h3 : C.length * C.length ≤ 2 ^ 53 := by
      have := Nat.mul_le_mul hlen hlen
      omega
    show ∑ k ∈ A.toFinset ∪ B.toFinset, (C.count k : ℝ) * (C.count k : ℝ) ≤ 2 ^ 53
    exact_mod_cast h2.trans h3
  obtain ⟨c, h1, h2, h3, h4, h5, h6, h7, -⟩ := sparse_cosine_float hfl n1 n2 (hnz A hAe) (hnz B hBe)
    (fun k => ⟨A.count k, by rw [w1]; rfl⟩) (fun k => ⟨B.count k, by rw [w2]; rfl⟩) (A.toFinset ∪ B.toFinset) (by rw [t1, t2])
    (by rw [f1]; exact hsum A Finset.subset_union_left hA) (by rw [f2]; exact hsum B Finset.subset_union_right hB)
  rw [f1, f2] at h5 h6 h7
  refine ⟨c, h1, h2, ?_, h4, h5, ?_⟩
  · apply h6
    unfold dot
    positivity
  · intro h
    apply h7
    have : (fun k => (A.count k : ℝ)) = fun k => (B.count k : ℝ) := by funext k; rw [h]
    rw [this]
    apply (cosine_laws _ _ (fun k => (B.count k : ℝ))).2.2.2
    obtain ⟨b, l, rfl⟩ := List.exists_cons_of_ne_nil hBe
    refine ⟨b, by simp, ?_⟩
    have : 0 < (b :: l).count b := List.count_pos_iff.mpr (by simp)
    exact_mod_cast this.ne'

theorem binary_fold_exact (hfl : IsRounding fl) (B l : List α) (x y : Nat) (hx : x + l.length ≤ 2 ^ 53) (hy : y + l.length ≤ 2 ^ 53) :
    l.foldl (fun (s : ℝ × ℝ) k => (fl (s.1 + 1), if k ∈ B then fl (s.2 + 1) else s.2)) ((x : ℝ), (y : ℝ)) =
      (((x + l.length : Nat) : ℝ), ((y + (l.filter (· ∈ B)).length : Nat) : ℝ)) := by
  induction l generalizing x y with
  | nil => simp
  | cons a l ih =>
      simp only [List.length_cons] at hx hy
      have e1 : fl ((x : ℝ) + 1) = ((x + 1 : Nat) : ℝ) := by
        rw [← hfl.nat (n := x + 1) (by omega)]; push_cast; rfl
      have e2 : fl ((y : ℝ) + 1) = ((y + 1 : Nat) : ℝ) := by
        rw [← hfl.nat (n := y + 1) (by omega)]; push_cast; rfl
      rw [List.foldl_cons]
      simp only [e1, e2]
      by_cases h : a ∈ B
      · rw [if_pos h, ih (x + 1) (y + 1) (by omega) (by omega)]
        simp [h]
        constructor <;> ring
      · rw [if_neg h, ih (x + 1) y (by omega) (by omega)]
        simp [h]
        ring

/-- **C109** for the binary cosine: up to `2 ^ 53` elements in each set it is symmetric, between zero and one, within `3 * 2 ^ -53` of
the exact value, and one on equal sets; only on them up to `2 ^ 25` elements. -/
theorem binary_cosine_float (hfl : IsRounding fl) {A B : List α} (hA : A.Nodup) (hB : B.Nodup) (hAe : A ≠ []) (hBe : B ≠ [])
    (hA2 : A.length ≤ 2 ^ 53) (hB2 : B.length ≤ 2 ^ 53) :
    ∃ c, MetricsFloat.sparseBinaryCosineSimilarity fl false A B = .ok c ∧
      MetricsFloat.sparseBinaryCosineSimilarity fl false B A = .ok c ∧ 0 ≤ c ∧ c ≤ 1 ∧
      |c - binaryCosine A.toFinset B.toFinset| ≤ 3 / 2 ^ 53 ∧ (A.toFinset = B.toFinset → c = 1) ∧
      (A.length ≤ 2 ^ 25 → B.length ≤ 2 ^ 25 → c = 1 → A.toFinset = B.toFinset) := by
  have hcA : A.toFinset.card = A.length := List.toFinset_card_of_nodup hA
  have hcB : B.toFinset.card = B.length := List.toFinset_card_of_nodup hB
  have pA : 0 < A.length := List.length_pos_iff.mpr hAe
  have pB : 0 < B.length := List.length_pos_iff.mpr hBe
  have hfilter : ∀ A B : List α, A.Nodup → (A.filter (· ∈ B)).length = (A.toFinset ∩ B.toFinset).card := by
    intro A B hA
    rw [← List.toFinset_card_of_nodup (hA.filter _)]
    congr 1; ext a; simp
  have hiA : (A.toFinset ∩ B.toFinset).card ≤ A.length := hcA ▸ Finset.card_le_card Finset.inter_subset_left
  have hiB : (A.toFinset ∩ B.toFinset).card ≤ B.length := hcB ▸ Finset.card_le_card Finset.inter_subset_right
  have value : ∀ P Q : List α, P.Nodup → Q.Nodup → P ≠ [] → Q ≠ [] → P.length ≤ 2 ^ 53 → Q.length ≤ 2 ^ 53 →
      MetricsFloat.sparseBinaryCosineSimilarity fl false P Q =
        MetricsFloat.cosineRatio fl P.length (((P.toFinset ∩ Q.toFinset).card : ℤ) : ℝ) Q.length := by
    intro P Q hP hQ hPe hQe hP2 hQ2
    simp only [MetricsFloat.sparseBinaryCosineSimilarity, Bool.false_eq_true, if_false]
    rw [if_neg (by simp [hPe, hQe])]
    split
    · have h := binary_fold_exact hfl P Q 0 0 (by omega) (by omega)
      simp only [Nat.cast_zero, zero_add] at h
      simp only [h, zero_add, MetricsFloat.cosineRatio]
      rw [hfl.nat hP2, mul_comm (Q.length : ℝ), hfilter Q P hQ, Finset.inter_comm]
      push_cast
      rfl
    · have h := binary_fold_exact hfl Q P 0 0 (by omega) (by omega)
      simp only [Nat.cast_zero, zero_add] at h
      simp only [h, zero_add, MetricsFloat.cosineRatio]
      rw [hfl.nat hQ2, hfilter P Q hP]
      push_cast
      rfl
  have hle : (((A.toFinset ∩ B.toFinset).card : ℕ) : ℤ) ^ 2 ≤ (A.length : ℤ) * (B.length : ℤ) := by
    rw [pow_two]
    exact_mod_cast Nat.mul_le_mul hiA hiB
  obtain ⟨c, h1, -, h3, h4, h5, h6, h7⟩ := cosine_ratio_laws hfl pA pB hA2 hB2 hle
  refine ⟨c, ?_, ?_, h4 (by positivity), h3, ?_, ?_, ?_⟩
  · rw [value A B hA hB hAe hBe hA2 hB2, h1]
  · rw [value B A hB hA hBe hAe hB2 hA2, Finset.inter_comm, ← h1]
    simp only [MetricsFloat.cosineRatio]
    rw [mul_comm (B.length : ℝ)]
  · rw [binaryCosine, hcA, hcB]
    exact_mod_cast h7
  · intro h
    apply h5 _ (by positivity)
    rw [← hcA, ← hcB, ← h, Finset.inter_self]
    ring
  · intro hA3 hB3 hc
    have hmul : A.length * B.length ≤ 2 ^ 50 := by
      have := Nat.mul_le_mul hA3 hB3
      omega
    obtain ⟨h8, -⟩ := h6 hmul hc
    have h8' : (A.toFinset ∩ B.toFinset).card * (A.toFinset ∩ B.toFinset).card = A.length * B.length := by
      rw [pow_two] at h8
      exact_mod_cast h8
    have hI0 : 0 < (A.toFinset ∩ B.toFinset).card := by
      by_contra hc0
      have h0 : (A.toFinset ∩ B.toFinset).card = 0 := by omega
      rw [h0] at h8'
      have := Nat.mul_pos pA pB
      omega
    have hb : B.length ≤ (A.toFinset ∩ B.toFinset).card := by
      have : (A.toFinset ∩ B.toFinset).card * B.length ≤ (A.toFinset ∩ B.toFinset).card * (A.toFinset ∩ B.toFinset).card := by
        rw [h8']; exact Nat.mul_le_mul_right _ hiA
      exact Nat.le_of_mul_le_mul_left this hI0
    have ha : A.length ≤ (A.toFinset ∩ B.toFinset).card := by
      have : A.length * (A.toFinset ∩ B.toFinset).card ≤ (A.toFinset ∩ B.toFinset).card * (A.toFinset ∩ B.toFinset).card := by
        rw [h8']; exact Nat.mul_le_mul_left _ hiB
      exact Nat.le_of_mul_le_mul_right this hI0
    have s1 := Finset.eq_of_subset_of_card_le (Finset.inter_subset_left (s₁ := A.toFinset) (s₂ := B.toFinset)) (by omega)
    have s2 := Finset.eq_of_subset_of_card_le (Finset.inter_subset_right (s₁ := A.toFinset) (s₂ := B.toFinset)) (by omega)
    rw [← s1, s2]

-- Two sequences with one item in common.
example : ∃ fl, IsRounding fl ∧ ∃ c, MetricsFloat.cosineSimilarity fl ['a', 'b'] ['b', 'c'] = .ok c ∧ 0 ≤ c ∧ c ≤ 1 := by
  obtain ⟨fl, hfl⟩ := exists_rounding
  obtain ⟨c, h1, -, h2, h3, -⟩ := cosine_similarity_float hfl (A := ['a', 'b']) (B := ['b', 'c']) (by simp) (by simp) (by simp) (by simp)
  exact ⟨fl, hfl, c, h1, h2, h3⟩

example : ∃ fl, IsRounding fl ∧ ∃ c, MetricsFloat.sparseBinaryCosineSimilarity fl false [1, 2, 3] [2, 3] = .ok c ∧ c < 1 := by
  obtain ⟨fl, hfl⟩ := exists_rounding
  obtain ⟨c, h1, -, -, h2, -, -, h3⟩ := binary_cosine_float hfl (A := [1, 2, 3]) (B := [2, 3]) (by decide) (by decide) (by simp) (by simp)
    (by simp) (by simp)
  refine ⟨fl, hfl, c, h1, lt_of_le_of_ne h2 fun h => ?_⟩
  have := h3 (by simp) (by simp) h
  revert this
  decide

-- Two vectors of integers, one of them twice the other.
example : ∃ fl, IsRounding fl ∧ MetricsFloat.sparseCosineSimilarity fl false [('x', 1), ('y', -2)] [('y', -4), ('x', 2)] = .ok 1 := by
  obtain ⟨fl, hfl⟩ := exists_rounding
  have w1 : ∀ k, weight [('x', (1 : ℝ)), ('y', -2)] k = if k = 'x' then 1 else if k = 'y' then -2 else 0 := by
    intro k; simp only [weight, Dict.get?]; split_ifs <;> grind
  have w2 : ∀ k, weight [('y', (-4 : ℝ)), ('x', 2)] k = if k = 'y' then -4 else if k = 'x' then 2 else 0 := by
    intro k; simp only [weight, Dict.get?]; split_ifs <;> grind
  have hs : (Dict.keys [('x', (1 : ℝ)), ('y', -2)]).toFinset ∪ (Dict.keys [('y', (-4 : ℝ)), ('x', 2)]).toFinset = ({'x', 'y'} : Finset Char) := by
    simp only [Dict.keys, List.map_cons, List.map_nil]; decide
  obtain ⟨c, h1, -, -, -, -, -, h2, -⟩ := sparse_cosine_float hfl (A := [('x', (1 : ℝ)), ('y', -2)]) (B := [('y', (-4 : ℝ)), ('x', 2)])
    (by simp [Dict.keys]) (by simp [Dict.keys]) ⟨'x', by simp [w1]⟩ ⟨'x', by simp [w2]⟩
    (fun k => by rw [w1]; split_ifs; exacts [⟨1, by simp⟩, ⟨-2, by simp⟩, ⟨0, by simp⟩])
    (fun k => by rw [w2]; split_ifs; exacts [⟨-4, by simp⟩, ⟨2, by simp⟩, ⟨0, by simp⟩]) {'x', 'y'} hs.symm
    (by simp [dot, w1]; norm_num) (by simp [dot, w2]; norm_num)
  refine ⟨fl, hfl, ?_⟩
  rw [h1, h2]
  have e : (5 : ℝ) * 20 = 10 ^ 2 := by norm_num
  simp [cosine, Spec.norm, dot, w1, w2]
  norm_num
  rw [← Real.sqrt_mul (by norm_num), e, Real.sqrt_sq (by norm_num)]
  norm_num

/-- **C109** is false of `sparse_cosine_similarity` when weights are not integers: the similarity of the vectors 0.3 and 1.7, which are
the nearest doubles to these numbers, is `1 + 2 ^ -52`. -/
theorem sparse_cosine_float_above_one (hfl : IsRounding fl) :
    MetricsFloat.sparseCosineSimilarity fl false [('x', fl (3 / 10))] [('x', fl (17 / 10))] = .ok (1 + 1 / 2 ^ 52) := by
  have near : ∀ (x : ℝ) (n k : ℤ), -1074 ≤ k → (2 : ℝ) ^ (52 + k) ≤ x → |n| ≤ 2 ^ 53 → |x - n * (2 : ℝ) ^ k| < (2 : ℝ) ^ k / 2 →
      fl x = n * (2 : ℝ) ^ k := fun x n k h1 h2 h3 h4 => hfl.eq_of_near h1 h2 h3 h4
  have a1 := near (3 / 10) 5404319552844595 (-54) (by norm_num) (by norm_num) (by norm_num) (by rw [abs_lt]; norm_num)
  have a2 := near (17 / 10) 7656119366529843 (-52) (by norm_num) (by norm_num) (by norm_num) (by rw [abs_lt]; norm_num)
  have a3 := near ((((5404319552844595 : ℤ) : ℝ) * (2 : ℝ) ^ (-54 : ℤ)) ^ 2) 6485183463413514 (-56) (by norm_num) (by norm_num)
    (by norm_num) (by rw [abs_lt]; norm_num)
  have a4 := near ((((7656119366529843 : ℤ) : ℝ) * (2 : ℝ) ^ (-52 : ℤ)) ^ 2) 6507701461550366 (-51) (by norm_num) (by norm_num)
    (by norm_num) (by rw [abs_lt]; norm_num)
  have a5 := near ((((5404319552844595 : ℤ) : ℝ) * (2 : ℝ) ^ (-54 : ℤ)) * (((7656119366529843 : ℤ) : ℝ) * (2 : ℝ) ^ (-52 : ℤ)))
    4593671619917906 (-53) (by norm_num) (by norm_num) (by norm_num) (by rw [abs_lt]; norm_num)
  have a6 := near ((((6485183463413514 : ℤ) : ℝ) * (2 : ℝ) ^ (-56 : ℤ)) * (((6507701461550366 : ℤ) : ℝ) * (2 : ℝ) ^ (-51 : ℤ)))
    4685545052316263 (-54) (by norm_num) (by norm_num) (by norm_num) (by rw [abs_lt]; norm_num)
  have a7 := near (Real.sqrt (((4685545052316263 : ℤ) : ℝ) * (2 : ℝ) ^ (-54 : ℤ))) 4593671619917905 (-53) (by norm_num)
    (Real.le_sqrt_of_sq_le (by norm_num)) (by norm_num) (by
      rw [abs_lt, lt_sub_iff_add_lt, sub_lt_iff_lt_add]
      exact ⟨Real.lt_sqrt_of_sq_lt (by norm_num), by rw [Real.sqrt_lt' (by norm_num)]; norm_num⟩)
  have a8 := near ((((4593671619917906 : ℤ) : ℝ) * (2 : ℝ) ^ (-53 : ℤ)) / (((4593671619917905 : ℤ) : ℝ) * (2 : ℝ) ^ (-53 : ℤ)))
    4503599627370497 (-52) (by norm_num) (by norm_num) (by norm_num) (by rw [abs_lt]; norm_num)
  have d3 : fl (((6485183463413514 : ℤ) : ℝ) * (2 : ℝ) ^ (-56 : ℤ)) = _ := hfl.of_double (isDouble_of_le (by norm_num) (by norm_num))
  have d4 : fl (((6507701461550366 : ℤ) : ℝ) * (2 : ℝ) ^ (-51 : ℤ)) = _ := hfl.of_double (isDouble_of_le (by norm_num) (by norm_num))
  have d5 : fl (((4593671619917906 : ℤ) : ℝ) * (2 : ℝ) ^ (-53 : ℤ)) = _ := hfl.of_double (isDouble_of_le (by norm_num) (by norm_num))
  have hv : ((4503599627370497 : ℤ) : ℝ) * (2 : ℝ) ^ (-52 : ℤ) = 1 + 1 / 2 ^ 52 := by norm_num
  have hn : ((4593671619917905 : ℤ) : ℝ) * (2 : ℝ) ^ (-53 : ℤ) ≠ 0 := by norm_num
  rw [a1, a2]
  have hfold : List.foldl (MetricsFloat.cosineStep fl [('x', ((7656119366529843 : ℤ) : ℝ) * (2 : ℝ) ^ (-52 : ℤ))]) (0, 0)
      [('x', ((5404319552844595 : ℤ) : ℝ) * (2 : ℝ) ^ (-54 : ℤ))] =
      (((6485183463413514 : ℤ) : ℝ) * (2 : ℝ) ^ (-56 : ℤ), ((4593671619917906 : ℤ) : ℝ) * (2 : ℝ) ^ (-53 : ℤ)) := by
    rw [List.foldl_cons, List.foldl_nil]
    simp only [MetricsFloat.cosineStep, Dict.get?, if_true]
    rw [a3, a5, zero_add, zero_add, d3, d5]
  simp only [MetricsFloat.sparseCosineSimilarity, Bool.false_eq_true, if_false, List.length_cons, List.length_nil, swapped,
    gt_iff_lt, lt_irrefl, or_self, one_ne_zero, zero_add, hfold, List.foldl_cons, List.foldl_nil, MetricsFloat.cosineRatio]
  rw [a4, d4, a6, a7, if_neg hn, a8, hv]

/-! ## The weighted Jaccard similarity -/

theorem double_zero : IsDouble 0 := by simpa using isDouble_nat (n := 0) (by norm_num)

theorem weighted_step_bounds (hfl : IsRounding fl) {B : Dict κ ℝ} (hB0 : ∀ k, 0 ≤ weight B k) (hBd : ∀ k, IsDouble (weight B k))
    (l : List (κ × ℝ)) (hl0 : ∀ item ∈ l, 0 ≤ item.2) (hld : ∀ item ∈ l, IsDouble item.2) (I U : ℝ) (done : List κ) (h0 : 0 ≤ I)
    (hIU : I ≤ U) (hU : IsDouble U) (hdone : ∀ k ∈ done, weight B k ≤ U) :
    ∃ I' U' done', l.foldl (MetricsFloat.weightedStep fl B) (I, U, done) = (I', U', done') ∧ 0 ≤ I' ∧ I' ≤ U' ∧ IsDouble U' ∧
      U ≤ U' ∧ (∀ item ∈ l, item.2 ≤ U') ∧ ∀ k ∈ done', weight B k ≤ U' := by
  induction l generalizing I U done with
  | nil => exact ⟨I, U, done, rfl, h0, hIU, hU, le_refl _, by simp, hdone⟩
  | cons item l ih =>
      have i0 := hl0 item (by simp)
      have id := hld item (by simp)
      have b0 := hB0 item.1
      have bd := hBd item.1
      have hU0 : 0 ≤ U := h0.trans hIU
      have grow : ∀ w, 0 ≤ w → IsDouble w → U ≤ fl (U + w) ∧ w ≤ fl (U + w) := by
        intro w w0 wd
        constructor
        · have := hfl.mono (show U ≤ U + w by linarith)
          rwa [hfl.of_double hU] at this
        · have := hfl.mono (show w ≤ U + w by linarith)
          rwa [hfl.of_double wd] at this
      -- the item with the larger of its two weights
      have step : ∃ I1 U1 done1, MetricsFloat.weightedStep fl B (I, U, done) item = (I1, U1, done1) ∧ 0 ≤ I1 ∧ I1 ≤ U1 ∧ IsDouble U1 ∧
          U ≤ U1 ∧ item.2 ≤ U1 ∧ ∀ k ∈ done1, weight B k ≤ U1 := by
        have hw : (Dict.get? B item.1).getD 0 = weight B item.1 := rfl
        simp only [MetricsFloat.weightedStep, hw]
        have memd : ∀ V, U ≤ V → weight B item.1 ≤ V →
            ∀ k ∈ (if weight B item.1 ≠ 0 then item.1 :: done else done), weight B k ≤ V := by
          intro V hV hbV k hk
          split_ifs at hk
          · rcases List.mem_cons.mp hk with rfl | hk
            · exact hbV
            · exact (hdone k hk).trans hV
          · exact (hdone k hk).trans hV
        by_cases hlt : item.2 < weight B item.1
        · rw [if_pos hlt]
          obtain ⟨g1, g2⟩ := grow _ b0 bd
          exact ⟨_, _, _, rfl, hfl.nonneg (by linarith), hfl.mono (by linarith), hfl.double _, g1, hlt.le.trans g2, memd _ g1 g2⟩
        · rw [if_neg hlt]
          obtain ⟨g1, g2⟩ := grow _ i0 id
          exact ⟨_, _, _, rfl, hfl.nonneg (by linarith), hfl.mono (by linarith), hfl.double _, g1, g2, memd _ g1 ((not_lt.mp hlt).trans g2)⟩
      obtain ⟨I1, U1, done1, hs, j0, jU, jd, jm, ji, jdone⟩ := step
      obtain ⟨I', U', done', hf, k0, kU, kd, km, ki, kdone⟩ := ih (fun i hi => hl0 i (by simp [hi])) (fun i hi => hld i (by simp [hi]))
        I1 U1 done1 j0 jU jd jdone
      refine ⟨I', U', done', by rw [List.foldl_cons, hs, hf], k0, kU, kd, jm.trans km, ?_, kdone⟩
      intro i hi
      rcases List.mem_cons.mp hi with rfl | hi
      · exact ji.trans km
      · exact ki i hi

theorem weighted_rest_bounds (hfl : IsRounding fl) (done : List κ) (l : List (κ × ℝ)) (hl0 : ∀ item ∈ l, 0 ≤ item.2)
    (hld : ∀ item ∈ l, IsDouble item.2) (U : ℝ) (h0 : 0 ≤ U) (hU : IsDouble U) (hdone : ∀ item ∈ l, item.1 ∈ done → item.2 ≤ U) :
    U ≤ l.foldl (MetricsFloat.weightedRest fl done) U ∧ ∀ item ∈ l, item.2 ≤ l.foldl (MetricsFloat.weightedRest fl done) U := by
  induction l generalizing U with
  | nil => exact ⟨le_refl _, by simp⟩
  | cons item l ih =>
      rw [List.foldl_cons]
      have i0 := hl0 item (by simp)
      have step : U ≤ MetricsFloat.weightedRest fl done U item ∧ item.2 ≤ MetricsFloat.weightedRest fl done U item ∧
          IsDouble (MetricsFloat.weightedRest fl done U item) := by
        simp only [MetricsFloat.weightedRest]
        by_cases h : item.1 ∈ done
        · rw [if_pos h]
          exact ⟨le_refl _, hdone item (by simp) h, hU⟩
        · rw [if_neg h]
          refine ⟨?_, ?_, hfl.double _⟩
          · have := hfl.mono (show U ≤ U + item.2 by linarith)
            rwa [hfl.of_double hU] at this
          · have := hfl.mono (show item.2 ≤ U + item.2 by linarith)
            rwa [hfl.of_double (hld item (by simp))] at this
      obtain ⟨s1, s2, s3⟩ := step
      obtain ⟨r1, r2⟩ := ih (fun i hi => hl0 i (by simp [hi])) (fun i hi => hld i (by simp [hi])) _ (h0.trans s1) s3
        (fun i hi hd => (hdone i (by simp [hi]) hd).trans s1)
      refine ⟨s1.trans r1, ?_⟩
      intro i hi
      rcases List.mem_cons.mp hi with rfl | hi
      · exact s2.trans r1
      · exact r2 i hi

/-- **C109** partial, for `weighted_jaccard_similarity`: with weights which are doubles, not negative and not all zero, it is between
zero and one, and it is one on equal maps. Missing: it is not symmetric, see below. -/
theorem weighted_jaccard_float_partial (hfl : IsRounding fl) {A B : Dict κ ℝ} (hA : (Dict.keys A).Nodup) (hB : (Dict.keys B).Nodup)
    (hA0 : ∀ k, 0 ≤ weight A k) (hB0 : ∀ k, 0 ≤ weight B k) (hAd : ∀ k, IsDouble (weight A k)) (hBd : ∀ k, IsDouble (weight B k))
    (hnz : ∃ k, weight A k ≠ 0 ∨ weight B k ≠ 0) :
    ∃ c, MetricsFloat.weightedJaccardSimilarity fl false A B = .ok c ∧ 0 ≤ c ∧ c ≤ 1 ∧ ((∀ k, weight A k = weight B k) → c = 1) := by
  have key : ∀ P Q : Dict κ ℝ, (Dict.keys P).Nodup → (Dict.keys Q).Nodup → (∀ k, 0 ≤ weight P k) → (∀ k, 0 ≤ weight Q k) →
      (∀ k, IsDouble (weight P k)) → (∀ k, IsDouble (weight Q k)) → (∃ k, weight P k ≠ 0 ∨ weight Q k ≠ 0) →
      ∃ c, MetricsFloat.weightedOrdered fl P Q = .ok c ∧ 0 ≤ c ∧ c ≤ 1 ∧ ((∀ k, weight P k = weight Q k) → c = 1) := by
    intro P Q hP hQ hP0 hQ0 hPd hQd hnz
    have iP : ∀ item ∈ P, weight P item.1 = item.2 := fun item h => weight_of_mem hP (v := item.2) h
    have iQ : ∀ item ∈ Q, weight Q item.1 = item.2 := fun item h => weight_of_mem hQ (v := item.2) h
    obtain ⟨I, U, done, hf, h1, h2, h3, -, h4, h5⟩ := weighted_step_bounds hfl hQ0 hQd P
      (fun i hi => iP i hi ▸ hP0 i.1) (fun i hi => iP i hi ▸ hPd i.1) 0 0 [] (le_refl _) (le_refl _) double_zero (by simp)
    obtain ⟨r1, r2⟩ := weighted_rest_bounds hfl done Q (fun i hi => iQ i hi ▸ hQ0 i.1) (fun i hi => iQ i hi ▸ hQd i.1) U (h1.trans h2) h3
      (fun i hi hd => iQ i hi ▸ h5 i.1 hd)
    set V := Q.foldl (MetricsFloat.weightedRest fl done) U with hV
    have hVpos : 0 < V := by
      have mem : ∀ (D : Dict κ ℝ) k, weight D k ≠ 0 → ∃ v, (k, v) ∈ D ∧ v = weight D k := by
        intro D k h
        unfold weight at h ⊢
        cases hg : Dict.get? D k with
        | none => simp [hg] at h
        | some v => exact ⟨v, Dict.mem_of_get? hg, rfl⟩
      obtain ⟨k, hk | hk⟩ := hnz
      · obtain ⟨v, hm, hv⟩ := mem P k hk
        have : 0 < v := by rw [hv]; exact lt_of_le_of_ne (hP0 k) (Ne.symm hk)
        have := h4 _ hm
        simp only at this
        linarith
      · obtain ⟨v, hm, hv⟩ := mem Q k hk
        have : 0 < v := by rw [hv]; exact lt_of_le_of_ne (hQ0 k) (Ne.symm hk)
        have := r2 _ hm
        simp only at this
        linarith
    have hval : MetricsFloat.weightedOrdered fl P Q = .ok (fl (I / V)) := by
      simp only [MetricsFloat.weightedOrdered, hf]
      rw [← hV, if_neg hVpos.ne']
    refine ⟨_, hval, hfl.nonneg (div_nonneg h1 hVpos.le), hfl.le_one ?_, ?_⟩
    · rw [div_le_one hVpos]; linarith
    · intro heq
      have hsame : ∀ (l : List (κ × ℝ)), (∀ item ∈ l, weight Q item.1 = item.2) → ∀ (x : ℝ) (d : List κ),
          ∃ y d', l.foldl (MetricsFloat.weightedStep fl Q) (x, x, d) = (y, y, d') ∧
            (∀ k ∈ d, k ∈ d') ∧ ∀ item ∈ l, item.2 ≠ 0 → item.1 ∈ d' := by
        intro l
        induction l with
        | nil => intro _ x d; exact ⟨x, d, rfl, by simp, by simp⟩
        | cons item l ih =>
            intro hl x d
            have hw : (Dict.get? Q item.1).getD 0 = item.2 := hl item (by simp)
            rw [List.foldl_cons]
            simp only [MetricsFloat.weightedStep, hw, lt_irrefl, if_false]
            obtain ⟨y, d', e1, e2, e3⟩ := ih (fun i hi => hl i (by simp [hi])) (fl (x + item.2)) (if item.2 ≠ 0 then item.1 :: d else d)
            refine ⟨y, d', e1, ?_, ?_⟩
            · intro k hk
              apply e2
              split_ifs <;> simp [hk]
            · intro i hi hne
              rcases List.mem_cons.mp hi with rfl | hi
              · apply e2
                rw [if_pos hne]; simp
              · exact e3 i hi hne
      obtain ⟨y, d', e1, -, e3⟩ := hsame P (fun i hi => by rw [← heq, iP i hi]) 0 []
      rw [hf] at e1
      simp only [Prod.mk.injEq] at e1
      obtain ⟨rfl, rfl, rfl⟩ := e1
      have hrest : ∀ (l : List (κ × ℝ)), (∀ item ∈ l, item.1 ∈ done ∨ item.2 = 0) → l.foldl (MetricsFloat.weightedRest fl done) U = U := by
        intro l
        induction l with
        | nil => intro _; rfl
        | cons item l ih =>
            intro hl
            rw [List.foldl_cons]
            have : MetricsFloat.weightedRest fl done U item = U := by
              simp only [MetricsFloat.weightedRest]
              split_ifs with h
              · rfl
              · rcases hl item (by simp) with h' | h'
                · exact absurd h' h
                · rw [h', add_zero, hfl.of_double h3]
            rw [this]
            exact ih fun i hi => hl i (by simp [hi])
      have hVU : V = U := by
        rw [hV]
        apply hrest
        intro item hi
        by_cases hz : item.2 = 0
        · exact Or.inr hz
        · left
          have hwP : weight P item.1 = item.2 := by rw [heq, iQ item hi]
          unfold weight at hwP
          cases hg : Dict.get? P item.1 with
          | none => simp [hg] at hwP; exact absurd hwP.symm hz
          | some v =>
              have hm := Dict.mem_of_get? hg
              rw [hg] at hwP
              have hv : v = item.2 := hwP
              exact e3 (item.1, v) hm (by rw [hv]; exact hz)
      rw [hVU] at hVpos ⊢
      rw [div_self hVpos.ne', hfl.one]
  simp only [MetricsFloat.weightedJaccardSimilarity, Bool.false_eq_true, if_false]
  by_cases he : A.length = 0 ∨ B.length = 0
  · rw [if_pos he]
    refine ⟨0, rfl, le_refl _, by norm_num, fun heq => ?_⟩
    exfalso
    have hzero : ∀ k, weight A k = 0 := by
      intro k
      rcases he with h | h
      · have : A = [] := List.length_eq_zero_iff.mp h
        subst this; rfl
      · have : B = [] := List.length_eq_zero_iff.mp h
        subst this; rw [heq]; rfl
    obtain ⟨k, hk | hk⟩ := hnz
    · exact hk (hzero k)
    · exact hk (heq k ▸ hzero k)
  · rw [if_neg he]
    split
    · obtain ⟨c, h1, h2, h3, h4⟩ := key B A hB hA hB0 hA0 hBd hAd (by obtain ⟨k, h⟩ := hnz; exact ⟨k, h.symm⟩)
      exact ⟨c, h1, h2, h3, fun h => h4 fun k => (h k).symm⟩
    · exact key A B hA hB hA0 hB0 hAd hBd hnz

-- Two maps of weights with a key in common.
example : ∃ fl, IsRounding fl ∧ ∃ c, MetricsFloat.weightedJaccardSimilarity fl false [('x', 1), ('y', 2)] [('y', 3)] = .ok c ∧
    0 ≤ c ∧ c ≤ 1 := by
  obtain ⟨fl, hfl⟩ := exists_rounding
  have w1 : ∀ k, weight [('x', (1 : ℝ)), ('y', 2)] k = if k = 'x' then 1 else if k = 'y' then 2 else 0 := by
    intro k; simp only [weight, Dict.get?]; split_ifs <;> grind
  have w2 : ∀ k, weight [('y', (3 : ℝ))] k = if k = 'y' then 3 else 0 := by
    intro k; simp only [weight, Dict.get?]; split_ifs <;> grind
  have d : ∀ n : Nat, n ≤ 3 → IsDouble (n : ℝ) := fun n hn => isDouble_nat (by omega)
  obtain ⟨c, h1, h2, h3, -⟩ := weighted_jaccard_float_partial hfl (A := [('x', (1 : ℝ)), ('y', 2)]) (B := [('y', (3 : ℝ))])
    (by simp [Dict.keys]) (by simp [Dict.keys]) (fun k => by rw [w1]; split_ifs <;> norm_num) (fun k => by rw [w2]; split_ifs <;> norm_num)
    (fun k => by rw [w1]; split_ifs; exacts [by simpa using d 1 (by norm_num), by simpa using d 2 (by norm_num), double_zero])
    (fun k => by rw [w2]; split_ifs; exacts [by simpa using d 3 (by norm_num), double_zero]) ⟨'x', by simp [w1]⟩
  exact ⟨fl, hfl, c, h1, h2, h3⟩

/-- **C109** is false of `weighted_jaccard_similarity`: it is not symmetric, and it may be one on maps which differ. The small weights
are lost when they are added one at a time to a large one, and are not when they are added first. -/
theorem weighted_jaccard_float_not_symmetric (hfl : IsRounding fl) :
    MetricsFloat.weightedJaccardSimilarity fl false [('c', 1), ('x', 7 / 2 ^ 56), ('w', 7 / 2 ^ 56)]
      [('y', 7 / 2 ^ 56), ('z', 7 / 2 ^ 56), ('c', 1)] = .ok 1 ∧
    MetricsFloat.weightedJaccardSimilarity fl false [('y', 7 / 2 ^ 56), ('z', 7 / 2 ^ 56), ('c', 1)]
      [('c', 1), ('x', 7 / 2 ^ 56), ('w', 7 / 2 ^ 56)] = .ok (1 - 1 / 2 ^ 52) := by
  have e1 : fl (1 + 7 / 2 ^ 56) = 1 := by
    rw [hfl.eq_of_near (n := 4503599627370496) (k := -52) (by norm_num) (by norm_num) (by norm_num) (by rw [abs_lt]; norm_num)]
    norm_num
  have e2 : fl (7 / 2 ^ 56) = 7 / 2 ^ 56 := by
    have := hfl.of_double (isDouble_of_le (m := 7) (e := -56) (by norm_num) (by norm_num))
    norm_num at this ⊢
    exact this
  have e3 : fl (7 / 2 ^ 56 + 7 / 2 ^ 56) = 7 / 2 ^ 55 := by
    have := hfl.of_double (isDouble_of_le (m := 7) (e := -55) (by norm_num) (by norm_num))
    norm_num at this ⊢
    exact this
  have e4 : fl (7 / 2 ^ 55 + 1) = 1 + 1 / 2 ^ 52 := by
    rw [hfl.eq_of_near (n := 4503599627370497) (k := -52) (by norm_num) (by norm_num) (by norm_num) (by rw [abs_lt]; norm_num)]
    norm_num
  have e5 : fl (1 + 1 / 2 ^ 52 + 7 / 2 ^ 56) = 1 + 1 / 2 ^ 52 := by
    rw [hfl.eq_of_near (n := 4503599627370497) (k := -52) (by norm_num) (by norm_num) (by norm_num) (by rw [abs_lt]; norm_num)]
    norm_num
  have e6 : fl (1 / (1 + 1 / 2 ^ 52)) = 1 - 1 / 2 ^ 52 := by
    rw [hfl.eq_of_near (n := 9007199254740990) (k := -53) (by norm_num) (by norm_num) (by norm_num) (by rw [abs_lt]; norm_num)]
    norm_num
  have hpos : (0 : ℝ) < 7 / 2 ^ 56 := by norm_num
  have hlt : ¬ (7 / 2 ^ 56 : ℝ) < 0 := by norm_num
  have hne : ¬ (1 + 1 / 2 ^ 52 : ℝ) = 0 := by norm_num
  have h10 : ¬ (1 : ℝ) < 0 := by norm_num
  constructor
  · simp [MetricsFloat.weightedJaccardSimilarity, MetricsFloat.weightedOrdered, MetricsFloat.weightedStep, MetricsFloat.weightedRest,
      Dict.get?, e1, hfl.one, hfl.zero, hlt]
  · simp only [one_div] at e4 e5 e6 hne ⊢
    simp [MetricsFloat.weightedJaccardSimilarity, MetricsFloat.weightedOrdered, MetricsFloat.weightedStep, MetricsFloat.weightedRest,
      Dict.get?, e2, e3, e4, e5, e6, hfl.one, hfl.zero, hlt, hne]

end Fog.Props
