import Verif.Model.SparsificationFloat
import Verif.Model.KeyMiscFloat
import Verif.Spec.Logarithm
import Verif.Lemmas.Binary64
import Verif.Props.SparsificationFloat
import Verif.Props.Ngrams
import Mathlib.Analysis.Complex.ExponentialBounds

/-!
# C144: the default size of `floatsam_sparsification` and the sizes of `ngram_keys`, in double precision
-/

namespace Fog.Props

open Spec

variable {fl ln : ℝ → ℝ}

/-! ## The logarithm -/

/-- The number `e` is between `eLow / eUnit` and `eHigh / eUnit`. -/
def eLow : Nat := 363916618873 * 10 ^ 20 - 133877442384

def eHigh : Nat := 363916618873 * 10 ^ 20 + 133877442384

def eUnit : Nat := 133877442384 * 10 ^ 20

theorem e_bounds : (eLow : ℝ) / eUnit ≤ Real.exp 1 ∧ Real.exp 1 ≤ (eHigh : ℝ) / eUnit := by
  have h := abs_le.mp Real.exp_one_near_20
  have h1 : (eLow : ℝ) / eUnit = 363916618873 / 133877442384 - 1 / 10 ^ 20 := by
    rw [show eLow = 36391661887299999999866122557616 by decide +kernel, show eUnit = 13387744238400000000000000000000 by decide +kernel]
    norm_num
  have h2 : (eHigh : ℝ) / eUnit = 363916618873 / 133877442384 + 1 / 10 ^ 20 := by
    rw [show eHigh = 36391661887300000000133877442384 by decide +kernel, show eUnit = 13387744238400000000000000000000 by decide +kernel]
    norm_num
  rw [h1, h2]
  constructor <;> linarith [h.1, h.2]

theorem exp_bounds (k : Nat) : (eLow : ℝ) ^ k ≤ Real.exp k * eUnit ^ k ∧ Real.exp k * eUnit ^ k ≤ (eHigh : ℝ) ^ k := by
  have hu : (0 : ℝ) < eUnit := by unfold eUnit; norm_num
  obtain ⟨h1, h2⟩ := e_bounds
  rw [div_le_iff₀ hu] at h1
  rw [le_div_iff₀ hu] at h2
  have he := Real.exp_one_pow k
  rw [← he, ← mul_pow]
  exact ⟨pow_le_pow_left₀ (by positivity) h1 k, pow_le_pow_left₀ (mul_nonneg (Real.exp_pos 1).le hu.le) h2 k⟩

theorem exp_table : ∀ k < 33, 1 ≤ k → eHigh ^ k < (eLow ^ k / eUnit ^ k + 1) * eUnit ^ k ∧
    eLow ^ k / eUnit ^ k * eUnit ^ k * 2 ^ 48 ≤ eLow ^ k * (2 ^ 48 - 1) := by
  decide +kernel

/-- No integer is just below a power of `e`, up to the thirty-second one. -/
theorem exp_gap {k n : Nat} (h1 : 1 ≤ k) (hk : k ≤ 32) (hn : (n : ℝ) < Real.exp k) : (n : ℝ) ≤ Real.exp k * (1 - 1 / 2 ^ 48) := by
  have hu : (0 : ℝ) < (eUnit : ℝ) ^ k := pow_pos (by unfold eUnit; norm_num) k
  obtain ⟨b1, b2⟩ := exp_bounds k
  obtain ⟨t1, t2⟩ := exp_table k (by omega) h1
  generalize hN : eLow ^ k / eUnit ^ k = N at *
  have t1' : (eHigh : ℝ) ^ k < (N + 1) * eUnit ^ k := by exact_mod_cast t1
  have t2' : (N : ℝ) * eUnit ^ k * 2 ^ 48 ≤ (eLow : ℝ) ^ k * (2 ^ 48 - 1) := by
    have : ((N * eUnit ^ k * 2 ^ 48 : Nat) : ℝ) ≤ ((eLow ^ k * (2 ^ 48 - 1) : Nat) : ℝ) := by exact_mod_cast t2
    push_cast at this
    norm_num
    exact this
  have hlt : (n : ℝ) < N + 1 := by
    have : (n : ℝ) * eUnit ^ k < (N + 1) * eUnit ^ k := by
      have := mul_lt_mul_of_pos_right hn hu
      linarith
    exact lt_of_mul_lt_mul_right this hu.le
  have hle : (n : ℝ) ≤ N := by
    have : n < N + 1 := by exact_mod_cast hlt
    exact_mod_cast Nat.lt_succ_iff.mp this
  have h3 : (N : ℝ) * eUnit ^ k ≤ Real.exp k * (1 - 1 / 2 ^ 48) * eUnit ^ k := by
    have h4 : (eLow : ℝ) ^ k * (2 ^ 48 - 1) ≤ Real.exp k * eUnit ^ k * (2 ^ 48 - 1) := mul_le_mul_of_nonneg_right b1 (by norm_num)
    have h5 : (N : ℝ) * eUnit ^ k * 2 ^ 48 ≤ Real.exp k * (1 - 1 / 2 ^ 48) * eUnit ^ k * 2 ^ 48 := by
      have : Real.exp k * (1 - 1 / 2 ^ 48) * eUnit ^ k * 2 ^ 48 = Real.exp k * eUnit ^ k * (2 ^ 48 - 1) := by ring
      rw [this]
      linarith
    exact le_of_mul_le_mul_right h5 (by norm_num)
  exact hle.trans (le_of_mul_le_mul_right h3 hu)

/-- The logarithm of an integer is not just below an integer. -/
theorem log_gap {k n : Nat} (h0 : 0 < n) (h1 : 1 ≤ k) (hk : k ≤ 32) (hn : Real.log n < k) : Real.log n ≤ (k : ℝ) - 1 / 2 ^ 48 := by
  have hpos : (0 : ℝ) < n := by exact_mod_cast h0
  have h2 := exp_gap h1 hk ((Real.log_lt_iff_lt_exp hpos).mp hn)
  have h3 : (0 : ℝ) < 1 - 1 / 2 ^ 48 := by norm_num
  have h4 := Real.log_le_log hpos h2
  rw [Real.log_mul (Real.exp_pos _).ne' h3.ne', Real.log_exp] at h4
  have h5 := Real.log_le_sub_one_of_pos h3
  linarith

theorem log_small {n : Nat} (h0 : 0 < n) (h : n < 2 ^ 46) : Real.log n < 32 := by
  have hpos : (0 : ℝ) < n := by exact_mod_cast h0
  rw [Real.log_lt_iff_lt_exp hpos]
  have hu : (0 : ℝ) < (eUnit : ℝ) ^ 32 := pow_pos (by unfold eUnit; norm_num) 32
  have h1 := (exp_bounds 32).1
  have h2 : (2 : ℝ) ^ 46 * eUnit ^ 32 ≤ (eLow : ℝ) ^ 32 := by
    have : 2 ^ 46 * eUnit ^ 32 ≤ eLow ^ 32 := by decide +kernel
    exact_mod_cast this
  have h3 : (n : ℝ) < 2 ^ 46 := by exact_mod_cast h
  have h4 : (2 : ℝ) ^ 46 ≤ Real.exp (32 : Nat) := le_of_mul_le_mul_right (h2.trans h1) hu
  push_cast at h4
  linarith

/-- **C144**: with fewer than `2 ^ 46` nodes, the default size is the integer part of the logarithm, though the logarithm is rounded. -/
theorem default_size_float (hfl : IsRounding fl) (hln : IsLog ln) {n : Nat} (h0 : 0 < n) (h : n < 2 ^ 46) :
    SparsificationFloat.defaultSize fl ln n = ⌊Real.log n⌋.toNat := by
  unfold SparsificationFloat.defaultSize
  congr 1
  rw [hfl.nat (by omega)]
  have hd : IsDouble (n : ℝ) := isDouble_nat (by omega)
  have hpos : (0 : ℝ) < (n : ℝ) := by exact_mod_cast h0
  have hnn : 0 ≤ Real.log n := Real.log_natCast_nonneg n
  obtain ⟨k, hk⟩ := Int.eq_ofNat_of_zero_le (Int.floor_nonneg.mpr hnn)
  have hle : (k : ℝ) ≤ Real.log n := by
    have := Int.floor_le (Real.log n)
    rw [hk] at this
    exact_mod_cast this
  have hlt : Real.log n < ((k + 1 : Nat) : ℝ) := by
    have := Int.lt_floor_add_one (Real.log n)
    rw [hk] at this
    push_cast at this ⊢
    exact this
  have hk32 : k + 1 ≤ 32 := by
    have h1 := log_small h0 h
    have : (k : ℝ) < 32 := by linarith
    have : k < 32 := by exact_mod_cast this
    omega
  rw [hk, Int.floor_eq_iff]
  constructor
  · push_cast
    exact hln.above _ _ hd hpos (isDouble_nat (by omega)) hle
  · have h1 := log_gap h0 (by omega) hk32 hlt
    have hd' : IsDouble (((k + 1 : Nat) : ℝ) - 1 / 2 ^ 48) := by
      have h := isDouble_of_le (m := ((k : ℤ) + 1) * 2 ^ 48 - 1) (e := -48) (by rw [abs_le]; constructor <;> omega) (by norm_num)
      have : ((((k : ℤ) + 1) * 2 ^ 48 - 1 : ℤ) : ℝ) * (2 : ℝ) ^ (-48 : ℤ) = ((k + 1 : Nat) : ℝ) - 1 / 2 ^ 48 := by
        push_cast
        rw [zpow_neg]
        norm_num
        ring
      rwa [this] at h
    have h2 := hln.below _ _ hd hpos hd' h1
    push_cast at h2 ⊢
    have : (0 : ℝ) < 1 / 2 ^ 48 := by norm_num
    linarith

/-- **C144**: so `floatsam_sparsification` without a size is what it is with exact logarithms. -/
theorem floatsam_default_float {α : Type} [DecidableEq α] (hfl : IsRounding fl) (hln : IsLog ln) (fuel : Nat) {g : GraphUtils.Graph α ℝ} (hg : g.length < 2 ^ 46)
    (t lr : ℝ) (m : Option Nat) (remove : Bool) :
    SparsificationFloat.floatsam fl (SparsificationFloat.defaultSize fl ln) fuel g t lr m remove =
      SparsificationFloat.floatsam fl (fun n => ⌊Real.log n⌋.toNat) fuel g t lr m remove := by
  unfold SparsificationFloat.floatsam
  cases g with
  | nil => rfl
  | cons p g => rw [default_size_float hfl hln (by simp) hg]

/-- **C144**: it may be off by one on larger graphs, even if the logarithm is the nearest double: with 214643579785916 nodes it is 33, and the
logarithm is less than 33. -/
theorem default_size_float_off (hfl : IsRounding fl) :
    SparsificationFloat.defaultSize fl (fun x => fl (Real.log x)) 214643579785916 = 33 ∧ ⌊Real.log (214643579785916 : Nat)⌋.toNat = 32 := by
  have hu : ∀ k, (0 : ℝ) < (eUnit : ℝ) ^ k := fun k => pow_pos (by unfold eUnit; norm_num) k
  have hpos : (0 : ℝ) < ((214643579785916 : Nat) : ℝ) := by norm_num
  have hlt : Real.log ((214643579785916 : Nat) : ℝ) < 33 := by
    rw [Real.log_lt_iff_lt_exp hpos]
    have h1 := (exp_bounds 33).1
    have h2 : ((214643579785916 : Nat) : ℝ) * eUnit ^ 33 < (eLow : ℝ) ^ 33 := by
      have : 214643579785916 * eUnit ^ 33 < eLow ^ 33 := by decide +kernel
      exact_mod_cast this
    have := lt_of_mul_lt_mul_right (h2.trans_le h1) (hu 33).le
    push_cast at this ⊢
    exact this
  have hge : 33 - 1 / 2 ^ 49 ≤ Real.log ((214643579785916 : Nat) : ℝ) := by
    rw [Real.le_log_iff_exp_le hpos, Real.exp_sub, div_le_iff₀ (Real.exp_pos _)]
    have h1 := (exp_bounds 33).2
    have h2 : (eHigh : ℝ) ^ 33 * 2 ^ 49 ≤ ((214643579785916 : Nat) : ℝ) * eUnit ^ 33 * (2 ^ 49 + 1) := by
      have : eHigh ^ 33 * 2 ^ 49 ≤ 214643579785916 * eUnit ^ 33 * (2 ^ 49 + 1) := by decide +kernel
      exact_mod_cast this
    have h3 : Real.exp (33 : Nat) ≤ ((214643579785916 : Nat) : ℝ) * (1 / 2 ^ 49 + 1) := by
      refine le_of_mul_le_mul_right ?_ (hu 33)
      have : ((214643579785916 : Nat) : ℝ) * (1 / 2 ^ 49 + 1) * eUnit ^ 33 =
          ((214643579785916 : Nat) : ℝ) * eUnit ^ 33 * (2 ^ 49 + 1) / 2 ^ 49 := by ring
      rw [this, le_div_iff₀ (by norm_num)]
      have := mul_le_mul_of_nonneg_right h1 (show (0 : ℝ) ≤ 2 ^ 49 by norm_num)
      linarith
    have h4 := Real.add_one_le_exp (1 / 2 ^ 49)
    have h5 := mul_le_mul_of_nonneg_left h4 hpos.le
    push_cast at h3 ⊢
    push_cast at h5
    linarith
  constructor
  · unfold SparsificationFloat.defaultSize
    rw [hfl.nat (n := 214643579785916) (by norm_num)]
    change ⌊fl (Real.log ((214643579785916 : Nat) : ℝ))⌋.toNat = 33
    generalize Real.log ((214643579785916 : Nat) : ℝ) = x at hlt hge ⊢
    have := hfl.eq_of_near (x := x) (n := 33 * 2 ^ 47) (k := -47) (by norm_num) (by norm_num at hge ⊢; linarith) (by norm_num) (by
      norm_num at hge ⊢
      rw [abs_lt]
      constructor <;> linarith)
    rw [this]
    norm_num
    rfl
  · have : ⌊Real.log ((214643579785916 : Nat) : ℝ)⌋ = 32 := by
      rw [Int.floor_eq_iff]
      norm_num at hge hlt ⊢
      constructor <;> linarith
    rw [this]
    rfl

/-! ## `ngram_keys` -/

open Ngrams KeyMisc

variable {α : Type _}

/-- The product of a number and of a fraction is computed with an error less than the inverse of the denominator. -/
theorem fraction_product (hfl : IsRounding fl) {a b k : Nat} (hb : 0 < b) (hab : a ≤ b) (hkb : k * b < 2 ^ 50) :
    |fl (fl (k : ℝ) * fl ((a : ℝ) / b)) - (k : ℝ) * a / b| < 1 / b := by
  have hbR : (0 : ℝ) < b := by exact_mod_cast hb
  have hk : k < 2 ^ 50 := lt_of_le_of_lt (Nat.le_mul_of_pos_right k hb) hkb
  rw [hfl.nat (by omega)]
  rcases Nat.eq_zero_or_pos a with rfl | ha
  · simp only [Nat.cast_zero, zero_div, mul_zero, hfl.zero, sub_zero, abs_zero]
    positivity
  rcases Nat.eq_zero_or_pos k with rfl | hk0
  · simp only [Nat.cast_zero, zero_div, zero_mul, hfl.zero, sub_zero, abs_zero]
    positivity
  have haR : (1 : ℝ) ≤ a := by exact_mod_cast ha
  have hkR : (1 : ℝ) ≤ k := by exact_mod_cast hk0
  have hle : (a : ℝ) / b ≤ 1 := by rw [div_le_one hbR]; exact_mod_cast hab
  have hb50 : (b : ℝ) < 2 ^ 50 := by
    have : b < 2 ^ 50 := lt_of_le_of_lt (Nat.le_mul_of_pos_left b hk0) hkb
    exact_mod_cast this
  have hlow : (1 : ℝ) / 2 ^ 50 ≤ (a : ℝ) / b := by
    rw [div_le_div_iff₀ (by norm_num) hbR]
    nlinarith
  have htiny : (2 : ℝ) ^ (-1022 : ℤ) ≤ 1 / 2 ^ 51 := by
    rw [show (1 : ℝ) / 2 ^ 51 = (2 : ℝ) ^ (-51 : ℤ) by norm_num]
    exact zpow_le_zpow_right₀ (by norm_num) (by norm_num)
  have h1 := abs_le.mp (hfl.relative (x := (a : ℝ) / b) (by
    have : (1 : ℝ) / 2 ^ 51 ≤ 1 / 2 ^ 50 := by norm_num
    linarith))
  generalize hx : (a : ℝ) / b = x at *
  generalize fl x = y at *
  have hx1 : x / 2 ^ 53 ≤ 1 / 2 ^ 53 := by
    apply div_le_div_of_nonneg_right hle (by norm_num)
  have hxp : 0 < x := lt_of_lt_of_le (by norm_num) hlow
  have hyl : (1 : ℝ) / 2 ^ 51 ≤ y := by
    have : x / 2 ^ 53 ≤ x / 2 := div_le_div_of_nonneg_left hxp.le (by norm_num) (by norm_num)
    have h6 : (1 : ℝ) / 2 ^ 51 = 1 / 2 ^ 50 / 2 := by norm_num
    linarith [h1.1]
  have hyu : y ≤ 2 := by linarith [h1.2, show (1 : ℝ) / 2 ^ 53 ≤ 1 by norm_num]
  have hkb' : (k : ℝ) * b < 2 ^ 50 := by exact_mod_cast hkb
  have hyk : (1 : ℝ) / 2 ^ 51 ≤ k * y := by nlinarith
  have h2 := abs_le.mp (hfl.relative (x := (k : ℝ) * y) (by linarith))
  have h3 : (k : ℝ) * y / 2 ^ 53 ≤ k / 2 ^ 52 := by
    rw [div_le_div_iff₀ (by norm_num) (by norm_num)]
    nlinarith
  have h4 : |(k : ℝ) * y - k * x| ≤ k / 2 ^ 53 := by
    rw [← mul_sub, abs_mul, abs_of_nonneg (by linarith : (0 : ℝ) ≤ k)]
    have : |y - x| ≤ 1 / 2 ^ 53 := abs_le.mpr ⟨by linarith [h1.1], by linarith [h1.2]⟩
    calc (k : ℝ) * |y - x| ≤ k * (1 / 2 ^ 53) := mul_le_mul_of_nonneg_left this (by linarith)
      _ = k / 2 ^ 53 := by ring
  have h4' := abs_le.mp h4
  have h5 : (k : ℝ) / 2 ^ 50 < 1 / b := by
    rw [div_lt_div_iff₀ (by norm_num) hbR]
    linarith
  have h6 : (k : ℝ) / 2 ^ 52 + k / 2 ^ 53 ≤ k / 2 ^ 50 := by
    have : (k : ℝ) / 2 ^ 52 + k / 2 ^ 53 = k / 2 ^ 50 * (3 / 8) := by ring
    rw [this]
    have : (0 : ℝ) ≤ k / 2 ^ 50 := by positivity
    linarith
  rw [show (k : ℝ) * a / b = k * x by rw [← hx]; ring, abs_lt]
  constructor <;> linarith [h2.1, h2.2, h4'.1, h4'.2]

/-- Its integer part is the quotient, or one less, and only when the division is exact. -/
theorem fraction_floor (hfl : IsRounding fl) {a b k : Nat} (hb : 0 < b) (hab : a ≤ b) (hkb : k * b < 2 ^ 50) :
    (¬ b ∣ k * a → ⌊fl (fl (k : ℝ) * fl ((a : ℝ) / b))⌋ = ((k * a / b : Nat) : ℤ)) ∧
    ((k * a / b : Nat) : ℤ) - 1 ≤ ⌊fl (fl (k : ℝ) * fl ((a : ℝ) / b))⌋ ∧
    ⌊fl (fl (k : ℝ) * fl ((a : ℝ) / b))⌋ ≤ ((k * a / b : Nat) : ℤ) := by
  have hbR : (0 : ℝ) < b := by exact_mod_cast hb
  have h := abs_lt.mp (fraction_product hfl hb hab hkb)
  generalize fl (fl (k : ℝ) * fl ((a : ℝ) / b)) = y at h
  have hdm := Nat.div_add_mod (k * a) b
  have hm := Nat.mod_lt (k * a) hb
  generalize k * a / b = q at *
  generalize hr : k * a % b = r at *
  have hv : (k : ℝ) * a / b = q + r / b := by
    rw [div_eq_iff hbR.ne', add_mul, div_mul_cancel₀ _ hbR.ne']
    have : ((b * q + r : Nat) : ℝ) = ((k * a : Nat) : ℝ) := by rw [hdm]
    push_cast at this
    linarith
  rw [hv] at h
  have hr1 : (r : ℝ) / b ≤ 1 - 1 / b := by
    rw [show (1 : ℝ) - 1 / b = (b - 1) / b by field_simp]
    apply div_le_div_of_nonneg_right _ hbR.le
    have : (r : ℝ) + 1 ≤ b := by exact_mod_cast hm
    linarith
  have hr0 : (0 : ℝ) ≤ (r : ℝ) / b := by positivity
  have hb1 : (1 : ℝ) / b ≤ 1 := by
    rw [div_le_one hbR]
    exact_mod_cast hb
  have hup : ⌊y⌋ ≤ (q : ℤ) := by
    rw [← Int.lt_add_one_iff, Int.floor_lt]
    push_cast
    linarith [h.2]
  refine ⟨fun hd => ?_, ?_, hup⟩
  · refine le_antisymm hup ?_
    rw [Int.le_floor]
    have hr' : 1 ≤ r := by
      by_contra hc
      exact hd (Nat.dvd_of_mod_eq_zero (by omega))
    have : (1 : ℝ) / b ≤ r / b := div_le_div_of_nonneg_right (by exact_mod_cast hr') hbR.le
    push_cast
    linarith [h.1]
  · rw [Int.le_floor]
    push_cast
    linarith [h.1]

theorem rat_floor_fraction (k a b : Nat) : ((k : Rat) * ((a : Rat) / b)).floor = ((k * a / b : Nat) : ℤ) := by
  have : (k : Rat) * ((a : Rat) / b) = ((k * a : Nat) : Rat) / (b : Nat) := by push_cast; ring
  rw [this]
  exact Rat.floor_natCast_div_natCast (k * a) b

/-- The two are the same when no grams are missing, or when as many are asked for. -/
theorem ngramKeys_congr (n : Nat) (s : List α) {threshold : Rat} {t : ℝ}
    (h : n ≤ s.length → KeyMiscFloat.leastSize fl ((s.length : Int) - (n - 1)) t = max 1 ((((s.length : Int) - (n - 1) : Int) : Rat) * threshold).floor) :
    KeyMiscFloat.ngramKeys fl n s t = ngramKeys n s threshold := by
  unfold KeyMiscFloat.ngramKeys ngramKeys
  simp only
  by_cases hn : n ≤ s.length
  · rw [h hn]
  · have h0 : ∀ x : Int, ((s.length : Int) - (n - 1) - max 1 x).toNat = 0 := by intro x; omega
    unfold KeyMiscFloat.leastSize
    rw [h0, h0]

/-- **C144**: with the threshold `a / b`, as a double, the keys of `ngram_keys` are those of exact numbers when `b` does not divide
`k * a`, `k` being the number of grams; otherwise they may be more: the selections of one gram less. -/
theorem ngram_keys_float (hfl : IsRounding fl) (n : Nat) (s : List α) {a b : Nat} (hb : 0 < b) (hab : a ≤ b)
    (hs : (s.length + 1) * b < 2 ^ 50) :
    (¬ b ∣ (s.length + 1 - n) * a → KeyMiscFloat.ngramKeys fl n s (fl ((a : ℝ) / b)) = ngramKeys n s ((a : Rat) / b)) ∧
    (∀ key ∈ ngramKeys n s ((a : Rat) / b), key ∈ KeyMiscFloat.ngramKeys fl n s (fl ((a : ℝ) / b))) ∧
    ∀ key ∈ KeyMiscFloat.ngramKeys fl n s (fl ((a : ℝ) / b)), key = (ngrams n s).flatten ∨
      ∃ sel : List (List α), sel.Sublist (ngrams n s) ∧
        max 1 ((((ngrams n s).length : Rat) * ((a : Rat) / b)).floor - 1) ≤ (sel.length : Int) ∧ key = sel.flatten := by
  have hkb : (s.length + 1 - n) * b < 2 ^ 50 := lt_of_le_of_lt (Nat.mul_le_mul_right b (Nat.sub_le _ _)) hs
  obtain ⟨f1, f2, f3⟩ := fraction_floor hfl hb hab hkb
  by_cases hn : n ≤ s.length
  · have hk : ((s.length : Int) - (n - 1)) = ((s.length + 1 - n : Nat) : Int) := by omega
    obtain ⟨hlen, _⟩ := ngrams_windows n s hn
    have hlen' : (ngrams n s).length = s.length + 1 - n := by rw [hlen]; omega
    refine ⟨fun hd => ngramKeys_congr n s fun _ => ?_, ?_, ?_⟩
    · rw [hk]
      unfold KeyMiscFloat.leastSize
      rw [Int.cast_natCast, Int.cast_natCast, rat_floor_fraction, f1 hd]
    · intro key hkey
      rw [ngram_keys_exact, hlen', rat_floor_fraction] at hkey
      unfold KeyMiscFloat.ngramKeys KeyMiscFloat.leastSize
      simp only [List.mem_cons, List.mem_map]
      rcases hkey with h | ⟨sel, h1, h2, rfl⟩
      · exact Or.inl h
      · have hle := h1.length_le
        by_cases he : sel.length = (ngrams n s).length
        · rw [h1.eq_of_length he]; exact Or.inl rfl
        · refine Or.inr ⟨sel, ?_, rfl⟩
          rw [hk, Int.cast_natCast, mem_combinationsDown _ _ _ (by omega)]
          exact ⟨h1, by omega, by omega⟩
    · intro key hkey
      rw [hlen', rat_floor_fraction]
      unfold KeyMiscFloat.ngramKeys KeyMiscFloat.leastSize at hkey
      simp only [List.mem_cons, List.mem_map] at hkey
      rw [hk, Int.cast_natCast] at hkey
      rcases hkey with h | ⟨sel, h1, rfl⟩
      · exact Or.inl h
      · rw [mem_combinationsDown _ _ _ (by omega)] at h1
        exact Or.inr ⟨sel, h1.1, by omega, rfl⟩
  · have he := ngramKeys_congr (fl := fl) n s (threshold := (a : Rat) / b) (t := fl ((a : ℝ) / b)) fun h => absurd h hn
    refine ⟨fun _ => he, fun key h => he ▸ h, fun key h => ?_⟩
    rw [he, ngram_keys_exact] at h
    rcases h with h | ⟨sel, h1, h2, h3⟩
    · exact Or.inl h
    · exact Or.inr ⟨sel, h1, by omega, h3⟩

/-- **C144**: with the default threshold, 0.8, the keys are those of exact numbers. -/
theorem ngram_keys_default_float (hfl : IsRounding fl) (n : Nat) {s : List α} (hs : s.length < 2 ^ 47) :
    KeyMiscFloat.ngramKeys fl n s (fl (4 / 5)) = ngramKeys n s (4 / 5) := by
  refine ngramKeys_congr n s fun hn => ?_
  have hk : ((s.length : Int) - (n - 1)) = ((s.length + 1 - n : Nat) : Int) := by omega
  rw [hk]
  have hk47 : s.length + 1 - n ≤ 2 ^ 47 := by omega
  generalize s.length + 1 - n = k at *
  unfold KeyMiscFloat.leastSize
  rw [Int.cast_natCast, Int.cast_natCast]
  have h45 : (4 / 5 : Rat) = ((4 : Nat) : Rat) / (5 : Nat) := by norm_num
  have h45' : (4 / 5 : ℝ) = ((4 : Nat) : ℝ) / (5 : Nat) := by norm_num
  rw [h45, rat_floor_fraction]
  congr 1
  obtain ⟨f1, _, f3⟩ := fraction_floor hfl (a := 4) (b := 5) (k := k) (by norm_num) (by norm_num) (by omega)
  rw [h45']
  by_cases hd : 5 ∣ k * 4
  · refine le_antisymm f3 ?_
    obtain ⟨j, rfl⟩ : 5 ∣ k := by omega
    have hj : 5 * j * 4 / 5 = 4 * j := by omega
    rw [hj, Int.le_floor, hfl.nat (by omega)]
    have h1 : fl (((4 : Nat) : ℝ) / (5 : Nat)) = 3602879701896397 / 2 ^ 52 := by
      rw [← h45']
      have := hfl.eq_of_near (x := 4 / 5) (n := 7205759403792794) (k := -53) (by norm_num) (by norm_num) (by norm_num) (by
        rw [abs_lt]; constructor <;> norm_num)
      rw [this]; norm_num
    rw [h1]
    have h2 : ((4 * j : Nat) : ℝ) ≤ ((5 * j : Nat) : ℝ) * (3602879701896397 / 2 ^ 52) := by
      push_cast
      have : (0 : ℝ) ≤ j := Nat.cast_nonneg j
      nlinarith
    have h3 := hfl.mono h2
    rw [hfl.nat (n := 4 * j) (by omega)] at h3
    exact_mod_cast h3
  · exact f1 hd

/-- **C144**: other thresholds may be off: with 0.29 and a hundred grams, selections of twenty-eight grams are keys, though a selection should have
twenty-nine of them. -/
theorem ngram_keys_float_off (hfl : IsRounding fl) :
    KeyMiscFloat.leastSize fl 100 (fl (29 / 100)) = 28 ∧ max 1 (((100 : Int) : Rat) * (29 / 100)).floor = 29 := by
  have h1 : fl (29 / 100) = 5224175567749775 / 2 ^ 54 := by
    have := hfl.eq_of_near (x := 29 / 100) (n := 5224175567749775) (k := -54) (by norm_num) (by norm_num) (by norm_num) (by
      rw [abs_lt]; constructor <;> norm_num)
    rw [this]; norm_num
  have h2 : fl (100 * (5224175567749775 / 2 ^ 54)) = 29 - 1 / 2 ^ 48 := by
    have := hfl.eq_of_near (x := 100 * (5224175567749775 / 2 ^ 54)) (n := 29 * 2 ^ 48 - 1) (k := -48) (by norm_num) (by norm_num) (by norm_num) (by
      rw [abs_lt]; constructor <;> norm_num)
    rw [this]; norm_num
  constructor
  · unfold KeyMiscFloat.leastSize
    have h3 : fl ((100 : Int) : ℝ) = 100 := by
      have := hfl.nat (n := 100) (by norm_num)
      push_cast at this ⊢
      exact this
    rw [h1, h3, h2]
    have : ⌊(29 : ℝ) - 1 / 2 ^ 48⌋ = 28 := by rw [Int.floor_eq_iff]; constructor <;> norm_num
    rw [this]
    rfl
  · decide +kernel

-- A natural logarithm which is the nearest double is such a logarithm; a graph of a thousand nodes has a default size of six.
example : ∃ fl ln, IsRounding fl ∧ IsLog ln ∧ SparsificationFloat.defaultSize fl ln 1000 = ⌊Real.log (1000 : Nat)⌋.toNat := by
  obtain ⟨fl, hfl⟩ := exists_rounding
  have hln : IsLog fun x => fl (Real.log x) :=
    ⟨fun x _ _ => hfl.double _, fun x z _ _ hz h => by have := hfl.mono h; rwa [hfl.of_double hz] at this,
      fun x z _ _ hz h => by have := hfl.mono h; rwa [hfl.of_double hz] at this⟩
  exact ⟨fl, _, hfl, hln, default_size_float hfl hln (by norm_num) (by norm_num)⟩

-- Five bigrams, of which at least four are kept.
example : ∃ fl, IsRounding fl ∧ "abcdef".toList.length < 2 ^ 47 ∧
    "abbccdde".toList ∈ KeyMiscFloat.ngramKeys fl 2 "abcdef".toList (fl (4 / 5)) := by
  obtain ⟨fl, hfl⟩ := exists_rounding
  refine ⟨fl, hfl, by decide, ?_⟩
  rw [ngram_keys_default_float hfl _ (by decide)]
  decide +kernel

end Fog.Props
