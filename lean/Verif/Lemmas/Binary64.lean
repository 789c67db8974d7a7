import Verif.Spec.Binary64
import Mathlib.Algebra.Order.Round
import Mathlib.Algebra.Order.Archimedean.Real.Basic
import Mathlib.Analysis.Real.Sqrt
import Mathlib.Data.Int.Log
import Mathlib.Tactic.Linarith
import Mathlib.Tactic.Positivity
import Mathlib.Tactic.NormNum
import Mathlib.Tactic.Ring
import Mathlib.Tactic.FieldSimp

/-!
# Facts about rounding to double precision
-/

namespace Fog.Spec

theorem two_zpow_pos (k : ℤ) : (0 : ℝ) < (2 : ℝ) ^ k := zpow_pos (by norm_num) k

theorem isDouble_of_le {m e : ℤ} (hm : |m| ≤ 2 ^ 53) (he : -1074 ≤ e) : IsDouble ((m : ℝ) * (2 : ℝ) ^ e) := by
  rcases lt_or_eq_of_le hm with h | h
  · exact ⟨m, e, h, he, rfl⟩
  · rcases abs_eq (by positivity : (0 : ℤ) ≤ 2 ^ 53) |>.mp h with rfl | rfl
    · refine ⟨1, e + 53, by norm_num, by omega, ?_⟩
      rw [zpow_add₀ two_ne_zero]
      push_cast
      rw [one_mul, mul_comm]
      norm_cast
    · refine ⟨-1, e + 53, by norm_num, by omega, ?_⟩
      rw [zpow_add₀ two_ne_zero]
      push_cast
      rw [neg_mul, neg_mul, one_mul, mul_comm]
      norm_cast

theorem isDouble_int {n : ℤ} (h : |n| ≤ 2 ^ 53) : IsDouble n := by
  simpa using isDouble_of_le h (show (-1074 : ℤ) ≤ 0 by norm_num)

theorem isDouble_nat {n : Nat} (h : n ≤ 2 ^ 53) : IsDouble n := by
  have := isDouble_int (n := n) (by rw [Nat.abs_cast]; exact_mod_cast h)
  simpa using this

theorem isDouble_zpow {e : ℤ} (h : -1074 ≤ e) : IsDouble ((2 : ℝ) ^ e) := by
  simpa using isDouble_of_le (m := 1) (by norm_num) h

theorem IsDouble.neg {x : ℝ} (h : IsDouble x) : IsDouble (-x) := by
  obtain ⟨m, e, h1, h2, rfl⟩ := h
  exact ⟨-m, e, by rwa [abs_neg], h2, by push_cast; ring⟩

/-- A double which is at least `2 ^ k` is a multiple of `2 ^ (k - 52)`. -/
theorem IsDouble.multiple {x : ℝ} (h : IsDouble x) {k : ℤ} (hk : (2 : ℝ) ^ k ≤ x) : ∃ n : ℤ, x = n * (2 : ℝ) ^ (k - 52) := by
  obtain ⟨m, e, h1, h2, rfl⟩ := h
  have hlt : (2 : ℝ) ^ k < (2 : ℝ) ^ (e + 53) := by
    refine lt_of_le_of_lt hk ?_
    rw [zpow_add₀ two_ne_zero, mul_comm]
    have h3 : (m : ℝ) < 2 ^ 53 := by
      have : m < 2 ^ 53 := lt_of_le_of_lt (le_abs_self m) h1
      exact_mod_cast this
    have h4 : (0 : ℝ) < (2 : ℝ) ^ e := two_zpow_pos e
    have : ((2 : ℝ) ^ (53 : ℤ)) = 2 ^ 53 := by norm_cast
    rw [this]
    exact mul_lt_mul_of_pos_left h3 h4
  have hle : k - 52 ≤ e := by
    have := (zpow_lt_zpow_iff_right₀ (by norm_num : (1 : ℝ) < 2)).mp hlt
    omega
  refine ⟨m * 2 ^ (e - (k - 52)).toNat, ?_⟩
  push_cast
  rw [mul_assoc, ← zpow_natCast, Int.toNat_of_nonneg (by omega), ← zpow_add₀ two_ne_zero]
  congr 2
  ring

namespace IsRounding

variable {fl : ℝ → ℝ} (hfl : IsRounding fl)
include hfl

theorem of_double {x : ℝ} (h : IsDouble x) : fl x = x := by
  have := hfl.nearest x x h
  rw [sub_self, abs_zero] at this
  exact sub_eq_zero.mp (abs_eq_zero.mp (le_antisymm this (abs_nonneg _)))

theorem mono {x y : ℝ} (h : x ≤ y) : fl x ≤ fl y := by
  by_contra hc
  rw [not_le] at hc
  have h1 := hfl.nearest x (fl y) (hfl.double y)
  have h2 := hfl.nearest y (fl x) (hfl.double x)
  rcases eq_or_lt_of_le h with rfl | hlt
  · exact lt_irrefl _ hc
  · rw [abs_le_abs_iff_sq_le] at h1 h2
    nlinarith
where
  abs_le_abs_iff_sq_le {a b : ℝ} : |a| ≤ |b| ↔ a ^ 2 ≤ b ^ 2 := sq_le_sq.symm

theorem zero : fl 0 = 0 := by simpa using hfl.of_double (isDouble_nat (n := 0) (by norm_num))

theorem one : fl 1 = 1 := by simpa using hfl.of_double (isDouble_nat (n := 1) (by norm_num))

theorem nat {n : Nat} (h : n ≤ 2 ^ 53) : fl n = n := hfl.of_double (isDouble_nat h)

theorem int {n : ℤ} (h : |n| ≤ 2 ^ 53) : fl n = n := hfl.of_double (isDouble_int h)

theorem nonneg {x : ℝ} (h : 0 ≤ x) : 0 ≤ fl x := by simpa [hfl.zero] using hfl.mono h

theorem le_one {x : ℝ} (h : x ≤ 1) : fl x ≤ 1 := by simpa [hfl.one] using hfl.mono h

/-- Half a unit in the last place. -/
theorem abs_error {x : ℝ} {k : ℤ} (hk : -1021 ≤ k) (hx : |x| ≤ (2 : ℝ) ^ k) : |fl x - x| ≤ (2 : ℝ) ^ (k - 54) := by
  have hg : (0 : ℝ) < (2 : ℝ) ^ (k - 53) := two_zpow_pos _
  have hpow : (2 : ℝ) ^ k = (2 : ℝ) ^ 53 * (2 : ℝ) ^ (k - 53) := by
    rw [show (2 : ℝ) ^ 53 = (2 : ℝ) ^ (53 : ℤ) by norm_cast, ← zpow_add₀ two_ne_zero]
    congr 1
    ring
  have hup : |x / (2 : ℝ) ^ (k - 53)| ≤ (2 : ℝ) ^ 53 := by
    rw [abs_div, abs_of_pos hg, div_le_iff₀ hg, ← hpow]
    exact hx
  have hm : |round (x / (2 : ℝ) ^ (k - 53))| ≤ 2 ^ 53 := by
    obtain ⟨h1, h2⟩ := abs_le.mp hup
    rw [abs_le, round_eq]
    constructor
    · rw [Int.le_floor]
      push_cast at h1 ⊢
      linarith
    · have : ⌊x / (2 : ℝ) ^ (k - 53) + 1 / 2⌋ < 2 ^ 53 + 1 := by
        rw [Int.floor_lt]
        push_cast at h2 ⊢
        linarith
      omega
  have h := hfl.nearest x _ (isDouble_of_le hm (show (-1074 : ℤ) ≤ k - 53 by omega))
  refine h.trans ?_
  have h3 := abs_sub_round (x / (2 : ℝ) ^ (k - 53))
  have h4 : (round (x / (2 : ℝ) ^ (k - 53)) : ℝ) * (2 : ℝ) ^ (k - 53) - x =
      -(x / (2 : ℝ) ^ (k - 53) - round (x / (2 : ℝ) ^ (k - 53))) * (2 : ℝ) ^ (k - 53) := by
    field_simp
    ring
  rw [h4, abs_mul, abs_neg, abs_of_pos hg]
  calc _ ≤ 1 / 2 * (2 : ℝ) ^ (k - 53) := mul_le_mul_of_nonneg_right h3 hg.le
    _ = (2 : ℝ) ^ (k - 54) := by
      rw [show k - 53 = (k - 54) + 1 by ring, zpow_add₀ two_ne_zero]
      ring

theorem error {x : ℝ} {k : ℤ} (hk : -1022 ≤ k) (h0 : 0 ≤ x) (h2 : x ≤ (2 : ℝ) ^ (k + 1)) :
    |fl x - x| ≤ (2 : ℝ) ^ (k - 53) := by
  have := hfl.abs_error (k := k + 1) (by omega) (by rwa [abs_of_nonneg h0])
  rwa [show k + 1 - 54 = k - 53 by ring] at this

/-- The relative error, for numbers which are not too small. -/
theorem relative {x : ℝ} (h : (2 : ℝ) ^ (-1022 : ℤ) ≤ x) : |fl x - x| ≤ x / 2 ^ 53 := by
  have hx : 0 < x := lt_of_lt_of_le (two_zpow_pos _) h
  have h1 := Int.zpow_log_le_self (b := 2) (r := x) (by norm_num) hx
  have h2 := Int.lt_zpow_succ_log_self (b := 2) (by norm_num) x
  have hk : -1022 ≤ Int.log 2 x := by
    have := lt_of_le_of_lt h h2
    push_cast at this
    have := (zpow_lt_zpow_iff_right₀ (by norm_num : (1 : ℝ) < 2)).mp this
    omega
  push_cast at h1 h2
  refine (hfl.error hk hx.le h2.le).trans ?_
  rw [zpow_sub₀ two_ne_zero]
  have : ((2 : ℝ) ^ (53 : ℤ)) = 2 ^ 53 := by norm_cast
  rw [this]
  exact div_le_div_of_nonneg_right h1 (by positivity)

/-- What rounding gives, when it is known to less than half a unit. -/
theorem eq_of_near {x : ℝ} {n k : ℤ} (hk : -1074 ≤ k) (h1 : (2 : ℝ) ^ (52 + k) ≤ x) (hn : |n| ≤ 2 ^ 53)
    (h : |x - n * (2 : ℝ) ^ k| < (2 : ℝ) ^ k / 2) : fl x = n * (2 : ℝ) ^ k := by
  have hd := isDouble_of_le hn hk
  have h2 := hfl.mono h1
  rw [hfl.of_double (isDouble_zpow (show (-1074 : ℤ) ≤ 52 + k by omega))] at h2
  obtain ⟨m, hm⟩ := (hfl.double x).multiple h2
  rw [show 52 + k - 52 = k by ring] at hm
  have h3 := hfl.nearest x _ hd
  rw [abs_sub_comm _ x] at h3
  have h4 : |fl x - n * (2 : ℝ) ^ k| < (2 : ℝ) ^ k := by
    calc _ = |(fl x - x) + (x - n * (2 : ℝ) ^ k)| := by ring_nf
      _ ≤ |fl x - x| + |x - n * (2 : ℝ) ^ k| := abs_add_le _ _
      _ < _ := by rw [abs_sub_comm _ x] at h3 ⊢; linarith
  rw [hm, ← sub_mul, abs_mul, abs_of_pos (two_zpow_pos k)] at h4
  have h5 : |(m : ℝ) - n| < 1 := by
    have := two_zpow_pos k
    by_contra hc
    rw [not_lt] at hc
    nlinarith
  have h6 : |m - n| < 1 := by exact_mod_cast h5
  rw [hm, sub_eq_zero.mp (Int.abs_lt_one_iff.mp h6)]

/-- A product by itself, then a square root, give back the number one starts from, if it is an integer. -/
theorem sqrt_sq {n : Nat} (h : n ≤ 2 ^ 53) : fl (Real.sqrt (fl ((n : ℝ) ^ 2))) = n := by
  rcases Nat.eq_zero_or_pos n with rfl | hn
  · simp [hfl.zero]
  obtain ⟨k, hk1, hk2⟩ : ∃ k, 2 ^ k ≤ n ∧ n < 2 ^ (k + 1) :=
    ⟨Nat.log 2 n, Nat.pow_log_le_self 2 (by omega), Nat.lt_pow_succ_log_self (by norm_num) n⟩
  have hk1' : (2 : ℝ) ^ (k : ℤ) ≤ n := by rw [zpow_natCast]; exact_mod_cast hk1
  have hk2' : (n : ℝ) ≤ (2 : ℝ) ^ ((k : ℤ) + 1) := by
    have : (n : ℝ) ≤ (2 : ℝ) ^ (k + 1) := by exact_mod_cast hk2.le
    exact_mod_cast this
  have hpos := two_zpow_pos k
  rcases Nat.eq_or_lt_of_le hk1 with heq | hlt
  · have h1 : ((n : ℝ)) ^ 2 = (2 : ℝ) ^ (2 * (k : ℤ)) := by
      rw [← heq, mul_comm, zpow_mul]
      norm_cast
    have h2 : IsDouble ((n : ℝ) ^ 2) := by
      rw [h1]
      exact isDouble_zpow (by omega)
    rw [hfl.of_double h2, Real.sqrt_sq (Nat.cast_nonneg n), hfl.nat h]
  · have hk : k ≤ 52 := by
      have := Nat.lt_of_lt_of_le hlt h
      have := (Nat.pow_lt_pow_iff_right (a := 2) (by norm_num)).mp this
      omega
    have hge : (2 : ℝ) ^ (k : ℤ) + 1 ≤ n := by
      rw [zpow_natCast]
      exact_mod_cast hlt
    have hh : (2 : ℝ) ^ (k : ℤ) = (2 : ℝ) ^ ((k : ℤ) - 53) * 2 ^ 53 := by
      rw [show (k : ℤ) = (k : ℤ) - 53 + 53 by ring, zpow_add₀ two_ne_zero, add_sub_cancel_right]
      norm_cast
    have hsmall : (2 : ℝ) ^ ((k : ℤ) - 53) ≤ 1 / 2 := by
      rw [show (1 : ℝ) / 2 = (2 : ℝ) ^ (-1 : ℤ) by norm_num]
      exact zpow_le_zpow_right₀ (by norm_num) (by omega)
    generalize hy : Real.sqrt (fl ((n : ℝ) ^ 2)) = y
    have hhpos := two_zpow_pos ((k : ℤ) - 53)
    have h52 : (2 : ℝ) ^ ((k : ℤ) - 52) = 2 * (2 : ℝ) ^ ((k : ℤ) - 53) := by
      rw [show (k : ℤ) - 52 = 1 + ((k : ℤ) - 53) by ring, zpow_add₀ two_ne_zero, zpow_one]
    have hsq : (2 : ℝ) ^ (2 * (k : ℤ)) = (2 : ℝ) ^ (k : ℤ) * (2 : ℝ) ^ (k : ℤ) := by
      rw [two_mul, zpow_add₀ two_ne_zero]
    have he1 : (2 : ℝ) ^ (2 * (k : ℤ) - 53) = (2 : ℝ) ^ (k : ℤ) * (2 : ℝ) ^ ((k : ℤ) - 53) := by
      rw [← zpow_add₀ two_ne_zero]
      congr 1
      ring
    have he2 : (2 : ℝ) ^ (2 * (k : ℤ) + 1 - 53) = 2 * ((2 : ℝ) ^ (k : ℤ) * (2 : ℝ) ^ ((k : ℤ) - 53)) := by
      rw [← he1, show 2 * (k : ℤ) + 1 - 53 = 1 + (2 * (k : ℤ) - 53) by ring, zpow_add₀ two_ne_zero, zpow_one]
    have htop : (n : ℝ) ^ 2 ≤ (2 : ℝ) ^ (2 * (k : ℤ) + 1 + 1) := by
      have h1 : (2 : ℝ) ^ (2 * (k : ℤ) + 1 + 1) = (2 : ℝ) ^ ((k : ℤ) + 1) * (2 : ℝ) ^ ((k : ℤ) + 1) := by
        rw [← zpow_add₀ two_ne_zero]
        congr 1
        ring
      rw [h1, pow_two]
      exact mul_le_mul hk2' hk2' (Nat.cast_nonneg n) (two_zpow_pos _).le
    have hbot : (2 : ℝ) ^ (2 * (k : ℤ)) ≤ (n : ℝ) ^ 2 := by
      rw [hsq, pow_two]
      exact mul_le_mul hk1' hk1' hpos.le (Nat.cast_nonneg n)
    have hlow : ((n : ℝ) - (2 : ℝ) ^ ((k : ℤ) - 53)) ^ 2 < fl ((n : ℝ) ^ 2) := by
      rcases le_total ((n : ℝ) ^ 2) ((2 : ℝ) ^ (2 * (k : ℤ) + 1)) with hc | hc
      · have := (abs_le.mp (hfl.error (by omega) (by positivity) hc)).1
        rw [he1] at this
        nlinarith
      · have := (abs_le.mp (hfl.error (by omega) (by positivity) htop)).1
        rw [he2] at this
        nlinarith
    have hhigh : fl ((n : ℝ) ^ 2) < ((n : ℝ) + (2 : ℝ) ^ ((k : ℤ) - 53)) ^ 2 := by
      rcases le_total ((n : ℝ) ^ 2) ((2 : ℝ) ^ (2 * (k : ℤ) + 1)) with hc | hc
      · have := (abs_le.mp (hfl.error (by omega) (by positivity) hc)).2
        rw [he1] at this
        nlinarith
      · have := (abs_le.mp (hfl.error (by omega) (by positivity) htop)).2
        rw [he2] at this
        nlinarith
    have hylow : (n : ℝ) - (2 : ℝ) ^ ((k : ℤ) - 53) < y := by
      rw [← hy]
      exact Real.lt_sqrt_of_sq_lt hlow
    have hyhigh : y < (n : ℝ) + (2 : ℝ) ^ ((k : ℤ) - 53) := by
      rw [← hy, Real.sqrt_lt' (by linarith)]
      exact hhigh
    have hmul : ∀ a b : ℝ, (2 : ℝ) ^ (k : ℤ) ≤ a → IsDouble a → (2 : ℝ) ^ (k : ℤ) ≤ b → IsDouble b → a < b →
        a ≤ b - 2 * (2 : ℝ) ^ ((k : ℤ) - 53) := by
      intro a b ha ha' hb hb' hab
      obtain ⟨i, rfl⟩ := ha'.multiple ha
      obtain ⟨j, rfl⟩ := hb'.multiple hb
      have hij : i < j := by
        have := lt_of_mul_lt_mul_right hab (two_zpow_pos _).le
        exact_mod_cast this
      have hij' : (i : ℝ) ≤ j - 1 := by exact_mod_cast Int.le_sub_one_of_lt hij
      rw [← h52]
      have := mul_le_mul_of_nonneg_right hij' (two_zpow_pos ((k : ℤ) - 52)).le
      linarith
    have hdn := isDouble_nat h
    have hnear := hfl.nearest y n hdn
    have hny : |(n : ℝ) - y| < (2 : ℝ) ^ ((k : ℤ) - 53) := by
      rw [abs_lt]
      constructor <;> linarith
    have hfy := abs_lt.mp (lt_of_le_of_lt hnear hny)
    rcases lt_trichotomy (fl y) n with hc | hc | hc
    · have hfar : fl y ≤ n - 2 * (2 : ℝ) ^ ((k : ℤ) - 53) := by
        rcases le_total ((2 : ℝ) ^ (k : ℤ)) (fl y) with h1 | h1
        · exact hmul _ _ h1 (hfl.double y) hk1' hdn hc
        · linarith
      linarith [hfy.1]
    · exact hc
    · have hfar := hmul _ _ hk1' hdn (hk1'.trans hc.le) (hfl.double y) hc
      linarith [hfy.2]

end IsRounding

/-- There is such a rounding. -/
theorem exists_rounding : ∃ fl, IsRounding fl := by
  have key : ∀ x : ℝ, ∃ y, IsDouble y ∧ ∀ z, IsDouble z → |y - x| ≤ |z - x| := by
    intro x
    have hfin : {y : ℝ | IsDouble y ∧ |y| ≤ 2 * |x|}.Finite := by
      refine Set.Finite.subset ((Set.finite_Icc (-⌈2 * |x| * (2 : ℝ) ^ (1074 : ℤ)⌉) ⌈2 * |x| * (2 : ℝ) ^ (1074 : ℤ)⌉).image
        fun j : ℤ => (j : ℝ) * (2 : ℝ) ^ (-1074 : ℤ)) ?_
      rintro y ⟨⟨m, e, h1, h2, rfl⟩, h3⟩
      refine ⟨m * 2 ^ (e + 1074).toNat, ?_, ?_⟩
      · have h4 : |((m * 2 ^ (e + 1074).toNat : ℤ) : ℝ)| ≤ 2 * |x| * (2 : ℝ) ^ (1074 : ℤ) := by
          have h5 : ((m * 2 ^ (e + 1074).toNat : ℤ) : ℝ) = (m : ℝ) * (2 : ℝ) ^ e * (2 : ℝ) ^ (1074 : ℤ) := by
            push_cast
            rw [mul_assoc, ← zpow_natCast, Int.toNat_of_nonneg (by omega), ← zpow_add₀ two_ne_zero]
          rw [h5, abs_mul, abs_of_pos (two_zpow_pos 1074)]
          exact mul_le_mul_of_nonneg_right h3 (two_zpow_pos 1074).le
        have h6 := abs_le.mp h4
        have h7 := Int.le_ceil (2 * |x| * (2 : ℝ) ^ (1074 : ℤ))
        constructor
        · have : -((⌈2 * |x| * (2 : ℝ) ^ (1074 : ℤ)⌉ : ℤ) : ℝ) ≤ ((m * 2 ^ (e + 1074).toNat : ℤ) : ℝ) := by linarith [h6.1]
          exact_mod_cast this
        · have : ((m * 2 ^ (e + 1074).toNat : ℤ) : ℝ) ≤ ((⌈2 * |x| * (2 : ℝ) ^ (1074 : ℤ)⌉ : ℤ) : ℝ) := by linarith [h6.2]
          exact_mod_cast this
      · show ((m * 2 ^ (e + 1074).toNat : ℤ) : ℝ) * (2 : ℝ) ^ (-1074 : ℤ) = _
        push_cast
        rw [mul_assoc, ← zpow_natCast, Int.toNat_of_nonneg (by omega), ← zpow_add₀ two_ne_zero]
        congr 2
        ring
    have h0 : IsDouble 0 := by simpa using isDouble_nat (n := 0) (by norm_num)
    obtain ⟨y, hy, hmin⟩ := Set.exists_min_image _ (fun y => |y - x|) hfin ⟨0, h0, by simp⟩
    refine ⟨y, hy.1, fun z hz => ?_⟩
    by_cases hzx : |z| ≤ 2 * |x|
    · exact hmin z ⟨hz, hzx⟩
    · have h1 := hmin 0 ⟨h0, by simp⟩
      have h2 := abs_sub_abs_le_abs_sub z x
      simp only [zero_sub, abs_neg] at h1
      linarith
  choose fl h1 h2 using key
  exact ⟨fl, h1, h2⟩

end Fog.Spec
