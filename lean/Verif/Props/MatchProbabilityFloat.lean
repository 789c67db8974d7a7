import Verif.Props.GuessBandsFloat
import Verif.Lemmas.Binary64Fractions

/-!
# C132: `match_probability` in double precision
-/

namespace Fog.Props

open Spec

variable {fl : ℝ → ℝ} {pw : ℝ → ℝ → ℝ}

/-- A power of a number from zero to one is computed up to `2 ^ -53`. -/
theorem power_unit (hpw : IsPower pw) (hz : ∀ y, 0 < y → pw 0 y = 0) {x y : ℝ} (hx : IsDouble x) (hy : IsDouble y) (h0 : 0 ≤ x) (h1 : x ≤ 1)
    (hy0 : 0 < y) : IsDouble (pw x y) ∧ 0 ≤ pw x y ∧ pw x y ≤ 1 ∧ |pw x y - x ^ y| ≤ 1 / 2 ^ 53 := by
  have d0 : IsDouble (0 : ℝ) := by simpa using isDouble_nat (n := 0) (by norm_num)
  have d1 : IsDouble (1 : ℝ) := by simpa using isDouble_nat (n := 1) (by norm_num)
  rcases h0.eq_or_lt with rfl | hpos
  · rw [hz y hy0, Real.zero_rpow hy0.ne']
    exact ⟨d0, le_rfl, zero_le_one, by norm_num⟩
  have hv0 : 0 < x ^ y := Real.rpow_pos_of_pos hpos y
  have hv1 : x ^ y ≤ 1 := Real.rpow_le_one hpos.le h1 hy0.le
  refine ⟨hpw.double x y hx hy hpos, hpw.above x y 0 hx hy hpos d0 hv0.le, hpw.below x y 1 hx hy hpos d1 hv1, ?_⟩
  have grid : ∀ n : ℤ, 0 ≤ n → n ≤ 2 ^ 53 → IsDouble ((n : ℝ) * (2 : ℝ) ^ (-53 : ℤ)) := fun n a b =>
    isDouble_of_le (by rw [abs_of_nonneg a]; exact b) (by norm_num)
  have e53 : (2 : ℝ) ^ (-53 : ℤ) = 1 / 2 ^ 53 := by norm_num
  have f1 := Int.floor_le (x ^ y * 2 ^ 53)
  have f2 := Int.lt_floor_add_one (x ^ y * 2 ^ 53)
  have c1 := Int.le_ceil (x ^ y * 2 ^ 53)
  have c2 := Int.ceil_lt_add_one (x ^ y * 2 ^ 53)
  have hF0 : 0 ≤ ⌊x ^ y * 2 ^ 53⌋ := Int.floor_nonneg.mpr (by positivity)
  have hC1 : ⌈x ^ y * 2 ^ 53⌉ ≤ 2 ^ 53 := Int.ceil_le.mpr (by push_cast; linarith)
  have hFC : ⌊x ^ y * 2 ^ 53⌋ ≤ ⌈x ^ y * 2 ^ 53⌉ := Int.floor_le_ceil _
  have g1 := hpw.above x y _ hx hy hpos (grid _ hF0 (hFC.trans hC1)) (by
    rw [e53, mul_one_div, div_le_iff₀ (by norm_num)]; exact f1)
  have g2 := hpw.below x y _ hx hy hpos (grid _ (hF0.trans hFC) hC1) (by
    rw [e53, mul_one_div, le_div_iff₀ (by norm_num)]; exact c1)
  rw [e53, mul_one_div] at g1 g2
  rw [div_le_iff₀ (by norm_num)] at g1
  rw [le_div_iff₀ (by norm_num)] at g2
  rw [abs_le]
  constructor
  · by_contra hc
    push Not at hc
    have : (pw x y - x ^ y) * 2 ^ 53 < -(1 / 2 ^ 53) * 2 ^ 53 := mul_lt_mul_of_pos_right hc (by norm_num)
    rw [show -(1 / 2 ^ 53 : ℝ) * 2 ^ 53 = -1 by norm_num] at this
    linarith
  · by_contra hc
    push Not at hc
    have : 1 / 2 ^ 53 * 2 ^ 53 < (pw x y - x ^ y) * 2 ^ 53 := mul_lt_mul_of_pos_right hc (by norm_num)
    rw [show (1 / 2 ^ 53 : ℝ) * 2 ^ 53 = 1 by norm_num] at this
    linarith

/-- A power with a greater exponent. -/
theorem exponent_step {s r r' : ℝ} (h0 : 0 < s) (h1 : s ≤ 1) (hr : 0 < r) (hle : r ≤ r') : s ^ r - s ^ r' ≤ (r' - r) / (2 * r) := by
  set t := -Real.log s with ht
  have ht0 : 0 ≤ t := by rw [ht]; linarith [Real.log_nonpos h0.le h1]
  have e1 : s ^ r = Real.exp (-(r * t)) := by rw [Real.rpow_def_of_pos h0]; congr 1; rw [ht]; ring
  have e2 : s ^ r' = Real.exp (-(r * t)) * Real.exp (-((r' - r) * t)) := by
    rw [Real.rpow_def_of_pos h0, ← Real.exp_add]; congr 1; rw [ht]; ring
  have a1 : 1 - (r' - r) * t ≤ Real.exp (-((r' - r) * t)) := by
    have := Real.add_one_le_exp (-((r' - r) * t))
    linarith
  have a2 : r * t * Real.exp (-(r * t)) ≤ 1 / 2 := by
    have hq := Real.quadratic_le_exp_of_nonneg (x := r * t) (by positivity)
    have : 2 * (r * t) ≤ Real.exp (r * t) := by nlinarith [sq_nonneg (r * t - 1)]
    rw [Real.exp_neg, ← div_eq_mul_inv, div_le_iff₀ (Real.exp_pos _)]
    linarith
  have hE := Real.exp_pos (-(r * t))
  rw [e1, e2]
  have a3 : Real.exp (-(r * t)) - Real.exp (-(r * t)) * Real.exp (-((r' - r) * t)) ≤ Real.exp (-(r * t)) * ((r' - r) * t) := by
    nlinarith
  refine a3.trans ?_
  rw [le_div_iff₀ (by positivity)]
  have : Real.exp (-(r * t)) * ((r' - r) * t) * (2 * r) = (r' - r) * (2 * (r * t * Real.exp (-(r * t)))) := by ring
  rw [this]
  nlinarith

/-- A power whose exponent is rounded. -/
theorem exponent_error {s r r' : ℝ} (h0 : 0 ≤ s) (h1 : s ≤ 1) (hr : 0 < r) (h : |r' - r| ≤ r / 2 ^ 53) : |s ^ r' - s ^ r| ≤ 1 / 2 ^ 53 := by
  have hr' : r / 2 ≤ r' := by
    rw [abs_le] at h
    have : r / 2 ^ 53 ≤ r / 2 := div_le_div_of_nonneg_left hr.le (by norm_num) (by norm_num)
    linarith [h.1]
  rcases h0.eq_or_lt with rfl | hpos
  · rw [Real.zero_rpow (by linarith), Real.zero_rpow hr.ne']
    norm_num
  rcases le_total r r' with hle | hle
  · have e1 := exponent_step hpos h1 hr hle
    have e2 := Real.rpow_le_rpow_of_exponent_ge hpos h1 hle
    rw [abs_of_nonneg (by linarith)] at h
    rw [abs_sub_comm, abs_of_nonneg (by linarith)]
    refine e1.trans ?_
    rw [div_le_iff₀ (by positivity)]
    calc r' - r ≤ r / 2 ^ 53 := h
      _ ≤ _ := by rw [one_div_mul_eq_div]; exact div_le_div_of_nonneg_right (by linarith) (by norm_num)
  · have e1 := exponent_step hpos h1 (by linarith) hle
    have e2 := Real.rpow_le_rpow_of_exponent_ge hpos h1 hle
    rw [abs_of_nonpos (by linarith)] at h
    rw [abs_of_nonneg (by linarith)]
    refine e1.trans ?_
    rw [div_le_iff₀ (by linarith)]
    calc r - r' ≤ r / 2 ^ 53 := by linarith
      _ ≤ _ := by rw [one_div_mul_eq_div]; exact div_le_div_of_nonneg_right (by linarith) (by norm_num)

theorem pow_error {x y : ℝ} (hx0 : 0 ≤ x) (hx1 : x ≤ 1) (hy0 : 0 ≤ y) (hy1 : y ≤ 1) (n : Nat) : |x ^ n - y ^ n| ≤ n * |x - y| := by
  induction n with
  | zero => simp
  | succ n ih =>
      have e : x ^ (n + 1) - y ^ (n + 1) = x * (x ^ n - y ^ n) + (x - y) * y ^ n := by ring
      rw [e]
      refine (abs_add_le _ _).trans ?_
      rw [abs_mul, abs_mul, abs_of_nonneg hx0, abs_of_nonneg (pow_nonneg hy0 n)]
      have h1 : x * |x ^ n - y ^ n| ≤ 1 * (n * |x - y|) := mul_le_mul hx1 ih (abs_nonneg _) zero_le_one
      have h2 : |x - y| * y ^ n ≤ |x - y| * 1 := mul_le_mul_of_nonneg_left (pow_le_one₀ hy0 hy1) (abs_nonneg _)
      push_cast
      linarith

theorem fl_unit (hfl : IsRounding fl) {x : ℝ} (h0 : 0 ≤ x) (h1 : x ≤ 1) : 0 ≤ fl x ∧ fl x ≤ 1 ∧ |fl x - x| ≤ 1 / 2 ^ 54 :=
  ⟨hfl.nonneg h0, hfl.le_one h1, error_unit hfl (by rwa [abs_of_nonneg h0])⟩

theorem exponent_float (hfl : IsRounding fl) {h bands : Nat} (hh : 1 ≤ h) (hb : 1 ≤ bands) (hB : bands ≤ 2 ^ 53) :
    0 < fl ((h : ℝ) / bands) ∧ |fl ((h : ℝ) / bands) - (h : ℝ) / bands| ≤ (h : ℝ) / bands / 2 ^ 53 := by
  have hhR : (1 : ℝ) ≤ h := by exact_mod_cast hh
  have hbR : (1 : ℝ) ≤ bands := by exact_mod_cast hb
  have hBR : (bands : ℝ) ≤ 2 ^ 53 := by exact_mod_cast hB
  have hr : (2 : ℝ) ^ (-1022 : ℤ) ≤ (h : ℝ) / bands := by
    rw [le_div_iff₀ (by linarith)]
    calc (2 : ℝ) ^ (-1022 : ℤ) * bands ≤ (2 : ℝ) ^ (-53 : ℤ) * 2 ^ 53 :=
          mul_le_mul (zpow_le_zpow_right₀ (by norm_num) (by norm_num)) hBR (by linarith) (two_zpow_pos _).le
      _ = 1 := by norm_num
      _ ≤ h := hhR
  have hpos : 0 < (h : ℝ) / bands := by positivity
  have e := hfl.relative hr
  refine ⟨?_, e⟩
  rw [abs_le] at e
  have : (h : ℝ) / bands / 2 ^ 53 ≤ (h : ℝ) / bands / 2 := div_le_div_of_nonneg_left hpos.le (by norm_num) (by norm_num)
  linarith [e.1]

/-- **C132**: computed in double precision, `match_probability` is between zero and one, zero for items which share nothing, one for equal ones,
and its error is at most `(5 * bands + 3) * 2 ^ -54`. -/
theorem match_probability_float (hfl : IsRounding fl) (hpw : IsPower pw) (hz : ∀ y, 0 < y → pw 0 y = 0) {h bands : Nat} (hh : 1 ≤ h)
    (hb : 1 ≤ bands) (hB : bands ≤ 2 ^ 53) {s : ℝ} (hs : IsDouble s) (h0 : 0 ≤ s) (h1 : s ≤ 1) :
    0 ≤ GuessBandsFloat.matchProbability fl pw h bands s ∧ GuessBandsFloat.matchProbability fl pw h bands s ≤ 1 ∧
    (s = 0 → GuessBandsFloat.matchProbability fl pw h bands s = 0) ∧ (s = 1 → GuessBandsFloat.matchProbability fl pw h bands s = 1) ∧
    |GuessBandsFloat.matchProbability fl pw h bands s - (1 - (1 - s ^ ((h : ℝ) / bands)) ^ bands)| ≤ (5 * bands + 3) / 2 ^ 54 := by
  have hbR : (1 : ℝ) ≤ bands := by exact_mod_cast hb
  have d1 : IsDouble (1 : ℝ) := by simpa using isDouble_nat (n := 1) (by norm_num)
  obtain ⟨hr0, hr⟩ := exponent_float hfl hh hb hB
  have hrpos : 0 < (h : ℝ) / bands := by
    have : (1 : ℝ) ≤ h := by exact_mod_cast hh
    positivity
  have hq := power_unit hpw hz hs (hfl.double _) h0 h1 hr0
  have hbd : IsDouble (bands : ℝ) := isDouble_nat hB
  have one_pow : ∀ y, IsDouble y → pw 1 y = 1 := fun y hy => le_antisymm
    (hpw.below 1 y 1 d1 hy one_pos d1 (by simp)) (hpw.above 1 y 1 d1 hy one_pos d1 (by simp))
  unfold GuessBandsFloat.matchProbability
  have special1 : s = 0 → pw s (fl ((h : ℝ) / bands)) = 0 := fun e => by rw [e]; exact hz _ hr0
  have special2 : s = 1 → pw s (fl ((h : ℝ) / bands)) = 1 := fun e => by rw [e]; exact one_pow _ (hfl.double _)
  have hexp := exponent_error h0 h1 hrpos hr
  generalize fl ((h : ℝ) / bands) = r' at *
  generalize pw s r' = q at *
  obtain ⟨_, q0, q1, hq⟩ := hq
  obtain ⟨x0, x1, hx⟩ := fl_unit hfl (x := 1 - q) (by linarith) (by linarith)
  have hxd := hfl.double (1 - q)
  have hy := power_unit hpw hz hxd hbd x0 x1 (by linarith)
  obtain ⟨_, y0, y1, hy⟩ := hy
  obtain ⟨z0, z1, hzz⟩ := fl_unit hfl (x := 1 - pw (fl (1 - q)) bands) (by linarith) (by linarith)
  refine ⟨z0, z1, fun e => ?_, fun e => ?_, ?_⟩
  · rw [special1 e, sub_zero, hfl.one, one_pow _ hbd, sub_self, hfl.zero]
  · rw [special2 e, sub_self, hfl.zero, hz _ (by linarith), sub_zero, hfl.one]
  · rw [Real.rpow_natCast] at hy
    have p0 : 0 ≤ s ^ ((h : ℝ) / bands) := Real.rpow_nonneg h0 _
    have p1 : s ^ ((h : ℝ) / bands) ≤ 1 := Real.rpow_le_one h0 h1 hrpos.le
    have hpow := pow_error x0 x1 (y := 1 - s ^ ((h : ℝ) / bands)) (by linarith) (by linarith) bands
    have hdiff : |fl (1 - q) - (1 - s ^ ((h : ℝ) / bands))| ≤ 5 / 2 ^ 54 := by
      rw [abs_le] at *
      constructor <;> linarith [hx.1, hx.2, hq.1, hq.2, hexp.1, hexp.2]
    have hb2 : (bands : ℝ) * |fl (1 - q) - (1 - s ^ ((h : ℝ) / bands))| ≤ bands * (5 / 2 ^ 54) :=
      mul_le_mul_of_nonneg_left hdiff (by linarith)
    have hpow := hpow.trans hb2
    rw [abs_le] at *
    have e : (5 * (bands : ℝ) + 3) / 2 ^ 54 = bands * (5 / 2 ^ 54) + 3 / 2 ^ 54 := by ring
    rw [e]
    constructor <;> linarith [hpow.1, hpow.2, hy.1, hy.2, hzz.1, hzz.2]

/-- **C132**: if moreover powers are computed so that they grow with the number, as the nearest doubles do, so does the result. -/
theorem match_probability_float_mono (hfl : IsRounding fl) (hpw : IsPower pw) (hz : ∀ y, 0 < y → pw 0 y = 0)
    (hmono : ∀ x x' y, IsDouble x → IsDouble x' → IsDouble y → 0 ≤ x → x ≤ x' → 0 < y → pw x y ≤ pw x' y) {h bands : Nat} (hh : 1 ≤ h)
    (hb : 1 ≤ bands) (hB : bands ≤ 2 ^ 53) {s s' : ℝ} (hs : IsDouble s) (hs' : IsDouble s') (h0 : 0 ≤ s) (hle : s ≤ s') (h1 : s' ≤ 1) :
    GuessBandsFloat.matchProbability fl pw h bands s ≤ GuessBandsFloat.matchProbability fl pw h bands s' := by
  have hbR : (1 : ℝ) ≤ bands := by exact_mod_cast hb
  obtain ⟨hr0, _⟩ := exponent_float hfl hh hb hB
  have hq := hmono s s' _ hs hs' (hfl.double ((h : ℝ) / bands)) h0 hle hr0
  obtain ⟨_, _, q1, _⟩ := power_unit hpw hz hs' (hfl.double ((h : ℝ) / bands)) (h0.trans hle) h1 hr0
  unfold GuessBandsFloat.matchProbability
  apply hfl.mono
  have h2 := hmono _ _ (bands : ℝ) (hfl.double _) (hfl.double _) (isDouble_nat hB) (hfl.nonneg (sub_nonneg.mpr q1))
    (hfl.mono (sub_le_sub_left hq 1)) (by linarith)
  linarith

/-- **C132**: a chance which is too small is lost: zero is computed when the chance that two bands are equal is at most `2 ^ -55`, however many
bands there are. -/
theorem match_probability_float_vanishes (hfl : IsRounding fl) (hpw : IsPower pw) {h bands : Nat} (hB : bands ≤ 2 ^ 53) {s : ℝ}
    (hs : IsDouble s) (h0 : 0 < s) (hsmall : s ^ fl ((h : ℝ) / bands) ≤ 1 / 2 ^ 55) :
    GuessBandsFloat.matchProbability fl pw h bands s = 0 := by
  have d0 : IsDouble (0 : ℝ) := by simpa using isDouble_nat (n := 0) (by norm_num)
  have d1 : IsDouble (1 : ℝ) := by simpa using isDouble_nat (n := 1) (by norm_num)
  have d55 : IsDouble (1 / 2 ^ 55 : ℝ) := by
    have := isDouble_zpow (e := -55) (by norm_num)
    rwa [show (2 : ℝ) ^ (-55 : ℤ) = 1 / 2 ^ 55 by norm_num] at this
  have q0 := hpw.above s _ 0 hs (hfl.double ((h : ℝ) / bands)) h0 d0 (Real.rpow_pos_of_pos h0 _).le
  have q1 := hpw.below s _ _ hs (hfl.double ((h : ℝ) / bands)) h0 d55 hsmall
  unfold GuessBandsFloat.matchProbability
  generalize pw s (fl ((h : ℝ) / bands)) = q at *
  have e1 : fl (1 - q) = 1 := by
    have := hfl.eq_of_near (x := 1 - q) (n := 2 ^ 53) (k := -53) (by norm_num)
      (by norm_num; linarith [show (1 : ℝ) / 2 ^ 55 ≤ 1 / 2 by norm_num]) (by norm_num)
      (by
        rw [show ((2 ^ 53 : ℤ) : ℝ) * (2 : ℝ) ^ (-53 : ℤ) = 1 by norm_num, show 1 - q - 1 = -q by ring, abs_neg, abs_of_nonneg q0]
        refine lt_of_le_of_lt q1 ?_
        norm_num)
    rw [this]
    norm_num
  have e2 : pw 1 (bands : ℝ) = 1 := le_antisymm
    (hpw.below 1 _ 1 d1 (isDouble_nat hB) one_pos d1 (by simp)) (hpw.above 1 _ 1 d1 (isDouble_nat hB) one_pos d1 (by simp))
  rw [e1, e2, sub_self, hfl.zero]

-- Powers rounded to the nearest double grow with the number, and a similarity of one half is lost with sixty integers in one band.
example (hfl : IsRounding fl) : GuessBandsFloat.matchProbability fl (fun x y => fl (x ^ y)) 60 1 (1 / 2) = 0 ∧
    MinhashClustering.matchProbability 60 1 (1 / 2) = 1 / 2 ^ 60 ∧
    GuessBandsFloat.matchProbability fl (fun x y => fl (x ^ y)) 128 16 (1 / 2) ≤
      GuessBandsFloat.matchProbability fl (fun x y => fl (x ^ y)) 128 16 1 := by
  have d2 : IsDouble (1 / 2 : ℝ) := by
    have := isDouble_zpow (e := -1) (by norm_num)
    rwa [show (2 : ℝ) ^ (-1 : ℤ) = 1 / 2 by norm_num] at this
  have d1 : IsDouble (1 : ℝ) := by simpa using isDouble_nat (n := 1) (by norm_num)
  have f60 : fl 60 = 60 := by simpa using hfl.nat (n := 60) (by norm_num)
  refine ⟨?_, ?_, ?_⟩
  · refine match_probability_float_vanishes hfl (isPower_rounded hfl) (by norm_num) d2 (by norm_num) ?_
    norm_num [f60]
  · unfold MinhashClustering.matchProbability
    norm_num
  · refine match_probability_float_mono hfl (isPower_rounded hfl) (fun y hy => by simp only [Real.zero_rpow hy.ne', hfl.zero])
      (fun x x' y _ _ _ h0 hle hy => hfl.mono (Real.rpow_le_rpow h0 hle hy.le)) (by norm_num) (by norm_num) (by norm_num) d2 d1
      (by norm_num) (by norm_num) le_rfl

end Fog.Props
