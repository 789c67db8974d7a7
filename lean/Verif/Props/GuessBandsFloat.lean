import Verif.Spec.Power
import Verif.Model.GuessBandsFloat
import Verif.Props.MinhashClustering
import Verif.Props.Thresholds
import Mathlib.Analysis.SpecialFunctions.Log.Basic

/-!
# C126: `guess_bands` in double precision
-/

namespace Fog.Props

open Fog.Spec

variable {fl : ℝ → ℝ} {pw : ℝ → ℝ → ℝ}

/-- A rounded power is a power. -/
theorem isPower_rounded (hfl : IsRounding fl) : IsPower fun x y => fl (x ^ y) := by
  refine ⟨fun _ _ _ _ _ => hfl.double _, ?_, ?_⟩
  · intro x y z _ _ _ hz h
    have := hfl.mono h
    rwa [hfl.of_double hz] at this
  · intro x y z _ _ _ hz h
    have := hfl.mono h
    rwa [hfl.of_double hz] at this

theorem guessLoop_float_spec (h : Nat) (threshold : ℝ) (bands : Nat) (hb : bands ≤ h + 1) :
    bands ≤ GuessBandsFloat.guessLoop fl pw h threshold bands ∧ GuessBandsFloat.guessLoop fl pw h threshold bands ≤ h + 1 ∧
    (∀ b, bands ≤ b → b < GuessBandsFloat.guessLoop fl pw h threshold bands → threshold < GuessBandsFloat.similarityThreshold fl pw h b) ∧
    (GuessBandsFloat.guessLoop fl pw h threshold bands ≤ h →
      GuessBandsFloat.similarityThreshold fl pw h (GuessBandsFloat.guessLoop fl pw h threshold bands) ≤ threshold) := by
  induction hn : h + 1 - bands using Nat.strongRecOn generalizing bands with
  | _ n ih =>
      rw [GuessBandsFloat.guessLoop]
      split
      · next hle =>
        simp only
        split
        · next ht => exact ⟨le_refl _, by omega, by intro b h1 h2; omega, fun _ => ht⟩
        · next ht =>
          obtain ⟨h1, h2, h3, h4⟩ := ih (h + 1 - (bands + 1)) (by omega) (bands + 1) (by omega) rfl
          refine ⟨by omega, h2, ?_, h4⟩
          intro b hb1 hb2
          rcases Nat.lt_or_ge bands b with hlt | hge
          · exact h3 b hlt hb2
          · have : b = bands := by omega
            subst this
            exact not_le.mp ht
      · exact ⟨le_refl _, by omega, by intro b h1 h2; omega, by omega⟩

theorem fl_inv_pos (hfl : IsRounding fl) {b : Nat} (hb : 1 ≤ b) (hB : b ≤ 2 ^ 53) : 0 < fl (1 / (b : ℝ)) := by
  have hbR : (0 : ℝ) < b := by exact_mod_cast hb
  have hBR : (b : ℝ) ≤ 2 ^ 53 := by exact_mod_cast hB
  have h1 : (2 : ℝ) ^ (-53 : ℤ) ≤ 1 / (b : ℝ) := by
    rw [zpow_neg, one_div]
    exact inv_anti₀ hbR (by exact_mod_cast hBR)
  have h2 := hfl.mono h1
  rw [hfl.of_double (isDouble_zpow (by norm_num))] at h2
  exact lt_of_lt_of_le (two_zpow_pos _) h2

/-- With as many bands as integers, the computed threshold is the double nearest to `1 / h`; with less bands it is not smaller. -/
theorem similarity_threshold_float (hfl : IsRounding fl) (hpw : IsPower pw) {h b : Nat} (hb : 1 ≤ b) (hle : b ≤ h) (hh : h ≤ 2 ^ 53) :
    GuessBandsFloat.similarityThreshold fl pw h h = fl (1 / (h : ℝ)) ∧
    fl (1 / (h : ℝ)) ≤ GuessBandsFloat.similarityThreshold fl pw h b := by
  have hbR : (0 : ℝ) < b := by exact_mod_cast hb
  have hhR : (0 : ℝ) < h := by exact_mod_cast (Nat.lt_of_lt_of_le hb hle)
  have hleR : (b : ℝ) ≤ h := by exact_mod_cast hle
  constructor
  · unfold GuessBandsFloat.similarityThreshold
    rw [div_self hhR.ne', hfl.one, div_one, hfl.one]
    have h1 : IsDouble (1 : ℝ) := by simpa using isDouble_nat (n := 1) (by norm_num)
    have hp := fl_inv_pos hfl (Nat.le_trans hb hle) hh
    apply le_antisymm
    · exact hpw.below _ _ _ (hfl.double _) h1 hp (hfl.double _) (by rw [Real.rpow_one])
    · exact hpw.above _ _ _ (hfl.double _) h1 hp (hfl.double _) (by rw [Real.rpow_one])
  · unfold GuessBandsFloat.similarityThreshold
    have hp := fl_inv_pos hfl hb (Nat.le_trans hle hh)
    refine hpw.above _ _ _ (hfl.double _) (hfl.double _) hp (hfl.double _) ?_
    have hx1 : fl (1 / (b : ℝ)) ≤ 1 := hfl.le_one (by rw [div_le_one hbR]; exact_mod_cast hb)
    have hq : 1 ≤ fl ((h : ℝ) / b) := by
      have := hfl.mono (show (1 : ℝ) ≤ h / b by rwa [le_div_iff₀ hbR, one_mul])
      rwa [hfl.one] at this
    have hy1 : fl (1 / fl ((h : ℝ) / b)) ≤ 1 := hfl.le_one (by rw [div_le_one (by linarith)]; exact hq)
    calc fl (1 / (h : ℝ)) ≤ fl (1 / (b : ℝ)) := hfl.mono (one_div_le_one_div_of_le hbR hleR)
      _ = fl (1 / (b : ℝ)) ^ (1 : ℝ) := (Real.rpow_one _).symm
      _ ≤ _ := Real.rpow_le_rpow_of_exponent_ge hp hx1 hy1

/-- **C126**: the number of bands is between one and `h` exactly from the double nearest to `1 / h` on; below it is `h + 1`. -/
theorem guess_bands_float_usable (hfl : IsRounding fl) (hpw : IsPower pw) {h : Nat} (hh : 1 ≤ h) (hh' : h ≤ 2 ^ 53) (threshold : ℝ) :
    1 ≤ GuessBandsFloat.guessBands fl pw h threshold ∧
    (fl (1 / (h : ℝ)) ≤ threshold → GuessBandsFloat.guessBands fl pw h threshold ≤ h) ∧
    (threshold < fl (1 / (h : ℝ)) → GuessBandsFloat.guessBands fl pw h threshold = h + 1) := by
  obtain ⟨h1, h2, h3, h4⟩ := guessLoop_float_spec (fl := fl) (pw := pw) h threshold 1 (by omega)
  unfold GuessBandsFloat.guessBands
  refine ⟨h1, fun ht => ?_, fun ht => ?_⟩
  · by_contra hc
    have := h3 h hh (by omega)
    rw [(similarity_threshold_float hfl hpw hh (le_refl h) hh').1] at this
    linarith
  · by_contra hc
    have hle : GuessBandsFloat.guessLoop fl pw h threshold 1 ≤ h := by omega
    have := (similarity_threshold_float hfl hpw h1 hle hh').2
    have := h4 hle
    linarith

theorem log_near {t : ℝ} (h : |t - 1| ≤ 1 / 2 ^ 53) : |Real.log t| ≤ 2 / 2 ^ 53 := by
  rw [abs_le] at h ⊢
  have ht : 0 < t := by linarith [h.1, show (1 : ℝ) / 2 ^ 53 ≤ 1 / 2 by norm_num]
  have h1 := Real.log_le_sub_one_of_pos ht
  have h2 := Real.one_sub_inv_le_log_of_pos ht
  refine ⟨?_, by linarith [h.2]⟩
  refine le_trans ?_ h2
  have h3 : t⁻¹ ≤ 1 + 2 / 2 ^ 53 := by
    rw [inv_le_comm₀ ht (by norm_num)]
    refine le_trans ?_ (show 1 - 1 / 2 ^ 53 ≤ t by linarith [h.1])
    rw [inv_le_iff_one_le_mul₀ (by norm_num)]
    norm_num
  linarith

theorem quotient_near_one {x y : ℝ} (hy : 0 < y) (h : |x - y| ≤ y / 2 ^ 53) : |x / y - 1| ≤ 1 / 2 ^ 53 := by
  rw [div_sub_one hy.ne', abs_div, abs_of_pos hy, div_le_iff₀ hy]
  linarith

/-- A computed power is within two units of the sixth figure after the power, in logarithm. -/
theorem log_power (hfl : IsRounding fl) (hpw : IsPower pw) {x y : ℝ} (hx : IsDouble x) (hy : IsDouble y) (h0 : 0 < x)
    (hl : (2 : ℝ) ^ (-1000 : ℤ) ≤ x ^ y) : 0 < pw x y ∧ |Real.log (pw x y) - Real.log (x ^ y)| ≤ 4 / 2 ^ 53 := by
  have hX : 0 < x ^ y := Real.rpow_pos_of_pos h0 y
  have hnorm : ∀ c : ℝ, 1 / 2 ≤ c → (2 : ℝ) ^ (-1022 : ℤ) ≤ x ^ y * c := by
    intro c hc
    have h1 : (2 : ℝ) ^ (-1022 : ℤ) ≤ (2 : ℝ) ^ (-1001 : ℤ) := zpow_le_zpow_right₀ (by norm_num) (by norm_num)
    have h2 : (2 : ℝ) ^ (-1000 : ℤ) = (2 : ℝ) ^ (-1001 : ℤ) * 2 := by
      rw [show (-1000 : ℤ) = -1001 + 1 by norm_num, zpow_add_one₀ two_ne_zero]
    nlinarith
  -- the double nearest to a number slightly below, and slightly above
  have lower : x ^ y * (1 - 2 / 2 ^ 53) ≤ pw x y := by
    have hr := hfl.relative (hnorm (1 - 1 / 2 ^ 53) (by norm_num))
    rw [abs_le] at hr
    have h1 : fl (x ^ y * (1 - 1 / 2 ^ 53)) ≤ x ^ y := by nlinarith [hr.2]
    have h2 := hpw.above x y _ hx hy h0 (hfl.double _) h1
    nlinarith [hr.1]
  have upper : pw x y ≤ x ^ y * (1 + 3 / 2 ^ 53) := by
    have hr := hfl.relative (hnorm (1 + 3 / 2 / 2 ^ 53) (by norm_num))
    rw [abs_le] at hr
    have h1 : x ^ y ≤ fl (x ^ y * (1 + 3 / 2 / 2 ^ 53)) := by nlinarith [hr.1]
    have h2 := hpw.below x y _ hx hy h0 (hfl.double _) h1
    nlinarith [hr.2]
  have hpos : 0 < pw x y := lt_of_lt_of_le (mul_pos hX (by norm_num)) lower
  refine ⟨hpos, ?_⟩
  rw [← Real.log_div hpos.ne' hX.ne', abs_le]
  have hq : 0 < pw x y / x ^ y := div_pos hpos hX
  have h1 := Real.log_le_sub_one_of_pos hq
  have h2 := Real.one_sub_inv_le_log_of_pos hq
  have h3 : pw x y / x ^ y ≤ 1 + 3 / 2 ^ 53 := by rw [div_le_iff₀ hX]; linarith
  have h4 : 1 - 2 / 2 ^ 53 ≤ pw x y / x ^ y := by rw [le_div_iff₀ hX]; linarith
  constructor
  · refine le_trans ?_ h2
    have : (pw x y / x ^ y)⁻¹ ≤ 1 + 4 / 2 ^ 53 := by
      rw [inv_le_comm₀ hq (by norm_num)]
      refine le_trans ?_ h4
      rw [inv_le_iff_one_le_mul₀ (by norm_num)]
      norm_num
    linarith
  · linarith [show (3 : ℝ) / 2 ^ 53 ≤ 4 / 2 ^ 53 by norm_num]

/-- How far a computed threshold may be from the exact one, in logarithm. -/
noncomputable def guessSlack (h : Nat) : ℝ := (6 + 4 * Real.log h) / 2 ^ 53

/-- **C126**: the computed threshold of a number of bands is the exact one, up to a factor of which the logarithm is at most `(6 + 4 log h) / 2^53`. -/
theorem similarity_threshold_float_near (hfl : IsRounding fl) (hpw : IsPower pw) {h b : Nat} (hb : 1 ≤ b) (hle : b ≤ h) (hh : h ≤ 2 ^ 53) :
    GuessBandsFloat.similarityThreshold fl pw h b ≤ (1 / (b : ℝ)) ^ ((b : ℝ) / h) * Real.exp (guessSlack h) ∧
    (1 / (b : ℝ)) ^ ((b : ℝ) / h) * Real.exp (-guessSlack h) ≤ GuessBandsFloat.similarityThreshold fl pw h b := by
  have hbR : (0 : ℝ) < b := by exact_mod_cast hb
  have hb1 : (1 : ℝ) ≤ b := by exact_mod_cast hb
  have hhR : (0 : ℝ) < h := by exact_mod_cast (Nat.lt_of_lt_of_le hb hle)
  have hleR : (b : ℝ) ≤ h := by exact_mod_cast hle
  have hhB : (h : ℝ) ≤ 2 ^ 53 := by exact_mod_cast hh
  have small : (2 : ℝ) ^ (-1022 : ℤ) ≤ 1 / 2 ^ 54 := by
    rw [show (1 : ℝ) / 2 ^ 54 = (2 : ℝ) ^ (-54 : ℤ) by rw [zpow_neg, one_div]; norm_cast]
    exact zpow_le_zpow_right₀ (by norm_num) (by norm_num)
  have inv_ge : ∀ c : ℝ, 0 < c → c ≤ 2 ^ 54 → (2 : ℝ) ^ (-1022 : ℤ) ≤ 1 / c := fun c hc hc' =>
    le_trans small (one_div_le_one_div_of_le hc hc')
  have hp := fl_inv_pos hfl hb (Nat.le_trans hle hh)
  unfold GuessBandsFloat.similarityThreshold
  set x := fl (1 / (b : ℝ)) with hx
  set q := fl ((h : ℝ) / b) with hq
  set y := fl (1 / q) with hy
  have hx1 : x ≤ 1 := hfl.le_one (by rw [div_le_one hbR]; exact hb1)
  have hq1 : 1 ≤ q := by
    have := hfl.mono (show (1 : ℝ) ≤ h / b by rwa [le_div_iff₀ hbR, one_mul])
    rwa [hfl.one] at this
  have hq0 : 0 < q := by linarith
  have hqB : q ≤ 2 ^ 53 := by
    have h1 : (h : ℝ) / b ≤ 2 ^ 53 := by
      rw [div_le_iff₀ hbR]
      nlinarith
    have := hfl.mono h1
    rwa [show fl (2 ^ 53 : ℝ) = 2 ^ 53 by
      have h2 : IsDouble (2 ^ 53 : ℝ) := by
        have := isDouble_nat (n := 2 ^ 53) (le_refl _)
        rwa [Nat.cast_pow, Nat.cast_ofNat] at this
      exact hfl.of_double h2] at this
  have hy1 : y ≤ 1 := hfl.le_one (by rw [div_le_one hq0]; exact hq1)
  have hy0 : 0 ≤ y := hfl.nonneg (by positivity)
  -- the three roundings
  have e1 := quotient_near_one (by positivity) (hfl.relative (x := 1 / (b : ℝ)) (inv_ge b hbR (by linarith [show (2 : ℝ) ^ 53 ≤ 2 ^ 54 by norm_num])))
  have e2 := quotient_near_one (by positivity) (hfl.relative (x := (h : ℝ) / b) (by
    refine le_trans small (le_trans (by norm_num) (show (1 : ℝ) ≤ h / b by rwa [le_div_iff₀ hbR, one_mul]))))
  have e3 := quotient_near_one (by positivity) (hfl.relative (x := 1 / q) (inv_ge q hq0 (by linarith [show (2 : ℝ) ^ 53 ≤ 2 ^ 54 by norm_num])))
  rw [← hx] at e1
  rw [← hq] at e2
  rw [← hy] at e3
  have hlogx : |Real.log x + Real.log b| ≤ 2 / 2 ^ 53 := by
    have := log_near e1
    rw [div_div_eq_mul_div, div_one, Real.log_mul hp.ne' hbR.ne'] at this
    exact this
  have hyb : |y - b / h| ≤ (b / h) * (4 / 2 ^ 53) := by
    have hr : y / (1 / q) / (q / (h / b)) = y / (b / h) := by field_simp
    have hB : (0 : ℝ) < b / h := by positivity
    have hw : 0 < q / (h / b) := by positivity
    have h1 : |y / (b / h) - 1| ≤ 4 / 2 ^ 53 := by
      rw [← hr]
      generalize y / (1 / q) = s at e3
      generalize q / ((h : ℝ) / b) = w at e2 hw
      rw [abs_le] at e2 e3 ⊢
      rw [div_sub_one hw.ne', le_div_iff₀ hw, div_le_iff₀ hw]
      constructor <;> nlinarith
    have h2 : y - b / h = (b / h) * (y / (b / h) - 1) := by field_simp
    rw [h2, abs_mul, abs_of_pos hB]
    exact mul_le_mul_of_nonneg_left h1 hB.le
  have hlogb : 0 ≤ Real.log b := Real.log_nonneg hb1
  have hlogh : Real.log b ≤ Real.log h := Real.log_le_log hbR hleR
  have hbh : (b : ℝ) / h ≤ 1 := by rwa [div_le_one hhR]
  have hbh0 : (0 : ℝ) ≤ (b : ℝ) / h := by positivity
  -- the power of the rounded numbers
  have hmain : |y * Real.log x - (b / h) * -Real.log b| ≤ (2 + 4 * Real.log h) / 2 ^ 53 := by
    have h1 : y * Real.log x - (b / h) * -Real.log b = y * (Real.log x + Real.log b) - (y - b / h) * Real.log b := by ring
    rw [h1]
    refine le_trans (abs_sub _ _) ?_
    rw [abs_mul, abs_mul, abs_of_nonneg hy0, abs_of_nonneg hlogb]
    have h2 : y * |Real.log x + Real.log b| ≤ 1 * (2 / 2 ^ 53) := mul_le_mul hy1 hlogx (abs_nonneg _) (by norm_num)
    have h3 : |y - b / h| * Real.log b ≤ 4 / 2 ^ 53 * Real.log h := by
      refine mul_le_mul (le_trans hyb ?_) hlogh hlogb (by norm_num)
      nlinarith
    have h4 : (2 + 4 * Real.log h) / 2 ^ 53 = 1 * (2 / 2 ^ 53) + 4 / 2 ^ 53 * Real.log h := by ring
    rw [h4]
    exact add_le_add h2 h3
  have hX : (2 : ℝ) ^ (-1000 : ℤ) ≤ x ^ y := by
    calc (2 : ℝ) ^ (-1000 : ℤ) ≤ (2 : ℝ) ^ (-53 : ℤ) := zpow_le_zpow_right₀ (by norm_num) (by norm_num)
      _ ≤ x := by
          have h1 : (2 : ℝ) ^ (-53 : ℤ) ≤ 1 / (b : ℝ) := by
            rw [zpow_neg, one_div]
            exact inv_anti₀ hbR (by exact_mod_cast (le_trans hleR hhB))
          have h2 := hfl.mono h1
          rwa [hfl.of_double (isDouble_zpow (by norm_num))] at h2
      _ = x ^ (1 : ℝ) := (Real.rpow_one _).symm
      _ ≤ x ^ y := Real.rpow_le_rpow_of_exponent_ge hp hx1 hy1
  obtain ⟨hpos, hlog⟩ := log_power hfl hpw (hfl.double _) (hfl.double _) hp hX
  have hS : 0 < (1 / (b : ℝ)) ^ ((b : ℝ) / h) := Real.rpow_pos_of_pos (by positivity) _
  have hlogS : Real.log ((1 / (b : ℝ)) ^ ((b : ℝ) / h)) = (b / h) * -Real.log b := by
    rw [Real.log_rpow (by positivity), one_div, Real.log_inv]
  rw [Real.log_rpow hp] at hlog
  have htotal : |Real.log (pw x y) - Real.log ((1 / (b : ℝ)) ^ ((b : ℝ) / h))| ≤ guessSlack h := by
    rw [hlogS]
    have h1 : Real.log (pw x y) - (b / h) * -Real.log b =
        (Real.log (pw x y) - y * Real.log x) + (y * Real.log x - (b / h) * -Real.log b) := by ring
    rw [h1]
    refine le_trans (abs_add_le _ _) ?_
    have h2 : guessSlack h = 4 / 2 ^ 53 + (2 + 4 * Real.log h) / 2 ^ 53 := by unfold guessSlack; ring
    rw [h2]
    exact add_le_add hlog hmain
  rw [abs_le] at htotal
  constructor
  · rw [← Real.log_le_log_iff hpos (by positivity), Real.log_mul hS.ne' (Real.exp_pos _).ne', Real.log_exp]
    linarith [htotal.2]
  · rw [← Real.log_le_log_iff (by positivity) hpos, Real.log_mul hS.ne' (Real.exp_pos _).ne', Real.log_exp]
    linarith [htotal.1]

/-- **C126**: the number of bands is between those of exact numbers for slightly larger and smaller thresholds. -/
theorem guess_bands_float_between (hfl : IsRounding fl) (hpw : IsPower pw) {h : Nat} (hh : 1 ≤ h) (hh' : h ≤ 2 ^ 53) (threshold : ℝ) :
    MinhashClustering.guessBands h (threshold * Real.exp (guessSlack h)) ≤ GuessBandsFloat.guessBands fl pw h threshold ∧
    GuessBandsFloat.guessBands fl pw h threshold ≤ MinhashClustering.guessBands h (threshold * Real.exp (-guessSlack h)) := by
  have hsim : ∀ b, MinhashClustering.similarityThreshold h b = (1 / (b : ℝ)) ^ ((b : ℝ) / h) := by
    intro b; unfold MinhashClustering.similarityThreshold; rw [one_div_div]
  have hexp : Real.exp (guessSlack h) * Real.exp (-guessSlack h) = 1 := by rw [← Real.exp_add]; simp
  have hp := Real.exp_pos (guessSlack h)
  have hm := Real.exp_pos (-guessSlack h)
  obtain ⟨f1, f2, f3, f4⟩ := guessLoop_float_spec (fl := fl) (pw := pw) h threshold 1 (by omega)
  unfold GuessBandsFloat.guessBands MinhashClustering.guessBands
  constructor
  · obtain ⟨g1, g2, g3, g4⟩ := guessLoop_spec h (threshold * Real.exp (guessSlack h)) 1 (by omega)
    by_contra hc
    rw [not_le] at hc
    have hle : GuessBandsFloat.guessLoop fl pw h threshold 1 ≤ h := by omega
    have h1 := (similarity_threshold_float_near hfl hpw f1 hle hh').2
    have h2 := f4 hle
    have h3 := g3 _ f1 hc
    rw [hsim] at h3
    generalize (1 / ((GuessBandsFloat.guessLoop fl pw h threshold 1 : Nat) : ℝ)) ^ (((GuessBandsFloat.guessLoop fl pw h threshold 1 : Nat) : ℝ) / h)
      = S at h1 h3
    have : S ≤ threshold * Real.exp (guessSlack h) := by
      calc S = S * Real.exp (-guessSlack h) * Real.exp (guessSlack h) := by rw [mul_assoc, mul_comm (Real.exp (-guessSlack h)), hexp, mul_one]
        _ ≤ _ := mul_le_mul_of_nonneg_right (le_trans h1 h2) hp.le
    linarith
  · obtain ⟨g1, g2, g3, g4⟩ := guessLoop_spec h (threshold * Real.exp (-guessSlack h)) 1 (by omega)
    by_contra hc
    rw [not_le] at hc
    have hle : MinhashClustering.guessLoop h (threshold * Real.exp (-guessSlack h)) 1 ≤ h := by omega
    have h1 := (similarity_threshold_float_near hfl hpw g1 hle hh').1
    have h2 := g4 hle
    have h3 := f3 _ g1 hc
    rw [hsim] at h2
    have : (1 / ((MinhashClustering.guessLoop h (threshold * Real.exp (-guessSlack h)) 1 : Nat) : ℝ)) ^
        (((MinhashClustering.guessLoop h (threshold * Real.exp (-guessSlack h)) 1 : Nat) : ℝ) / h) * Real.exp (guessSlack h) ≤ threshold := by
      calc _ ≤ threshold * Real.exp (-guessSlack h) * Real.exp (guessSlack h) := mul_le_mul_of_nonneg_right h2 hp.le
        _ = threshold := by rw [mul_assoc, mul_comm (Real.exp (-guessSlack h)), hexp, mul_one]
    linarith

theorem guessSlack_nonneg {h : Nat} (hh : 1 ≤ h) : 0 ≤ guessSlack h := by
  have := Real.log_nonneg (show (1 : ℝ) ≤ h by exact_mod_cast hh)
  unfold guessSlack
  positivity

theorem guessBands_anti {h : Nat} {s t : ℝ} (hst : s ≤ t) : MinhashClustering.guessBands h t ≤ MinhashClustering.guessBands h s := by
  unfold MinhashClustering.guessBands
  obtain ⟨f1, f2, f3, f4⟩ := guessLoop_spec h s 1 (by omega)
  obtain ⟨g1, g2, g3, g4⟩ := guessLoop_spec h t 1 (by omega)
  by_contra hc
  rw [not_le] at hc
  have h1 := f4 (by omega)
  have h2 := g3 _ f1 hc
  linarith

/-- **C126**: unless the threshold is that of a number of bands, up to the slack, the number of bands is that of exact numbers. -/
theorem guess_bands_float_same (hfl : IsRounding fl) (hpw : IsPower pw) {h : Nat} (hh : 1 ≤ h) (hh' : h ≤ 2 ^ 53) {threshold : ℝ}
    (h0 : 0 ≤ threshold)
    (hfar : ∀ b : Nat, 1 ≤ b → b ≤ h → (1 / (b : ℝ)) ^ ((b : ℝ) / h) ≤ threshold * Real.exp (-guessSlack h) ∨
      threshold * Real.exp (guessSlack h) < (1 / (b : ℝ)) ^ ((b : ℝ) / h)) :
    GuessBandsFloat.guessBands fl pw h threshold = MinhashClustering.guessBands h threshold := by
  obtain ⟨hlo, hhi⟩ := guess_bands_float_between hfl hpw hh hh' threshold
  have hs := guessSlack_nonneg hh
  have h1 : MinhashClustering.guessBands h (threshold * Real.exp (guessSlack h)) ≤ MinhashClustering.guessBands h threshold :=
    guessBands_anti (by nlinarith [Real.one_le_exp hs])
  have h2 : MinhashClustering.guessBands h threshold ≤ MinhashClustering.guessBands h (threshold * Real.exp (-guessSlack h)) :=
    guessBands_anti (by nlinarith [Real.exp_le_one_iff.mpr (neg_nonpos.mpr hs)])
  have h3 : MinhashClustering.guessBands h (threshold * Real.exp (-guessSlack h)) ≤
      MinhashClustering.guessBands h (threshold * Real.exp (guessSlack h)) := by
    unfold MinhashClustering.guessBands
    obtain ⟨f1, f2, f3, f4⟩ := guessLoop_spec h (threshold * Real.exp (guessSlack h)) 1 (by omega)
    obtain ⟨g1, g2, g3, g4⟩ := guessLoop_spec h (threshold * Real.exp (-guessSlack h)) 1 (by omega)
    by_contra hc
    rw [not_le] at hc
    have hle : MinhashClustering.guessLoop h (threshold * Real.exp (guessSlack h)) 1 ≤ h := by omega
    have e1 := f4 hle
    have e2 := g3 _ f1 hc
    unfold MinhashClustering.similarityThreshold at e1 e2
    rw [one_div_div] at e1 e2
    rcases hfar _ f1 hle with e | e <;> linarith
  omega

/-- **C126**: with the defaults, `h = 256` and `radius = 0.8`, twenty bands are guessed on every machine. -/
theorem guess_bands_default (hfl : IsRounding fl) (hpw : IsPower pw) : GuessBandsFloat.guessBands fl pw 256 (fl (4 / 5)) = 20 := by
  have hslack : guessSlack 256 ≤ 1 / 1000 := by
    have h1 := Real.log_le_sub_one_of_pos (show (0 : ℝ) < (256 : ℕ) by norm_num)
    unfold guessSlack
    rw [div_le_iff₀ (by positivity)]
    have h2 : ((256 : ℕ) : ℝ) = 256 := by norm_num
    rw [h2] at h1 ⊢
    norm_num
    linarith
  have hexp : 1 - 1 / 1000 ≤ Real.exp (-guessSlack 256) := by
    linarith [Real.one_sub_le_exp_neg (guessSlack 256)]
  have hexp' : Real.exp (guessSlack 256) ≤ 1000 / 999 := by
    have h1 : Real.exp (guessSlack 256) * Real.exp (-guessSlack 256) = 1 := by rw [← Real.exp_add]; simp
    have h2 := Real.exp_pos (guessSlack 256)
    rw [le_div_iff₀ (by norm_num)]
    nlinarith
  have hf := error_unit hfl (x := (4 / 5 : ℝ)) (by rw [abs_le]; constructor <;> norm_num)
  rw [abs_le] at hf
  have hroot : ∀ b : Nat, (((1 : ℝ) / b) ^ ((b : ℝ) / (256 : ℕ))) ^ (256 : ℕ) = (1 / (b : ℝ)) ^ b := by
    intro b
    rw [← Real.rpow_natCast, ← Real.rpow_mul (by positivity), div_mul_cancel₀ _ (by norm_num), Real.rpow_natCast]
  obtain ⟨f1, f2, f3, f4⟩ := guessLoop_float_spec (fl := fl) (pw := pw) 256 (fl (4 / 5)) 1 (by omega)
  unfold GuessBandsFloat.guessBands
  apply le_antisymm
  · by_contra hc
    have h1 := f3 20 (by omega) (by omega)
    have h2 := (similarity_threshold_float_near hfl hpw (h := 256) (b := 20) (by omega) (by omega) (by norm_num)).1
    have h3 := hroot 20
    have hpos : (0 : ℝ) ≤ (1 / ((20 : ℕ) : ℝ)) ^ (((20 : ℕ) : ℝ) / (256 : ℕ)) := by positivity
    generalize (1 / ((20 : ℕ) : ℝ)) ^ (((20 : ℕ) : ℝ) / (256 : ℕ)) = S at h2 h3 hpos
    have h4 : S ≤ 795 / 1000 := by
      refine le_of_pow_le_pow_left₀ (n := 256) (by norm_num) (by norm_num) ?_
      rw [h3]
      norm_num
    have h5 : S * Real.exp (guessSlack 256) ≤ 795 / 1000 * (1000 / 999) := mul_le_mul h4 hexp' (Real.exp_pos _).le (by norm_num)
    have : (795 : ℝ) / 1000 * (1000 / 999) < 4 / 5 - 1 / 2 ^ 54 := by norm_num
    linarith [hf.1]
  · by_contra hc
    set g := GuessBandsFloat.guessLoop fl pw 256 (fl (4 / 5)) 1 with hg
    have hg19 : g ≤ 19 := by omega
    have h1 := f4 (by omega)
    have h2 := (similarity_threshold_float_near hfl hpw (h := 256) (b := g) f1 (by omega) (by norm_num)).2
    have h3 := hroot g
    have hpos : (0 : ℝ) ≤ (1 / (g : ℝ)) ^ ((g : ℝ) / (256 : ℕ)) := by positivity
    have h19 : (1 / 19 : ℝ) ^ 19 ≤ (1 / (g : ℝ)) ^ g := by
      rw [one_div_pow, one_div_pow]
      refine one_div_le_one_div_of_le (pow_pos (by exact_mod_cast f1) _) ?_
      have : g ^ g ≤ 19 ^ 19 := le_trans (Nat.pow_le_pow_left hg19 g) (Nat.pow_le_pow_right (by norm_num) hg19)
      exact_mod_cast this
    generalize (1 / (g : ℝ)) ^ ((g : ℝ) / (256 : ℕ)) = S at h2 h3 hpos
    have h4 : 803 / 1000 ≤ S := by
      refine le_of_pow_le_pow_left₀ (n := 256) (by norm_num) hpos ?_
      rw [h3]
      refine le_trans ?_ h19
      norm_num
    have h5 : 803 / 1000 * (1 - 1 / 1000) ≤ S * Real.exp (-guessSlack 256) := mul_le_mul h4 hexp (by norm_num) hpos
    have : (4 : ℝ) / 5 + 1 / 2 ^ 54 < 803 / 1000 * (1 - 1 / 1000) := by norm_num
    linarith [hf.2]

section Clustering

variable {α τ : Type _} [DecidableEq α] [DecidableEq τ]

open MinhashClustering

/-- **C126**: when no number of bands is given, `minhash` clusters as with exact numbers and the guessed number of bands, which is between 1
and `h`; or it raises, exactly when there is data and the radius is below `1 / h`. -/
theorem minhash_float_guess (hfl : IsRounding fl) (hpw : IsPower pw) {ord : α → List α → List α} (hord : ∀ a l, (ord a l).Perm l)
    (setOrd : List ℕ → List ℕ) (hash : τ → ℕ) {params : List (ℕ × ℕ)} (hp : params ≠ []) (same : α → α → Bool) (keyOf : α → List τ)
    (data : List α) {a b : ℕ} (hb : 0 < b) (hab : a ≤ b) (hh : params.length * b < 2 ^ 53)
    (hN : ∀ A ∈ data, ∀ B ∈ data, ((keyOf A).length + (keyOf B).length + 1) * b < 2 ^ 53) :
    (b ≤ a * params.length → ∃ bands cs, 1 ≤ bands ∧ bands ≤ params.length ∧
      GuessBandsFloat.guessBands fl pw params.length (fl ((a : ℝ) / b)) = bands ∧
      GuessBandsFloat.minhash fl pw ord setOrd hash params same keyOf data (fl ((a : ℝ) / b)) = .ok cs ∧
      minhash ord setOrd hash params same keyOf data ((a : ℚ) / b) (some bands) = .ok cs) ∧
    (a * params.length < b →
      GuessBandsFloat.minhash fl pw ord setOrd hash params same keyOf data (fl ((a : ℝ) / b)) =
        if data = [] then .ok [] else .error .valueError) := by
  have hlen : 1 ≤ params.length := List.length_pos_iff.mpr hp
  have hlenR : (0 : ℝ) < params.length := by exact_mod_cast hlen
  have hbR : (0 : ℝ) < b := by exact_mod_cast hb
  have hle : params.length ≤ 2 ^ 53 := by nlinarith
  obtain ⟨u1, u2, u3⟩ := guess_bands_float_usable hfl hpw hlen hle (fl ((a : ℝ) / b))
  unfold GuessBandsFloat.minhash
  rw [minhash_threshold hfl ord setOrd hash params same keyOf data _ hb hab hN]
  constructor
  · intro hlow
    have hr : (1 : ℝ) / params.length ≤ a / b := by
      rw [div_le_div_iff₀ hlenR hbR, one_mul]
      exact_mod_cast hlow
    have hg := u2 (hfl.mono hr)
    obtain ⟨cs, h3, _⟩ := minhash_components hord setOrd hash params same keyOf data ((a : ℚ) / b) u1 hg
    exact ⟨_, cs, u1, hg, rfl, h3, h3⟩
  · intro hlow
    have hr : (a : ℝ) / b < 1 / params.length := by
      rw [div_lt_div_iff₀ hbR hlenR, one_mul]
      exact_mod_cast hlow
    have hlt : fl ((a : ℝ) / b) < fl (1 / (params.length : ℝ)) := by
      by_contra hc
      rw [not_lt] at hc
      have := (fraction_threshold hfl (p := a) (q := b) (a := 1) (b := params.length) hb hlen hlen (by rw [Nat.mul_comm]; exact hh)).mp
        (by rwa [Nat.cast_one])
      rw [Nat.cast_one] at this
      linarith
    rw [u3 hlt]
    unfold minhash
    simp only []
    rw [if_neg (by omega)]
    by_cases hd : data = []
    · subst hd
      rw [if_neg (by simp), if_pos rfl]
      rfl
    · rw [if_pos ⟨hd, Nat.div_eq_of_lt (by omega)⟩, if_neg hd]

end Clustering

/-! ### Examples -/

/-- There is a machine. -/
example : ∃ (fl : ℝ → ℝ) (pw : ℝ → ℝ → ℝ), IsRounding fl ∧ IsPower pw := by
  obtain ⟨fl, hfl⟩ := exists_rounding
  exact ⟨fl, _, hfl, isPower_rounded hfl⟩

/-- The default signature, the default radius, and sets of up to a million tokens. -/
example (A B : List ℕ) (hA : A.length ≤ 1000000) (hB : B.length ≤ 1000000) :
    256 * 5 < 2 ^ 53 ∧ (A.length + B.length + 1) * 5 < 2 ^ 53 ∧ 5 ≤ 4 * 256 := by omega

/-- A signature of four integers and the radius 0.2: clustering raises. -/
example (hfl : IsRounding fl) (hpw : IsPower pw) :
    GuessBandsFloat.minhash fl pw (fun _ l => l) id (fun n : ℕ => n) [(1, 0), (3, 5), (7, 1), (11, 2)] (fun _ _ => false)
      (fun s : List ℕ => s) [[1, 2, 3], [3, 2, 1]] (fl ((1 : ℕ) / (5 : ℕ))) = .error .valueError := by
  have := (minhash_float_guess hfl hpw (fun _ l => List.Perm.refl l) id (fun n : ℕ => n) (params := [(1, 0), (3, 5), (7, 1), (11, 2)])
    (by simp) (fun _ _ => false) (fun s : List ℕ => s) [[1, 2, 3], [3, 2, 1]] (a := 1) (b := 5) (by omega) (by omega) (by norm_num)
    (by intro A hA B hB; simp at hA hB; rcases hA with rfl | rfl <;> rcases hB with rfl | rfl <;> norm_num)).2 (by norm_num)
  simpa using this

end Fog.Props
