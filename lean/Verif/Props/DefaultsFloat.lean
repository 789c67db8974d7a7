import Verif.Model.DefaultsFloat
import Verif.Spec.Logarithm
import Verif.Lemmas.Binary64
import Mathlib.Analysis.SpecialFunctions.Log.Deriv
import Mathlib.Data.Nat.Log
import Mathlib.Data.Nat.Sqrt

/-!
# C135: the numbers computed from the number of items, in double precision
-/

namespace Fog.Props

open Spec

variable {fl lg : ℝ → ℝ}

theorem logb_two_pow (k : Nat) : Real.logb 2 ((2 : ℝ) ^ k) = k := by
  rw [Real.logb_pow, Real.logb_self_eq_one (by norm_num), mul_one]

theorem log_two_lt_one : Real.log 2 < 1 := by
  have := Real.log_lt_sub_one_of_pos (x := 2) (by norm_num) (by norm_num)
  linarith

/-- A number just below a power of two has a logarithm which is not too near to an integer. -/
theorem logb_pred_le {k n : Nat} (hn0 : 0 < n) (hn : n < 2 ^ k) : Real.logb 2 n ≤ (k : ℝ) - 1 / 2 ^ k := by
  have hp : (0 : ℝ) < 2 ^ k := by positivity
  have hn' : (n : ℝ) ≤ 2 ^ k * (1 - 1 / 2 ^ k) := by
    have : (n : ℝ) + 1 ≤ 2 ^ k := by exact_mod_cast hn
    have h2 : (2 : ℝ) ^ k * (1 - 1 / 2 ^ k) = 2 ^ k - 1 := by field_simp
    linarith
  have hn0' : (0 : ℝ) < n := by exact_mod_cast hn0
  have h1 : 0 < 1 - 1 / (2 : ℝ) ^ k := by
    by_contra hc
    have := mul_nonpos_of_nonneg_of_nonpos hp.le (not_lt.mp hc)
    linarith
  have h2 : Real.logb 2 n ≤ Real.logb 2 (2 ^ k * (1 - 1 / 2 ^ k)) := Real.logb_le_logb_of_le (by norm_num) hn0' hn'
  rw [Real.logb_mul (by positivity) h1.ne', logb_two_pow] at h2
  have h3 : Real.log (1 - 1 / 2 ^ k) ≤ - (1 / 2 ^ k) := by
    have := Real.log_le_sub_one_of_pos h1
    linarith
  have hl2 : 0 < Real.log 2 := Real.log_pos (by norm_num)
  have h4 : Real.logb 2 (1 - 1 / 2 ^ k) ≤ - (1 / 2 ^ k) := by
    unfold Real.logb
    rw [div_le_iff₀ hl2]
    have h5 : (0 : ℝ) ≤ 1 / 2 ^ k := by positivity
    nlinarith [log_two_lt_one]
  linarith

/-- A number just above a power of two has a logarithm which is not too near to an integer. -/
theorem le_logb_succ {k n : Nat} (hn : 2 ^ k < n) : (k : ℝ) + 1 / 2 ^ (k + 1) ≤ Real.logb 2 n := by
  have hp : (0 : ℝ) < 2 ^ k := by positivity
  have h1 : (1 : ℝ) ≤ 2 ^ k := one_le_pow₀ (by norm_num)
  have hn' : (2 : ℝ) ^ k * (1 + 1 / 2 ^ k) ≤ n := by
    have : (2 : ℝ) ^ k + 1 ≤ n := by exact_mod_cast hn
    have h2 : (2 : ℝ) ^ k * (1 + 1 / 2 ^ k) = 2 ^ k + 1 := by field_simp
    linarith
  have h2 : Real.logb 2 (2 ^ k * (1 + 1 / 2 ^ k)) ≤ Real.logb 2 n := Real.logb_le_logb_of_le (by norm_num) (by positivity) hn'
  rw [Real.logb_mul (by positivity) (by positivity), logb_two_pow] at h2
  have h3 : 1 / 2 ^ (k + 1) ≤ Real.log (1 + 1 / 2 ^ k) := by
    have h4 := Real.one_sub_inv_le_log_of_pos (x := 1 + 1 / (2 : ℝ) ^ k) (by positivity)
    have h5 : 1 / (2 : ℝ) ^ (k + 1) ≤ 1 - (1 + 1 / (2 : ℝ) ^ k)⁻¹ := by
      have h6 : 1 - (1 + 1 / (2 : ℝ) ^ k)⁻¹ = 1 / (2 ^ k + 1) := by field_simp; ring
      rw [h6, pow_succ]
      apply one_div_le_one_div_of_le (by positivity)
      linarith
    linarith
  have hl2 : 0 < Real.log 2 := Real.log_pos (by norm_num)
  have h4 : 1 / 2 ^ (k + 1) ≤ Real.logb 2 (1 + 1 / 2 ^ k) := by
    unfold Real.logb
    rw [le_div_iff₀ hl2]
    have h5 : (0 : ℝ) ≤ 1 / 2 ^ (k + 1) := by positivity
    nlinarith [log_two_lt_one]
  linarith

theorem isDouble_near {k : Nat} (hk : k ≤ 46) {z : ℤ} (hz : |z| ≤ 1) : IsDouble ((k : ℝ) + z / 2 ^ 46) := by
  have h := isDouble_of_le (m := (k : ℤ) * 2 ^ 46 + z) (e := -46) (by
    have h1 := abs_le.mp hz
    rw [abs_le]
    constructor <;> omega) (by norm_num)
  have : (((k : ℤ) * 2 ^ 46 + z : ℤ) : ℝ) * (2 : ℝ) ^ (-46 : ℤ) = (k : ℝ) + z / 2 ^ 46 := by
    push_cast
    rw [zpow_neg]
    norm_num
    ring
  rwa [this] at h

theorem log2_floor (hfl : IsRounding fl) (hlg : IsLog2 lg) {n : Nat} (h0 : 0 < n) (h : n < 2 ^ 46) : ⌊lg (fl n)⌋ = (n.log2 : Int) := by
  rw [hfl.nat (by omega)]
  have hd : IsDouble (n : ℝ) := isDouble_nat (by omega)
  have hpos : (0 : ℝ) < (n : ℝ) := by exact_mod_cast h0
  rw [Nat.log2_eq_log_two]
  have hlo : 2 ^ Nat.log 2 n ≤ n := Nat.pow_log_le_self 2 h0.ne'
  have hhi : n < 2 ^ (Nat.log 2 n + 1) := Nat.lt_pow_succ_log_self (by norm_num) n
  have hk : Nat.log 2 n + 1 ≤ 46 := by
    by_contra hc
    have : 2 ^ 46 ≤ 2 ^ Nat.log 2 n := Nat.pow_le_pow_right (by norm_num) (by omega)
    omega
  rw [Int.floor_eq_iff]
  constructor
  · push_cast
    apply hlg.above _ _ hd hpos (isDouble_nat (by omega))
    rw [← logb_two_pow]
    exact Real.logb_le_logb_of_le (by norm_num) (by positivity) (by exact_mod_cast hlo)
  · have h1 := logb_pred_le h0 hhi
    have h2 : (1 : ℝ) / 2 ^ 46 ≤ 1 / 2 ^ (Nat.log 2 n + 1) :=
      one_div_le_one_div_of_le (by positivity) (pow_le_pow_right₀ (by norm_num) hk)
    have h3 := hlg.below _ _ hd hpos (isDouble_near hk (z := -1) (by norm_num)) (by
      push_cast at h1 ⊢
      have : (-1 : ℝ) / 2 ^ 46 = - (1 / 2 ^ 46) := by ring
      linarith)
    push_cast at h3 ⊢
    have : (-1 : ℝ) / 2 ^ 46 < 0 := by norm_num
    linarith

theorem log2_ceil (hfl : IsRounding fl) (hlg : IsLog2 lg) {n : Nat} (h0 : 0 < n) (h : n ≤ 2 ^ 45) : ⌈lg (fl n)⌉ = (Nat.clog 2 n : Int) := by
  rw [hfl.nat (by omega)]
  have hd : IsDouble (n : ℝ) := isDouble_nat (by omega)
  have hpos : (0 : ℝ) < (n : ℝ) := by exact_mod_cast h0
  have hhi : n ≤ 2 ^ Nat.clog 2 n := Nat.le_pow_clog (by norm_num) n
  have hk : Nat.clog 2 n ≤ 45 := (Nat.clog_le_iff_le_pow (by norm_num)).mpr h
  rw [Int.ceil_eq_iff]
  constructor
  · rcases Nat.eq_zero_or_pos (Nat.clog 2 n) with hz | hz
    · have h1 : (0 : ℝ) ≤ lg n := by
        apply hlg.above _ _ hd hpos (by simpa using isDouble_nat (n := 0) (by norm_num))
        exact Real.logb_nonneg (by norm_num) (by exact_mod_cast h0)
      rw [hz]
      push_cast
      linarith
    · obtain ⟨k, hk'⟩ : ∃ k, Nat.clog 2 n = k + 1 := ⟨Nat.clog 2 n - 1, by omega⟩
      have hlt : 2 ^ k < n := by
        by_contra hc
        have := (Nat.clog_le_iff_le_pow (b := 2) (by norm_num)).mpr (not_lt.mp hc)
        omega
      have h1 := le_logb_succ hlt
      have h2 : (1 : ℝ) / 2 ^ 46 ≤ 1 / 2 ^ (k + 1) :=
        one_div_le_one_div_of_le (by positivity) (pow_le_pow_right₀ (by norm_num) (by omega))
      have h3 := hlg.above _ _ hd hpos (isDouble_near (k := k) (by omega) (z := 1) (by norm_num)) (by
        push_cast; linarith)
      rw [hk']
      push_cast at h3 ⊢
      have : (0 : ℝ) < 1 / 2 ^ 46 := by norm_num
      linarith
  · push_cast
    apply hlg.below _ _ hd hpos (isDouble_nat (by omega))
    rw [← logb_two_pow (Nat.clog 2 n)]
    exact Real.logb_le_logb_of_le (by norm_num) hpos (by exact_mod_cast hhi)

theorem sqrt_floor (hfl : IsRounding fl) {n : Nat} (h : n < 2 ^ 52) : ⌊fl (Real.sqrt (fl n))⌋ = (n.sqrt : Int) := by
  rw [hfl.nat (by omega)]
  have hlo : n.sqrt * n.sqrt ≤ n := Nat.sqrt_le n
  have hhi : n < (n.sqrt + 1) * (n.sqrt + 1) := Nat.lt_succ_sqrt n
  have hs : n.sqrt < 2 ^ 26 := Nat.sqrt_lt.mpr (by omega)
  rw [Int.floor_eq_iff]
  constructor
  · push_cast
    have h1 : ((n.sqrt : Nat) : ℝ) ≤ Real.sqrt n := by
      apply Real.le_sqrt_of_sq_le
      rw [sq]
      exact_mod_cast hlo
    have h2 := hfl.mono h1
    rwa [hfl.nat (by omega)] at h2
  · have hd : IsDouble (((n.sqrt : ℝ) + 1) - 1 / 2 ^ 27) := by
      have h := isDouble_of_le (m := ((n.sqrt : ℤ) + 1) * 2 ^ 27 - 1) (e := -27) (by
        rw [abs_le]
        constructor <;> omega) (by norm_num)
      have : (((n.sqrt : ℤ) + 1) * 2 ^ 27 - 1 : ℤ) * (2 : ℝ) ^ (-27 : ℤ) = ((n.sqrt : ℝ) + 1) - 1 / 2 ^ 27 := by
        push_cast
        rw [zpow_neg]
        norm_num
        ring
      rwa [this] at h
    have hs' : (n.sqrt : ℝ) + 1 ≤ 2 ^ 26 := by exact_mod_cast hs
    have hle : Real.sqrt n ≤ ((n.sqrt : ℝ) + 1) - 1 / 2 ^ 27 := by
      have hs0 : (0 : ℝ) ≤ (n.sqrt : ℝ) := Nat.cast_nonneg _
      apply Real.sqrt_le_iff.mpr
      have hn : (n : ℝ) + 1 ≤ ((n.sqrt : ℝ) + 1) * ((n.sqrt : ℝ) + 1) := by exact_mod_cast hhi
      constructor
      · have : (1 : ℝ) / 2 ^ 27 ≤ 1 := by norm_num
        linarith
      · have h3 : ((n.sqrt : ℝ) + 1) / 2 ^ 26 ≤ 1 := by
          rw [div_le_one (by norm_num)]; exact hs'
        have h4 : (((n.sqrt : ℝ) + 1) - 1 / 2 ^ 27) ^ 2 =
            ((n.sqrt : ℝ) + 1) * ((n.sqrt : ℝ) + 1) - ((n.sqrt : ℝ) + 1) / 2 ^ 26 + (1 / 2 ^ 27) ^ 2 := by ring
        rw [h4]
        have : (0 : ℝ) ≤ (1 / 2 ^ 27) ^ 2 := by norm_num
        linarith
    have h2 := hfl.mono hle
    rw [hfl.of_double hd] at h2
    push_cast
    have : (0 : ℝ) < 1 / 2 ^ 27 := by norm_num
    linarith

/-- **C135** for `nn_descent` and `nn_descent_full`: with fewer than `2 ^ 46` items, the default number of neighbours is the integer part of the exact logarithm. -/
theorem nn_descent_default_float (hfl : IsRounding fl) (hlg : IsLog2 lg) {N : Nat} (hN : N < 2 ^ 46) (k : Option Nat) :
    NnDescentFloat.chooseK fl lg N k = NnDescent.chooseK N k := by
  cases k with
  | some k => rfl
  | none =>
      rcases Nat.eq_zero_or_pos N with rfl | h0
      · rfl
      · simp only [NnDescentFloat.chooseK, NnDescent.chooseK, if_neg h0.ne', log2_floor hfl hlg h0 hN, Int.toNat_natCast]

/-- So `nn_descent` is what it is with exact logarithms. -/
theorem nn_descent_float {α K : Type} [LinearOrder K] (hfl : IsRounding fl) (hlg : IsLog2 lg) (heapq : NnDescent.Heapq (NnDescent.Neighbor K Unit))
    (setOrd : List Nat → List Nat) (ord : Nat → List Nat → List Nat) (draws : Nat → Nat) {V : List α} (hV : V.length < 2 ^ 46) (radius : K)
    (similarity : α → α → K) (k : Option Nat) (min_size : Nat) (max_size : Option Nat) (mode : ClusteringUtils.Mode) (fuel : Nat) :
    NnDescentFloat.nnDescent fl lg heapq setOrd ord draws V radius similarity k min_size max_size mode fuel =
      NnDescent.nnDescent heapq setOrd ord draws V radius similarity k min_size max_size mode fuel := by
  unfold NnDescentFloat.nnDescent NnDescent.nnDescent
  rw [nn_descent_default_float hfl hlg hV]
  rfl

/-- **C135** for `laesa`: with at most `2 ^ 45` items it is what it is with exact logarithms. -/
theorem laesa_float {α K : Type} [Field K] [LinearOrder K] [DecidableEq α] (hfl : IsRounding fl) (hlg : IsLog2 lg) (start : Nat) (ord : List Nat → List Nat)
    (gord : α → List α → List α) {data : List α} (hn : data.length ≤ 2 ^ 45) (distance : α → α → K) (radius : K) (pivots : Option Nat) (min_size : Nat)
    (max_size : Option Nat) (mode : ClusteringUtils.Mode) :
    LaesaFloat.laesa fl lg start ord gord data distance radius pivots min_size max_size mode =
      Laesa.laesa start ord gord data distance radius pivots min_size max_size mode := by
  unfold LaesaFloat.laesa Laesa.laesa
  cases pivots with
  | some pivots => rfl
  | none =>
      rcases Nat.eq_zero_or_pos data.length with h0 | h0
      · simp only [LaesaFloat.choosePivots, h0, if_true]
      · simp only [LaesaFloat.choosePivots, if_neg h0.ne', log2_ceil hfl hlg h0 hn, Int.toNat_natCast]
        rfl

/-- **C135** for `sqrt_indexation_pairs`: with fewer than `2 ^ 52` vectors the number of leaders is the integer square root. -/
theorem sqrt_indexation_float {κ F : Type} [DecidableEq κ] [LinearOrder F] [Sub F] [One F] (hfl : IsRounding fl) (similarity : Nat → Nat → Py F)
    (indices : List Nat) {vectors : List (Dict κ F)} (hn : vectors.length < 2 ^ 52) :
    FaginFloat.sqrtIndexationPairs fl similarity indices vectors = Fagin.sqrtIndexationPairs similarity indices vectors := by
  unfold FaginFloat.sqrtIndexationPairs Fagin.sqrtIndexationPairs FaginFloat.leadersCount
  rw [sqrt_floor hfl hn, Int.toNat_natCast]

/-- The hypotheses can be met: the rounded logarithm. -/
theorem rounded_log2 (hfl : IsRounding fl) : IsLog2 fun x => fl (Real.logb 2 x) where
  double _ _ _ := hfl.double _
  above _ z _ _ hz h := by have := hfl.mono h; rwa [hfl.of_double hz] at this
  below _ z _ _ hz h := by have := hfl.mono h; rwa [hfl.of_double hz] at this

-- A thousand items: nine neighbours, ten pivots, thirty-one leaders.
example : ∃ fl lg : ℝ → ℝ, IsRounding fl ∧ IsLog2 lg ∧ NnDescentFloat.chooseK fl lg 1000 none = .ok 9 ∧
    LaesaFloat.choosePivots fl lg 1000 none = .ok 10 ∧ FaginFloat.leadersCount fl 1000 = 31 := by
  obtain ⟨fl, hfl⟩ := exists_rounding
  have h1 : Nat.log2 1000 = 9 := by decide +kernel
  have h2 : Nat.clog 2 1000 = 10 := by decide +kernel
  have h3 : Nat.sqrt 1000 = 31 := by decide +kernel
  have hlg := rounded_log2 hfl
  refine ⟨fl, _, hfl, hlg, ?_, ?_, ?_⟩
  · rw [nn_descent_default_float hfl hlg (by norm_num)]
    simp only [NnDescent.chooseK, h1]
    rfl
  · have := log2_ceil hfl hlg (n := 1000) (by norm_num) (by norm_num)
    simp only [LaesaFloat.choosePivots, this, h2]
    rfl
  · have := sqrt_floor hfl (n := 1000) (by norm_num)
    simp only [FaginFloat.leadersCount, this, h3]
    rfl

end Fog.Props
