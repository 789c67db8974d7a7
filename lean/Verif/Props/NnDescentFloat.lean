import Verif.Props.DefaultsFloat
import Mathlib.Data.Rat.Floor

/-!
# C137: `nn_descent_full` in double precision
-/

namespace Fog.Props

open Spec NnDescent

variable {fl lg : ℝ → ℝ}

/-- The double nearest to `0.001`. -/
theorem fl_thousandth (hfl : IsRounding fl) : fl (1 / 1000) = 1152921504606847 / 2 ^ 60 := by
  have := hfl.eq_of_near (x := 1 / 1000) (n := 1152921504606847 * 4) (k := -62) (by norm_num) (by norm_num) (by norm_num) (by
    rw [abs_lt]; constructor <;> norm_num)
  rw [this]
  norm_num

/-- An integer which is multiplied by a number slightly above one is given back. -/
theorem fl_integer_up (hfl : IsRounding fl) {c : Nat} (hc : c ≤ 2 ^ 53) : fl (c * (1 + 24 / 2 ^ 60)) = c := by
  rcases Nat.eq_zero_or_pos c with rfl | h0
  · simp [hfl.zero]
  rcases Nat.lt_or_ge c (2 ^ 53) with hlt | hge
  · obtain ⟨k, hk1, hk2⟩ : ∃ k, 2 ^ k ≤ c ∧ c < 2 ^ (k + 1) :=
      ⟨Nat.log 2 c, Nat.pow_log_le_self 2 (by omega), Nat.lt_pow_succ_log_self (by norm_num) c⟩
    have hk : k ≤ 52 := by
      by_contra h
      have : 2 ^ 53 ≤ 2 ^ k := Nat.pow_le_pow_right (by norm_num) (by omega)
      omega
    have hk1' : (2 : ℝ) ^ k ≤ c := by exact_mod_cast hk1
    have hk2' : (c : ℝ) < 2 ^ k * 2 := by rw [← pow_succ]; exact_mod_cast hk2
    have hpow : (2 : ℝ) ^ ((k : ℤ) - 52) = 2 ^ k / 2 ^ 52 := by
      rw [zpow_sub₀ two_ne_zero]; norm_cast
    have hmul : ((2 : ℝ) ^ (52 - k)) * (2 ^ k / 2 ^ 52) = 1 := by
      rw [← mul_div_assoc, ← pow_add, Nat.sub_add_cancel hk, div_self (by positivity)]
    have hval : (((c * 2 ^ (52 - k) : Nat) : ℤ) : ℝ) * (2 : ℝ) ^ ((k : ℤ) - 52) = c := by
      rw [hpow]; push_cast; rw [mul_assoc, hmul, mul_one]
    have := hfl.eq_of_near (x := c * (1 + 24 / 2 ^ 60)) (n := ((c * 2 ^ (52 - k) : Nat) : ℤ)) (k := (k : ℤ) - 52) (by omega) (by
        rw [show (52 : ℤ) + ((k : ℤ) - 52) = (k : ℤ) by ring, zpow_natCast]
        nlinarith [show (0 : ℝ) ≤ c from Nat.cast_nonneg c]) (by
        rw [Nat.abs_cast]
        have h1 : c * 2 ^ (52 - k) ≤ 2 ^ (k + 1) * 2 ^ (52 - k) := Nat.mul_le_mul_right _ hk2.le
        rw [← pow_add, show k + 1 + (52 - k) = 53 by omega] at h1
        exact_mod_cast h1) (by
        rw [hval, hpow, show (c : ℝ) * (1 + 24 / 2 ^ 60) - c = c * (24 / 2 ^ 60) by ring, abs_of_nonneg (by positivity)]
        have h3 : (0 : ℝ) < 2 ^ k := by positivity
        norm_num
        linarith)
    rw [this, hval]
  · have hce : c = 2 ^ 53 := le_antisymm hc hge
    subst hce
    have := hfl.eq_of_near (x := ((2 ^ 53 : Nat) : ℝ) * (1 + 24 / 2 ^ 60)) (n := 2 ^ 52) (k := 1) (by norm_num) (by norm_num) (by norm_num)
      (by rw [abs_lt]; constructor <;> norm_num)
    rw [this]
    norm_num

/-- With the default `delta`, the loop goes on as with exact numbers. -/
theorem goesOn_default (hfl : IsRounding fl) {NK : Nat} (hNK : NK ≤ 2 ^ 52) (c : Nat) :
    NnDescentFloat.goesOn fl (fl (1 / 1000)) NK c = decide ((c : Rat) ≥ 1 / 1000 * (NK : Rat)) := by
  have hexact : (c : Rat) ≥ 1 / 1000 * (NK : Rat) ↔ NK ≤ 1000 * c := by
    rw [ge_iff_le, div_mul_eq_mul_div, one_mul, div_le_iff₀ (by norm_num)]
    constructor
    · intro h
      have : (NK : Rat) ≤ ((1000 * c : Nat) : Rat) := by push_cast; linarith
      exact_mod_cast this
    · intro h
      have : (NK : Rat) ≤ ((1000 * c : Nat) : Rat) := by exact_mod_cast h
      push_cast at this; linarith
  unfold NnDescentFloat.goesOn
  rw [decide_eq_decide, hexact, hfl.nat (hNK.trans (by norm_num)), fl_thousandth hfl, ge_iff_le]
  have hx : (1152921504606847 : ℝ) / 2 ^ 60 * NK = NK / 1000 * (1 + 24 / 2 ^ 60) := by ring
  constructor
  · intro h
    by_contra hlt
    rw [not_le] at hlt
    have hd : IsDouble ((c : ℝ) + 1 / 1024) := by
      have := isDouble_of_le (m := 1024 * c + 1) (e := -10) (by
        rw [abs_of_nonneg (by positivity)]
        have : (1000 * c : ℤ) < 2 ^ 52 := by exact_mod_cast hlt.trans_le hNK
        omega) (by norm_num)
      have he : (c : ℝ) + 1 / 1024 = ((1024 * c + 1 : ℤ) : ℝ) * (2 : ℝ) ^ (-10 : ℤ) := by push_cast; norm_num; ring
      rw [he]; exact this
    have hle : (c : ℝ) + 1 / 1024 ≤ 1152921504606847 / 2 ^ 60 * NK := by
      rw [hx]
      have h1 : (1000 : ℝ) * c + 1 ≤ NK := by exact_mod_cast hlt
      have h2 : (0 : ℝ) ≤ c := Nat.cast_nonneg c
      nlinarith
    have h3 := hfl.mono hle
    rw [hfl.of_double hd] at h3
    linarith
  · intro h
    have h1 : (NK : ℝ) ≤ 1000 * c := by exact_mod_cast h
    rcases Nat.lt_or_ge (2 ^ 53) c with hc | hc
    · have h2 : (1152921504606847 : ℝ) / 2 ^ 60 * NK ≤ (NK : ℝ) := by
        have : (0 : ℝ) ≤ NK := Nat.cast_nonneg NK
        nlinarith
      have h3 := hfl.mono h2
      rw [hfl.nat (hNK.trans (by norm_num))] at h3
      have h4 : (NK : ℝ) ≤ c := by exact_mod_cast hNK.trans ((by norm_num : 2 ^ 52 ≤ 2 ^ 53).trans hc.le)
      linarith
    · have h2 : (1152921504606847 : ℝ) / 2 ^ 60 * NK ≤ c * (1 + 24 / 2 ^ 60) := by
        rw [hx]
        apply mul_le_mul_of_nonneg_right _ (by norm_num)
        linarith
      have h3 := hfl.mono h2
      rwa [fl_integer_up hfl hc] at h3

/-- With the default `rho`, half of the neighbours are sampled, as with exact numbers. -/
theorem rhoK_default (hfl : IsRounding fl) {k : Nat} (hk : k ≤ 2 ^ 53) :
    NnDescentFloat.rhoK fl (1 / 2) k = ((1 / 2 : Rat) * k).floor.toNat := by
  have hd : IsDouble (1 / 2 * (k : ℝ)) := by
    have := isDouble_of_le (m := k) (e := -1) (by rw [Nat.abs_cast]; exact_mod_cast hk) (by norm_num)
    have he : 1 / 2 * (k : ℝ) = ((k : ℤ) : ℝ) * (2 : ℝ) ^ (-1 : ℤ) := by push_cast; norm_num; ring
    rw [he]; exact this
  unfold NnDescentFloat.rhoK
  rw [hfl.nat hk, hfl.of_double hd]
  congr 1
  have h1 : (1 / 2 * (k : ℝ)) = (((1 / 2 * (k : Rat)) : Rat) : ℝ) := by push_cast; rfl
  rw [h1, Rat.floor_cast]
  rfl

/-- **C137**: with the default `rho` and `delta`, fewer than `2 ^ 46` items and at most `2 ^ 52` neighbours in all, `nn_descent_full` is what it is
with exact numbers. -/
theorem nn_descent_full_float {α K : Type} [LinearOrder K] (hfl : IsRounding fl) (hlg : IsLog2 lg) (heapq : Heapq (Neighbor K Bool))
    (setOrd : List Nat → List Nat) (ord : Nat → List Nat → List Nat) (draws : Nat → Nat) {V : List α} (hV : V.length < 2 ^ 46) (radius : K)
    (similarity : α → α → K) (k : Option Nat) (hk : ∀ n, k = some n → n ≤ 2 ^ 52 ∧ V.length * n ≤ 2 ^ 52) (min_size : Nat) (max_size : Option Nat)
    (mode : ClusteringUtils.Mode) (fuel : Nat) :
    NnDescentFloat.nnDescentFull fl lg heapq setOrd ord draws V radius similarity k min_size max_size mode (1 / 2) (fl (1 / 1000)) fuel =
      NnDescent.nnDescentFull heapq setOrd ord draws V radius similarity k min_size max_size mode (1 / 2) (1 / 1000) fuel := by
  unfold NnDescentFloat.nnDescentFull NnDescent.nnDescentFull
  rw [nn_descent_default_float hfl hlg hV]
  cases hc : NnDescent.chooseK V.length k with
  | error e => rfl
  | ok n =>
      have hn : n ≤ 2 ^ 52 ∧ V.length * n ≤ 2 ^ 52 := by
        cases k with
        | some k =>
            have : k = n := by simpa [NnDescent.chooseK] using hc
            exact hk n (by rw [this])
        | none =>
            simp only [NnDescent.chooseK] at hc
            by_cases hz : V.length = 0
            · rw [if_pos hz] at hc; cases hc
            · rw [if_neg hz] at hc
              have h1 : Nat.log2 V.length = n := by injection hc
              have h2 : n < 46 := by rw [← h1]; exact (Nat.log2_lt (by omega)).mpr hV
              refine ⟨by omega, ?_⟩
              calc V.length * n ≤ 2 ^ 46 * 46 := Nat.mul_le_mul hV.le h2.le
                _ ≤ 2 ^ 52 := by norm_num
      have h1 := rhoK_default hfl (hn.1.trans (by norm_num : 2 ^ 52 ≤ 2 ^ 53))
      have h2 : NnDescentFloat.goesOn fl (fl (1 / 1000)) (V.length * n) =
          fun c : Nat => decide ((c : Rat) ≥ 1 / 1000 * ((V.length * n : Nat) : Rat)) := funext fun c => goesOn_default hfl hn.2 c
      simp only [bind, Except.bind, h1, h2]
      rfl

/-- Other parameters are off by a rounding: some exact parameters, with a `delta` of the same sign, give the same result. -/
theorem nn_descent_full_float_any {α K : Type} [LinearOrder K] (hfl : IsRounding fl) (hlg : IsLog2 lg) (heapq : Heapq (Neighbor K Bool))
    (setOrd : List Nat → List Nat) (ord : Nat → List Nat → List Nat) (draws : Nat → Nat) {V : List α} (hV : V.length < 2 ^ 46) (radius : K)
    (similarity : α → α → K) (k : Option Nat) (min_size : Nat) (max_size : Option Nat) (mode : ClusteringUtils.Mode) (rho : ℝ) {delta : ℝ}
    (hd : IsDouble delta) :
    ∃ rho' delta' : Rat, 0 ≤ rho' ∧ (0 < delta' ↔ 0 < delta) ∧ ∀ fuel,
      NnDescentFloat.nnDescentFull fl lg heapq setOrd ord draws V radius similarity k min_size max_size mode rho delta fuel =
        NnDescent.nnDescentFull heapq setOrd ord draws V radius similarity k min_size max_size mode rho' delta' fuel := by
  unfold NnDescentFloat.nnDescentFull NnDescent.nnDescentFull
  rw [nn_descent_default_float hfl hlg hV]
  have hsign : ∃ d : Rat, 0 < d ↔ 0 < delta := by
    by_cases h : 0 < delta
    · exact ⟨1, by simpa using h⟩
    · exact ⟨0, by simpa using h⟩
  cases hc : NnDescent.chooseK V.length k with
  | error e =>
      obtain ⟨d, hd⟩ := hsign
      exact ⟨0, d, le_refl _, hd, fun fuel => rfl⟩
  | ok n =>
      obtain ⟨rho', h0, h1⟩ : ∃ rho' : Rat, 0 ≤ rho' ∧ NnDescentFloat.rhoK fl rho n = (rho' * n).floor.toNat := by
        rcases Nat.eq_zero_or_pos n with rfl | hn
        · refine ⟨0, le_refl _, ?_⟩
          simp only [NnDescentFloat.rhoK, Nat.cast_zero, hfl.zero, mul_zero, Int.floor_zero]
          rfl
        · refine ⟨(NnDescentFloat.rhoK fl rho n : Rat) / n, by positivity, ?_⟩
          rw [div_mul_cancel₀ _ (by exact_mod_cast hn.ne')]
          have : ((NnDescentFloat.rhoK fl rho n : Rat)).floor = (NnDescentFloat.rhoK fl rho n : ℤ) := Rat.floor_intCast _
          rw [this, Int.toNat_natCast]
      obtain ⟨delta', hs, h2⟩ : ∃ delta' : Rat, (0 < delta' ↔ 0 < delta) ∧ NnDescentFloat.goesOn fl delta (V.length * n) =
          fun c : Nat => decide ((c : Rat) ≥ delta' * ((V.length * n : Nat) : Rat)) := by
        rcases Nat.eq_zero_or_pos (V.length * n) with hz | hp
        · obtain ⟨d, hd⟩ := hsign
          refine ⟨d, hd, funext fun c => ?_⟩
          unfold NnDescentFloat.goesOn
          rw [hz, decide_eq_decide]
          simp [hfl.zero]
        · have hp' : (0 : Rat) < ((V.length * n : Nat) : Rat) := by exact_mod_cast hp
          have hone : (1 : ℝ) ≤ fl ((V.length * n : Nat) : ℝ) := by
            have := hfl.mono (x := 1) (y := ((V.length * n : Nat) : ℝ)) (by exact_mod_cast hp)
            rwa [hfl.one] at this
          refine ⟨(⌈fl (delta * fl ((V.length * n : Nat) : ℝ))⌉ : Rat) / ((V.length * n : Nat) : Rat), ?_, funext fun c => ?_⟩
          · rw [div_pos_iff_of_pos_right hp', Int.cast_pos, Int.ceil_pos]
            constructor
            · intro h
              by_contra hn
              rw [not_lt] at hn
              have := hfl.mono (x := delta * fl ((V.length * n : Nat) : ℝ)) (y := 0) (by nlinarith)
              rw [hfl.zero] at this
              linarith
            · intro h
              have := hfl.mono (x := delta) (y := delta * fl ((V.length * n : Nat) : ℝ)) (by nlinarith)
              rw [hfl.of_double hd] at this
              linarith
          · unfold NnDescentFloat.goesOn
            rw [decide_eq_decide, div_mul_cancel₀ _ hp'.ne', ge_iff_le, ge_iff_le]
            have h3 : (c : ℝ) = ((c : ℤ) : ℝ) := by push_cast; rfl
            have h4 : (c : Rat) = ((c : ℤ) : Rat) := by push_cast; rfl
            rw [h3, ← Int.ceil_le, h4, Int.cast_le]
      refine ⟨rho', delta', h0, hs, fun fuel => ?_⟩
      simp only [bind, Except.bind, h1, h2]
      rfl

/-- With `rho` equal to 0.29 and a hundred neighbours, twenty-eight are sampled, not twenty-nine: `0.29 * 100` is below 29. -/
theorem nn_descent_full_float_rho (hfl : IsRounding fl) :
    NnDescentFloat.rhoK fl (fl (29 / 100)) 100 = 28 ∧ ((29 / 100 : Rat) * (100 : Nat)).floor.toNat = 29 := by
  have h1 : fl (29 / 100) = 5224175567749775 / 2 ^ 54 := by
    have := hfl.eq_of_near (x := 29 / 100) (n := 5224175567749775) (k := -54) (by norm_num) (by norm_num) (by norm_num) (by
      rw [abs_lt]; constructor <;> norm_num)
    rw [this]; norm_num
  have h2 : fl (5224175567749775 / 2 ^ 54 * 100) = 29 - 1 / 2 ^ 48 := by
    have := hfl.eq_of_near (x := 5224175567749775 / 2 ^ 54 * 100) (n := 29 * 2 ^ 48 - 1) (k := -48) (by norm_num) (by norm_num) (by norm_num) (by
      rw [abs_lt]; constructor <;> norm_num)
    rw [this]; norm_num
  constructor
  · unfold NnDescentFloat.rhoK
    rw [hfl.nat (n := 100) (by norm_num), h1]
    push_cast
    rw [h2]
    have : ⌊(29 : ℝ) - 1 / 2 ^ 48⌋ = 28 := by rw [Int.floor_eq_iff]; constructor <;> norm_num
    rw [this]; rfl
  · norm_num
    rfl

-- A thousand items with nine neighbours each: the loop goes on with nine replacements, stops with eight.
example : ∃ fl, IsRounding fl ∧ NnDescentFloat.goesOn fl (fl (1 / 1000)) 9000 9 = true ∧ NnDescentFloat.goesOn fl (fl (1 / 1000)) 9000 8 = false ∧
    NnDescentFloat.rhoK fl (1 / 2) 9 = 4 := by
  obtain ⟨fl, hfl⟩ := exists_rounding
  refine ⟨fl, hfl, ?_, ?_, ?_⟩
  · rw [goesOn_default hfl (by norm_num)]; norm_num
  · rw [goesOn_default hfl (by norm_num)]; norm_num
  · rw [rhoK_default hfl (by norm_num)]; decide +kernel

end Fog.Props
