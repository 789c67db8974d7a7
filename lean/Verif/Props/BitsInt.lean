import Verif.Props.Bits
import Verif.Model.LshUtilsInt
import Mathlib.Tactic.Ring
import Mathlib.Tactic.Positivity
import Mathlib.Tactic.NormNum

/-!
# C138: population counts and powers of two on integers of any sign and size
-/

namespace Fog.Props

open LshUtils Spec

/-- The `w` lowest bits of an integer, as a natural number. -/
def low (w : Nat) (x : Int) : Nat := (x % 2 ^ w).toNat

theorem low_lt (w : Nat) (x : Int) : low w x < 2 ^ w := by
  have h1 := Int.emod_lt_of_pos x (show (0 : Int) < 2 ^ w by positivity)
  have h2 := Int.emod_nonneg x (show (2 : Int) ^ w ≠ 0 by positivity)
  unfold low
  have : ((x % 2 ^ w).toNat : Int) < ((2 ^ w : Nat) : Int) := by push_cast; omega
  exact_mod_cast this

theorem low_cast (w : Nat) (x : Int) : (low w x : Int) = x % 2 ^ w :=
  Int.toNat_of_nonneg (Int.emod_nonneg x (by positivity))

theorem low_of_nat {w n : Nat} : low w n = n % 2 ^ w := by
  unfold low
  have : ((n : Int) % 2 ^ w) = ((n % 2 ^ w : Nat) : Int) := by push_cast; rfl
  rw [this, Int.toNat_natCast]

theorem low_of_negSucc {w n : Nat} : low w (Int.negSucc n) = 2 ^ w - (n % 2 ^ w + 1) := by
  have hlt : n % 2 ^ w < 2 ^ w := Nat.mod_lt _ (by positivity)
  have : (low w (Int.negSucc n) : Int) = ((2 ^ w - (n % 2 ^ w + 1) : Nat) : Int) := by
    rw [low_cast, Int.negSucc_emod _ (by positivity)]
    rw [Nat.cast_sub (by omega)]
    push_cast
    ring
  exact_mod_cast this

theorem land_mask {w m : Nat} (hm : m < 2 ^ w) (x : Int) : Int.land x m = ((low w x &&& m : Nat) : Int) := by
  cases x with
  | ofNat n =>
      rw [Int.ofNat_eq_natCast, low_of_nat]
      show ((n &&& m : Nat) : Int) = _
      congr 1
      apply Nat.eq_of_testBit_eq
      intro i
      simp only [Nat.testBit_and, Nat.testBit_mod_two_pow]
      by_cases hi : i < w
      · simp [hi]
      · rw [Nat.testBit_lt_two_pow (lt_of_lt_of_le hm (Nat.pow_le_pow_right (by omega) (by omega)))]
        simp
  | negSucc n =>
      rw [low_of_negSucc]
      show ((Nat.ldiff m n : Nat) : Int) = _
      congr 1
      apply Nat.eq_of_testBit_eq
      intro i
      rw [Nat.testBit_ldiff, Nat.testBit_and, Nat.testBit_two_pow_sub_succ (Nat.mod_lt _ (by positivity)), Nat.testBit_mod_two_pow]
      by_cases hi : i < w
      · simp [hi, Bool.and_comm]
      · rw [Nat.testBit_lt_two_pow (lt_of_lt_of_le hm (Nat.pow_le_pow_right (by omega) (by omega)))]
        simp

theorem emod_mul_ediv (x : Int) {a b : Int} (ha : 0 < a) : x % (a * b) / a = x / a % b := by
  have h1 : x % (a * b) = x + a * (-(b * (x / (a * b)))) := by
    rw [Int.emod_def]; ring
  rw [h1, Int.add_mul_ediv_left _ _ ha.ne', Int.emod_def, Int.ediv_ediv_of_nonneg ha.le]
  ring

theorem bitCount_low (w : Nat) (x : Int) : bitCount w (low w x) = intBitCount w x := by
  unfold bitCount intBitCount
  apply List.countP_congr
  intro i hi
  have hi : i < w := List.mem_range.mp hi
  rw [Nat.testBit_eq_decide_div_mod_eq, decide_eq_true_iff, decide_eq_true_iff]
  have h1 : ((low w x / 2 ^ i % 2 : Nat) : Int) = x / 2 ^ i % 2 := by
    push_cast
    rw [low_cast]
    obtain ⟨d, rfl⟩ : ∃ d, w = i + (d + 1) := ⟨w - i - 1, by omega⟩
    rw [pow_add, emod_mul_ediv _ (by positivity), pow_succ, Int.emod_emod_of_dvd _ (Dvd.intro_left _ rfl)]
  constructor
  · intro h
    rw [← h1, h]; rfl
  · intro h
    rw [← h1] at h
    exact_mod_cast h

/-- **C138**: `popcount` gives the number of one bits of the absolute value. -/
theorem popcount_int {w : Nat} {x : Int} (h : x.natAbs < 2 ^ w) : LshUtilsInt.popcount x = bitCount w x.natAbs := by
  rw [← popcount_eq h]
  unfold LshUtilsInt.popcount LshUtilsInt.bin popcount
  split <;> simp

/-- **C138**: `popcount16` counts the one bits among the 16 lowest ones. -/
theorem popcount16_int (x : Int) : LshUtilsInt.popcount16 x = intBitCount 16 x := by
  rw [← bitCount_low, ← popcount16_eq (low_lt 16 x)]
  unfold LshUtilsInt.popcount16 popcount16
  rw [show (0xFFFF : Int) = ((0xFFFF : Nat) : Int) from rfl, land_mask (w := 16) (by norm_num), Int.toNat_natCast]

theorem low_shift (w k : Nat) (x : Int) : low w (x >>> k) = low (k + w) x >>> k := by
  have : (low w (x >>> k) : Int) = ((low (k + w) x >>> k : Nat) : Int) := by
    rw [low_cast, Int.shiftRight_eq_div_pow, Nat.shiftRight_eq_div_pow]
    push_cast
    rw [low_cast, pow_add, emod_mul_ediv _ (by positivity)]
  exact_mod_cast this

/-- **C138**: `popcount32` counts the one bits among the 32 lowest ones. -/
theorem popcount32_int (x : Int) : LshUtilsInt.popcount32 x = intBitCount 32 x := by
  rw [← bitCount_low, ← popcount32_eq (low_lt 32 x)]
  unfold LshUtilsInt.popcount32 popcount32
  rw [show (0xFFFF : Int) = ((0xFFFF : Nat) : Int) from rfl, land_mask (w := 32) (x := x) (by norm_num), Int.toNat_natCast,
    land_mask (w := 16) (by norm_num), Int.toNat_natCast, low_shift]

theorem low_idem (w n : Nat) (h : n < 2 ^ w) : low w n = n := by
  rw [low_of_nat, Nat.mod_eq_of_lt h]

/-- **C138**: `popcount64` counts the one bits among the 64 lowest ones. -/
theorem popcount64_int (x : Int) : LshUtilsInt.popcount64 x = intBitCount 64 x := by
  rw [← bitCount_low, ← popcount64_eq (low_lt 64 x)]
  unfold LshUtilsInt.popcount64 popcount64
  have e1 : Int.land (x >>> (1 : Nat)) 0x5555555555555555 = ((low 64 x >>> 1 &&& 0x5555555555555555 : Nat) : Int) := by
    have := land_mask (w := 63) (m := 0x5555555555555555) (by norm_num) (x >>> (1 : Nat))
    rw [low_shift] at this
    exact this
  have hle : low 64 x >>> 1 &&& 0x5555555555555555 ≤ low 64 x := by
    refine Nat.and_le_left.trans ?_
    rw [Nat.shiftRight_eq_div_pow]
    exact Nat.div_le_self _ _
  simp only
  rw [e1]
  generalize hy : low 64 x >>> 1 &&& 0x5555555555555555 = y at hle
  have e2 : low 64 (x - y) = low 64 x - y := by
    have : (low 64 (x - y) : Int) = ((low 64 x - y : Nat) : Int) := by
      rw [Nat.cast_sub hle, low_cast, low_cast]
      have h1 : (y : Int) ≤ x % 2 ^ 64 := by rw [← low_cast]; exact_mod_cast hle
      omega
    exact_mod_cast this
  have e3 : Int.land (x - y) 0x3333333333333333 + Int.land ((x - y) >>> (2 : Nat)) 0x3333333333333333 =
      (((low 64 x - y) &&& 0x3333333333333333) + ((low 64 x - y) >>> 2 &&& 0x3333333333333333) : Nat) := by
    have h1 := land_mask (w := 64) (m := 0x3333333333333333) (by norm_num) (x - y)
    have h2 := land_mask (w := 62) (m := 0x3333333333333333) (by norm_num) ((x - y) >>> (2 : Nat))
    rw [low_shift] at h2
    rw [e2] at h1 h2
    push_cast at h1 h2 ⊢
    rw [h1, h2]
  rw [e3]
  rfl

/-- **C138**: on an integer of any sign, `is_power_of_two` is zero exactly on zero and powers of two. -/
theorem is_power_of_two_int (x : Int) : LshUtilsInt.isPowerOfTwo x = 0 ↔ x = 0 ∨ ∃ k : Nat, x = 2 ^ k := by
  unfold LshUtilsInt.isPowerOfTwo
  cases x with
  | ofNat n =>
      cases n with
      | zero => exact ⟨fun _ => Or.inl rfl, fun _ => by decide +kernel⟩
      | succ n =>
          have := is_power_of_two_partial (n + 1)
          have e : Int.land (Int.ofNat (n + 1)) (Int.ofNat (n + 1) - 1) = ((isPowerOfTwo (n + 1) : Nat) : Int) := by
            rw [show Int.ofNat (n + 1) - 1 = Int.ofNat n by simp]
            rfl
          rw [e, Int.natCast_eq_zero, this]
          constructor
          · rintro (h | ⟨k, hk⟩)
            · omega
            · exact Or.inr ⟨k, by rw [Int.ofNat_eq_natCast, hk]; push_cast; rfl⟩
          · rintro (h | ⟨k, hk⟩)
            · rw [Int.ofNat_eq_natCast] at h; omega
            · exact Or.inr ⟨k, by rw [Int.ofNat_eq_natCast] at hk; exact_mod_cast hk⟩
  | negSucc n =>
      have e : Int.negSucc n - 1 = Int.negSucc (n + 1) := rfl
      rw [e]
      constructor
      · intro h
        exact absurd h (by show Int.negSucc _ ≠ 0; simp)
      · rintro (h | ⟨k, hk⟩)
        · exact absurd h (by simp)
        · have : (0 : Int) < 2 ^ k := by positivity
          rw [← hk] at this
          exact absurd this (by simp)

example : intBitCount 16 (-1) = 16 ∧ LshUtilsInt.popcount (-5) = 2 ∧ intBitCount 64 (-5) = 63 ∧ LshUtilsInt.popcount64 (2 ^ 70 + 3) = 2 ∧
    LshUtilsInt.isPowerOfTwo (-8) = -16 := by decide +kernel

end Fog.Props
