import Verif.Model.Crc32
import Mathlib.Tactic.Ring

/-! # CRC-32 tells apart what differs in four consecutive bytes -/

namespace Fog.LshUtils

theorem crcStep_xor (s t : BitVec 32) : crcStep (s ^^^ t) = crcStep s ^^^ crcStep t := by
  unfold crcStep
  rw [BitVec.ushiftRight_xor_distrib, BitVec.getLsbD_xor]
  cases hs : s.getLsbD 0 <;> cases ht : t.getLsbD 0 <;> simp
  · ac_rfl
  · ac_rfl
  · have : ∀ a b c : BitVec 32, a ^^^ c ^^^ (b ^^^ c) = a ^^^ b ^^^ (c ^^^ c) := by intro a b c; ac_rfl
    rw [this]; simp

theorem crcStep_zero : crcStep 0#32 = 0#32 := by decide

theorem crcStep_eq_zero {x : BitVec 32} (h : crcStep x = 0#32) : x = 0#32 := by
  have hb : x.getLsbD 0 = false := by
    by_contra hc
    rw [Bool.not_eq_false] at hc
    unfold crcStep at h
    rw [if_pos hc] at h
    have := congrArg (fun z => BitVec.getLsbD z 31) h
    simp at this
  unfold crcStep at h
  rw [hb] at h
  simp only [Bool.false_eq_true, if_false, BitVec.xor_zero] at h
  apply BitVec.eq_of_getLsbD_eq
  intro i hi
  rcases Nat.eq_zero_or_pos i with rfl | hp
  · simpa using hb
  · have := congrArg (fun z => BitVec.getLsbD z (i - 1)) h
    simp only [BitVec.getLsbD_ushiftRight, BitVec.getLsbD_zero] at this
    rw [show 1 + (i - 1) = i by omega] at this
    simpa using this

theorem crcStep_injective : Function.Injective crcStep := by
  intro s t h
  have h1 : crcStep (s ^^^ t) = 0#32 := by rw [crcStep_xor, h, BitVec.xor_self]
  have h2 := crcStep_eq_zero h1
  have h3 : s ^^^ t = t ^^^ t := by rw [h2, BitVec.xor_self]
  exact (BitVec.xor_left_inj t).mp h3

theorem crcStep_iterate_xor (n : Nat) (s t : BitVec 32) : crcStep^[n] (s ^^^ t) = crcStep^[n] s ^^^ crcStep^[n] t := by
  induction n generalizing s t with
  | zero => rfl
  | succ n ih => rw [Function.iterate_succ_apply, crcStep_xor, ih, ← Function.iterate_succ_apply, ← Function.iterate_succ_apply]

theorem crcStep_even {z : BitVec 32} {m : Nat} (h : z.toNat = 2 * m) : (crcStep z).toNat = m := by
  have hb : z.getLsbD 0 = false := by
    rw [BitVec.getLsbD, h]; simp
  unfold crcStep
  rw [hb]
  simp only [Bool.false_eq_true, if_false, BitVec.xor_zero, BitVec.toNat_ushiftRight, Nat.shiftRight_eq_div_pow, h]
  omega

theorem crcStep_iterate_even (n : Nat) {z : BitVec 32} {m : Nat} (h : z.toNat = 2 ^ n * m) : (crcStep^[n] z).toNat = m := by
  induction n generalizing z with
  | zero => simpa using h
  | succ n ih =>
      rw [Function.iterate_succ_apply]
      exact ih (crcStep_even (by rw [h]; ring))

/-- The bytes as a number, the first one in the lowest place. -/
def word : List UInt8 → BitVec 32
  | [] => 0#32
  | b :: bs => b.toBitVec.setWidth 32 ^^^ (word bs <<< 8)

/-- The same in natural numbers. -/
def natWord : List UInt8 → Nat
  | [] => 0
  | b :: bs => b.toNat + 256 * natWord bs

theorem natWord_lt (bs : List UInt8) : natWord bs < 256 ^ bs.length := by
  induction bs with
  | nil => simp [natWord]
  | cons b bs ih =>
      have := b.toNat_lt
      rw [natWord, List.length_cons, pow_succ]
      omega

theorem natWord_injective {bs cs : List UInt8} (hl : bs.length = cs.length) (h : natWord bs = natWord cs) : bs = cs := by
  induction bs generalizing cs with
  | nil => exact (List.length_eq_zero_iff.mp hl.symm).symm
  | cons b bs ih =>
      cases cs with
      | nil => simp at hl
      | cons c cs =>
          simp only [natWord] at h
          have h1 := b.toNat_lt
          have h2 := c.toNat_lt
          rw [ih (by simpa using hl) (by omega), UInt8.toNat_inj.mp (show b.toNat = c.toNat by omega)]

theorem word_toNat {bs : List UInt8} (h : bs.length ≤ 4) : (word bs).toNat = natWord bs := by
  induction bs with
  | nil => rfl
  | cons b bs ih =>
      have hb := b.toNat_lt
      rw [List.length_cons] at h
      have hw : natWord bs < 2 ^ 24 := by
        refine lt_of_lt_of_le (natWord_lt bs) ?_
        calc 256 ^ bs.length ≤ 256 ^ 3 := Nat.pow_le_pow_right (by norm_num) (by omega)
          _ = 2 ^ 24 := by norm_num
      have h1 : (word (b :: bs)).toNat = b.toNat ^^^ (256 * natWord bs) := by
        rw [word, BitVec.toNat_xor, BitVec.toNat_shiftLeft, ih (by omega), BitVec.toNat_setWidth, Nat.shiftLeft_eq]
        have h2 : b.toBitVec.toNat = b.toNat := rfl
        rw [h2, Nat.mod_eq_of_lt (by omega), Nat.mod_eq_of_lt (by omega), Nat.mul_comm]
      rw [h1, natWord]
      have hm : (b.toNat ^^^ (256 * natWord bs)) % 2 ^ 8 = b.toNat := by
        rw [Nat.xor_mod_two_pow, Nat.mod_eq_of_lt (by omega), show 256 * natWord bs % 2 ^ 8 = 0 by omega, Nat.xor_zero]
      have hd : (b.toNat ^^^ (256 * natWord bs)) / 2 ^ 8 = natWord bs := by
        rw [Nat.xor_div_two_pow, Nat.div_eq_of_lt (by omega), show 256 * natWord bs / 2 ^ 8 = natWord bs by omega, Nat.zero_xor]
      omega

theorem crcStep_word {bs : List UInt8} (h : bs.length ≤ 3) : crcStep^[8] (word bs <<< 8) = word bs := by
  apply BitVec.eq_of_toNat_eq
  have hw : natWord bs < 2 ^ 24 := by
    refine lt_of_lt_of_le (natWord_lt bs) ?_
    calc 256 ^ bs.length ≤ 256 ^ 3 := Nat.pow_le_pow_right (by norm_num) h
      _ = 2 ^ 24 := by norm_num
  apply crcStep_iterate_even 8
  rw [BitVec.toNat_shiftLeft, Nat.shiftLeft_eq, word_toNat (by omega), Nat.mod_eq_of_lt (by omega)]
  ring

theorem foldl_crcByte {bs : List UInt8} (h : bs.length ≤ 4) (s : BitVec 32) :
    bs.foldl crcByte s = crcStep^[8 * bs.length] (s ^^^ word bs) := by
  induction bs generalizing s with
  | nil => simp [word]
  | cons b bs ih =>
      rw [List.length_cons] at h
      rw [List.foldl_cons, ih (by omega), List.length_cons, Nat.mul_add, Nat.mul_one, Function.iterate_add_apply]
      congr 1
      rw [crcByte, word, ← BitVec.xor_assoc, crcStep_iterate_xor 8 (s ^^^ _), crcStep_word (by omega)]

theorem crcByte_injective (b : UInt8) : Function.Injective fun s => crcByte s b := by
  intro s t h
  exact (BitVec.xor_left_inj _).mp (crcStep_injective.iterate 8 h)

theorem foldl_crcByte_injective (bs : List UInt8) : Function.Injective fun s => bs.foldl crcByte s := by
  induction bs with
  | nil => exact fun _ _ h => h
  | cons b bs ih => exact fun _ _ h => crcByte_injective b (ih h)

/-- What differs in at most four consecutive bytes has different CRCs. -/
theorem binasciiCrc32_burst {u x y v : List UInt8} (hl : x.length = y.length) (hx : x.length ≤ 4)
    (h : binasciiCrc32 (u ++ x ++ v) = binasciiCrc32 (u ++ y ++ v)) : x = y := by
  unfold binasciiCrc32 at h
  have h1 := BitVec.eq_of_toNat_eq h
  have h2 := BitVec.not_inj.mp h1
  rw [List.foldl_append, List.foldl_append, List.foldl_append, List.foldl_append] at h2
  have h3 := foldl_crcByte_injective v h2
  rw [foldl_crcByte hx, foldl_crcByte (bs := y) (by omega), hl] at h3
  have h4 := crcStep_injective.iterate _ h3
  rw [BitVec.xor_comm _ (word x), BitVec.xor_comm _ (word y)] at h4
  have h5 := congrArg BitVec.toNat ((BitVec.xor_left_inj _).mp h4)
  rw [word_toNat hx, word_toNat (by omega)] at h5
  exact natWord_injective hl h5

end Fog.LshUtils
