import Verif.Spec.Bits
import Verif.Model.LshUtils
import Mathlib.Data.Nat.Bitwise

/-!
# Lemmas on bits and bytes
-/

namespace Fog.LshUtils

open Spec

/-! ## Counting bits -/

theorem bitCount_zero (w : Nat) : bitCount w 0 = 0 := by
  simp [bitCount, List.countP_eq_zero]

theorem bitCount_add (a b lo hi : Nat) (h : lo < 2 ^ a) :
    bitCount (a + b) (2 ^ a * hi + lo) = bitCount a lo + bitCount b hi := by
  unfold bitCount
  rw [List.range_add, List.countP_append, List.countP_map]
  congr 1
  · apply List.countP_congr
    intro i hi'
    rw [List.mem_range] at hi'
    rw [Nat.testBit_two_pow_mul_add _ h, if_pos hi']
  · apply List.countP_congr
    intro i _
    simp only [Function.comp]
    rw [Nat.testBit_two_pow_mul_add _ h, if_neg (by omega)]
    simp

/-- Bits beyond the width of the number do not count. -/
theorem bitCount_eq_of_lt {w w' x : Nat} (h : x < 2 ^ w) (hw : w ≤ w') : bitCount w' x = bitCount w x := by
  obtain ⟨d, rfl⟩ := Nat.exists_eq_add_of_le hw
  have := bitCount_add w d x 0 h
  rw [bitCount_zero] at this
  simpa using this

theorem bitCount_le (w x : Nat) : bitCount w x ≤ w := by
  have := List.countP_le_length (p := x.testBit) (l := List.range w)
  simpa [bitCount] using this

theorem bitCount_eq_zero {w x : Nat} (h : x < 2 ^ w) : bitCount w x = 0 ↔ x = 0 := by
  constructor
  · intro h0
    apply Nat.eq_of_testBit_eq
    intro i
    rw [Nat.zero_testBit]
    by_cases hi : i < w
    · have := (List.countP_eq_zero.mp h0) i (List.mem_range.mpr hi)
      simpa using this
    · exact Nat.testBit_lt_two_pow (Nat.lt_of_lt_of_le h (Nat.pow_le_pow_right (by omega) (by omega)))
  · rintro rfl; exact bitCount_zero w

theorem bitCount_succ (w x : Nat) : bitCount (w + 1) x = x % 2 + bitCount w (x / 2) := by
  have h := bitCount_add 1 w (x % 2) (x / 2) (by omega)
  have h1 : 2 ^ 1 * (x / 2) + x % 2 = x := by omega
  rw [h1, Nat.add_comm 1 w] at h
  rw [h]
  congr 1
  rcases Nat.mod_two_eq_zero_or_one x with h | h <;> rw [h] <;> decide

/-! ## Digits -/

theorem count_toDigits (w : Nat) : ∀ x, x < 2 ^ w → (Nat.toDigits 2 x).count '1' = bitCount w x := by
  induction w with
  | zero =>
      intro x hx
      have : x = 0 := by simpa using hx
      subst this
      decide
  | succ w ih =>
      intro x hx
      rw [Nat.toDigits_eq_if (by omega), bitCount_succ]
      split
      · next h =>
        have : x = 0 ∨ x = 1 := by omega
        rcases this with rfl | rfl
        · rw [show 0 / 2 = 0 from rfl, bitCount_zero]; decide
        · rw [show 1 / 2 = 0 from rfl, bitCount_zero]; decide
      · rw [List.count_append, ih (x / 2) (by rw [Nat.pow_succ] at hx; omega)]
        rcases Nat.mod_two_eq_zero_or_one x with h | h <;> rw [h] <;> simp [Nat.digitChar, Nat.add_comm]

/-! ## The table -/

/-- The table after the first steps of the loop. -/
theorem popcountTable16_fold (n : Nat) (hn : n ≤ 2 ^ 16) (init : List Nat) (hl : init.length = 2 ^ 16)
    (h0 : init.getD 0 0 = 0) :
    let table := (List.range n).foldl (fun table i => table.set i ((i &&& 1) + table.getD (i >>> 1) 0)) init
    table.length = 2 ^ 16 ∧ table.getD 0 0 = 0 ∧ ∀ j < n, table.getD j 0 = bitCount 16 j := by
  induction n with
  | zero => exact ⟨hl, h0, by intro j hj; omega⟩
  | succ n ih =>
      obtain ⟨h1, h2, h3⟩ := ih (by omega)
      rw [List.range_succ, List.foldl_append]
      simp only [List.foldl_cons, List.foldl_nil]
      generalize hT : (List.range n).foldl (fun table i => table.set i ((i &&& 1) + table.getD (i >>> 1) 0)) init = T at *
      have hval : (n &&& 1) + T.getD (n >>> 1) 0 = bitCount 16 n := by
        rw [Nat.and_one_is_mod, Nat.shiftRight_eq_div_pow, Nat.pow_one]
        rw [bitCount_succ 15 n]
        rcases Nat.eq_zero_or_pos n with h | h
        · subst h; rw [show 0 / 2 = 0 from rfl, h2, bitCount_zero]
        · rw [h3 (n / 2) (by omega), bitCount_eq_of_lt (w := 15) (w' := 16) (by omega) (by omega)]
      rw [hval]
      refine ⟨by simp [h1], ?_, ?_⟩
      · rcases Nat.eq_zero_or_pos n with h | h
        · subst h
          rw [List.getD_eq_getElem?_getD, List.getElem?_set]
          simp [h1, bitCount_zero]
        · rw [List.getD_eq_getElem?_getD, List.getElem?_set, if_neg (by omega), ← List.getD_eq_getElem?_getD, h2]
      · intro j hj
        rw [List.getD_eq_getElem?_getD, List.getElem?_set]
        by_cases hjn : n = j
        · subst hjn
          rw [if_pos rfl, if_pos (by omega)]
          rfl
        · rw [if_neg hjn, ← List.getD_eq_getElem?_getD, h3 j (by omega)]

theorem popcountTable16_getD {j : Nat} (hj : j < 2 ^ 16) : popcountTable16.getD j 0 = bitCount 16 j := by
  have := popcountTable16_fold (2 ^ 16) (Nat.le_refl _) (List.replicate (2 ^ 16) 0) (List.length_replicate ..)
    (by rw [List.getD_eq_getElem?_getD, List.getElem?_replicate]; split <;> rfl)
  exact this.2.2 j hj

/-! ## Bytes -/

/-- The number whose bytes are given, lowest first. -/
def pack : List Nat → Nat
  | [] => 0
  | c :: cs => 256 * pack cs + c

/-- All are bytes. -/
def Bytes (cs : List Nat) : Prop := ∀ c ∈ cs, c < 256

theorem add_and (lo hi m M : Nat) (h1 : lo < 256) (h2 : m < 256) :
    (256 * hi + lo) &&& (256 * M + m) = 256 * (hi &&& M) + (lo &&& m) := by
  have h := Nat.and_mod_two_pow (a := 256 * hi + lo) (b := 256 * M + m) (n := 8)
  have h' := Nat.and_div_two_pow (a := 256 * hi + lo) (b := 256 * M + m) (n := 8)
  have e1 : (256 * hi + lo) % 2 ^ 8 = lo := by omega
  have e2 : (256 * M + m) % 2 ^ 8 = m := by omega
  have e3 : (256 * hi + lo) / 2 ^ 8 = hi := by omega
  have e4 : (256 * M + m) / 2 ^ 8 = M := by omega
  rw [e1, e2] at h
  rw [e3, e4] at h'
  have := Nat.div_add_mod ((256 * hi + lo) &&& (256 * M + m)) (2 ^ 8)
  rw [h, h'] at this
  exact this.symm

/-- A mask which repeats one byte acts on each byte. -/
theorem pack_and (m : Nat) (hm : m < 256) : ∀ cs, Bytes cs →
    pack cs &&& pack (List.replicate cs.length m) = pack (cs.map (· &&& m)) := by
  intro cs
  induction cs with
  | nil => intro _; simp [pack]
  | cons c cs ih =>
      intro h
      simp only [List.length_cons, List.replicate_succ, pack, List.map_cons]
      rw [add_and _ _ _ _ (h c (by simp)) hm, ih (fun x hx => h x (by simp [hx]))]

/-- A shift followed by a mask, which repeats one byte and drops the bits coming from the next byte, acts on each byte. -/
theorem pack_shift_and (k m : Nat) (hk : k < 8) (hm : m < 2 ^ (8 - k)) : ∀ cs, Bytes cs →
    (pack cs >>> k) &&& pack (List.replicate cs.length m) = pack (cs.map fun c => (c >>> k) &&& m) := by
  intro cs
  have hm' : m < 256 := Nat.lt_of_lt_of_le hm (by
    calc 2 ^ (8 - k) ≤ 2 ^ 8 := Nat.pow_le_pow_right (by omega) (by omega)
      _ = 256 := rfl)
  induction cs with
  | nil => intro _; simp [pack]
  | cons c cs ih =>
      intro h
      have hc : c < 256 := h c (by simp)
      simp only [List.length_cons, List.replicate_succ, pack, List.map_cons]
      rw [← ih (fun x hx => h x (by simp [hx]))]
      apply Nat.eq_of_testBit_eq
      intro i
      have hlt : (c >>> k) &&& m < 256 := Nat.lt_of_le_of_lt Nat.and_le_right hm'
      rw [Nat.testBit_and, Nat.testBit_shiftRight, show (256 : Nat) = 2 ^ 8 from rfl,
        Nat.testBit_two_pow_mul_add _ (i := 8) hc, Nat.testBit_two_pow_mul_add _ (i := 8) hm',
        Nat.testBit_two_pow_mul_add _ (i := 8) hlt]
      by_cases h1 : i < 8
      · rw [if_pos h1, if_pos h1, Nat.testBit_and, Nat.testBit_shiftRight]
        by_cases h2 : i < 8 - k
        · rw [if_pos (by omega)]
        · have : m.testBit i = false :=
            Nat.testBit_lt_two_pow (Nat.lt_of_lt_of_le hm (Nat.pow_le_pow_right (by omega) (by omega)))
          rw [this, Bool.and_false, Bool.and_false]
      · rw [if_neg h1, if_neg h1, if_neg (by omega), Nat.testBit_and, Nat.testBit_shiftRight,
          show k + i - 8 = k + (i - 8) by omega]

theorem pack_add (f g : Nat → Nat) (cs : List Nat) : pack (cs.map f) + pack (cs.map g) = pack (cs.map fun c => f c + g c) := by
  induction cs with
  | nil => rfl
  | cons c cs ih =>
      simp only [List.map_cons, pack]
      rw [← ih]; omega

theorem pack_sub (f g : Nat → Nat) : ∀ cs : List Nat, (∀ c ∈ cs, g c ≤ f c) →
    pack (cs.map f) - pack (cs.map g) = pack (cs.map fun c => f c - g c) ∧ pack (cs.map g) ≤ pack (cs.map f) := by
  intro cs
  induction cs with
  | nil => intro _; exact ⟨rfl, Nat.le_refl _⟩
  | cons c cs ih =>
      intro h
      obtain ⟨h1, h2⟩ := ih (fun x hx => h x (by simp [hx]))
      have hc := h c (by simp)
      simp only [List.map_cons, pack]
      constructor
      · rw [← h1]; omega
      · omega

theorem bytes_map {f : Nat → Nat} {cs : List Nat} (h : ∀ c ∈ cs, f c < 256) : Bytes (cs.map f) := by
  intro c hc
  obtain ⟨d, hd, rfl⟩ := List.mem_map.mp hc
  exact h d hd

theorem bitCount_pack : ∀ cs, Bytes cs → bitCount (8 * cs.length) (pack cs) = (cs.map (bitCount 8)).sum := by
  intro cs
  induction cs with
  | nil => intro _; rfl
  | cons c cs ih =>
      intro h
      simp only [List.length_cons, pack, List.map_cons, List.sum_cons]
      rw [show 8 * (cs.length + 1) = 8 + 8 * cs.length by omega, show (256 : Nat) = 2 ^ 8 from rfl,
        bitCount_add 8 _ _ _ (h c (by simp)), ih (fun x hx => h x (by simp [hx]))]

/-- What `popcount64` computes on each byte. -/
def step1 (c : Nat) : Nat := c - ((c >>> 1) &&& 0x55)
/-- What `popcount64` computes on each byte. -/
def step2 (c : Nat) : Nat := (c &&& 0x33) + ((c >>> 2) &&& 0x33)
/-- What `popcount64` computes on each byte. -/
def step3 (c : Nat) : Nat := (c &&& 0x0f) + ((c >>> 4) &&& 0x0f)

theorem steps_table : ∀ c < 256, ((c >>> 1) &&& 0x55 ≤ c) ∧ step1 c < 256 ∧ step2 (step1 c) < 256 ∧
    step3 (step2 (step1 c)) = bitCount 8 c ∧ step2 (step1 c) &&& 0x0f ≤ 4 ∧ (step2 (step1 c) >>> 4) ≤ 4 := by
  decide +kernel

/-- Nibbles of four at most do not overflow when added to their neighbours. -/
theorem pack_nibbles : ∀ ds : List Nat, (∀ d ∈ ds, d &&& 0x0f ≤ 4 ∧ d >>> 4 ≤ 4) →
    (pack ds + (pack ds >>> 4)) &&& pack (List.replicate ds.length 0x0f) = pack (ds.map step3) ∧ pack ds % 16 ≤ 4 := by
  intro ds
  have hand : ∀ n : Nat, n &&& 15 = n % 16 := fun n => Nat.and_two_pow_sub_one_eq_mod n 4
  induction ds with
  | nil => intro _; simp [pack]
  | cons d ds ih =>
      intro h
      obtain ⟨h1, h2⟩ := ih (fun x hx => h x (by simp [hx]))
      obtain ⟨ha, hb⟩ := h d (by simp)
      rw [hand] at ha
      rw [Nat.shiftRight_eq_div_pow] at hb
      simp only [List.length_cons, List.replicate_succ, pack, List.map_cons]
      refine ⟨?_, by omega⟩
      rw [← h1]
      have e : 256 * pack ds + d + (256 * pack ds + d) >>> 4 =
          256 * (pack ds + pack ds >>> 4) + (d + d / 16 + 16 * (pack ds % 16)) := by
        simp only [Nat.shiftRight_eq_div_pow]
        omega
      rw [e, add_and _ _ _ _ (by omega) (by omega)]
      congr 1
      unfold step3
      simp only [hand, Nat.shiftRight_eq_div_pow]
      rw [show (2 : Nat) ^ 4 = 16 from rfl] at hb ⊢
      clear e h1 h2
      generalize pack ds % 16 = r
      rw [Nat.mod_eq_of_lt (a := d / 16) (by omega), show d + d / 16 + 16 * r = 16 * (d / 16 + r) + (d % 16 + d / 16) by omega,
        Nat.mul_add_mod, Nat.mod_eq_of_lt (by omega)]

theorem pack_lt : ∀ cs, Bytes cs → pack cs < 256 ^ cs.length := by
  intro cs
  induction cs with
  | nil => intro _; simp [pack]
  | cons c cs ih =>
      intro h
      have h1 := ih (fun x hx => h x (by simp [hx]))
      have h2 := h c (by simp)
      simp only [pack, List.length_cons, Nat.pow_succ]
      omega

/-- The bytes of a number. -/
def unpack : Nat → Nat → List Nat
  | 0, _ => []
  | n + 1, x => x % 256 :: unpack n (x / 256)

theorem unpack_spec (n : Nat) : ∀ x, x < 256 ^ n → pack (unpack n x) = x ∧ Bytes (unpack n x) ∧ (unpack n x).length = n := by
  induction n with
  | zero => intro x hx; exact ⟨by simp only [unpack, pack]; simp at hx; exact hx.symm, by intro c hc; simp [unpack] at hc, rfl⟩
  | succ n ih =>
      intro x hx
      obtain ⟨h1, h2, h3⟩ := ih (x / 256) (by rw [Nat.pow_succ] at hx; omega)
      refine ⟨by simp only [unpack, pack]; rw [h1]; omega, ?_, by simp [unpack, h3]⟩
      intro c hc
      rcases List.mem_cons.mp hc with h | h
      · omega
      · exact h2 c h

/-- The multiplication gathers the sum of small bytes in the highest one. -/
theorem gather (c0 c1 c2 c3 c4 c5 c6 c7 : Nat) (h0 : c0 ≤ 8) (h1 : c1 ≤ 8) (h2 : c2 ≤ 8) (h3 : c3 ≤ 8) (h4 : c4 ≤ 8)
    (h5 : c5 ≤ 8) (h6 : c6 ≤ 8) (h7 : c7 ≤ 8) :
    ((pack [c0, c1, c2, c3, c4, c5, c6, c7] * 0x0101010101010101) &&& 0xffffffffffffffff) >>> 56 =
      c0 + c1 + c2 + c3 + c4 + c5 + c6 + c7 := by
  rw [show (0xffffffffffffffff : Nat) = 2 ^ 64 - 1 from rfl, Nat.and_two_pow_sub_one_eq_mod, Nat.shiftRight_eq_div_pow]
  have e : pack [c0, c1, c2, c3, c4, c5, c6, c7] * 0x0101010101010101 =
      2 ^ 64 * ((c1 + c2 + c3 + c4 + c5 + c6 + c7) + 256 * ((c2 + c3 + c4 + c5 + c6 + c7) + 256 * ((c3 + c4 + c5 + c6 + c7) +
        256 * ((c4 + c5 + c6 + c7) + 256 * ((c5 + c6 + c7) + 256 * ((c6 + c7) + 256 * c7)))))) +
      (2 ^ 56 * (c0 + c1 + c2 + c3 + c4 + c5 + c6 + c7) +
        (c0 + 256 * ((c0 + c1) + 256 * ((c0 + c1 + c2) + 256 * ((c0 + c1 + c2 + c3) + 256 * ((c0 + c1 + c2 + c3 + c4) +
          256 * ((c0 + c1 + c2 + c3 + c4 + c5) + 256 * (c0 + c1 + c2 + c3 + c4 + c5 + c6)))))))) := by
    simp only [pack]
    omega
  rw [e, Nat.mul_add_mod, Nat.mod_eq_of_lt (by omega), Nat.mul_add_div (by omega), Nat.div_eq_of_lt (by omega), Nat.add_zero]

end Fog.LshUtils
