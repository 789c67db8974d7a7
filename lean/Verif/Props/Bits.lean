import Verif.Lemmas.Bits

/-!
# C37, C63: population counts and powers of two
-/

namespace Fog.Props

open LshUtils Spec

/-- **C37**: `popcount` counts the one bits of any natural number. -/
theorem popcount_eq {w x : Nat} (h : x < 2 ^ w) : popcount x = bitCount w x := by
  unfold popcount
  rw [List.count_cons_of_ne (by decide), List.count_cons_of_ne (by decide), count_toDigits w x h]

/-- **C37**: `popcount16` counts the one bits of a number of 16 bits. -/
theorem popcount16_eq {x : Nat} (h : x < 2 ^ 16) : popcount16 x = bitCount 16 x := by
  unfold popcount16
  rw [show (0xFFFF : Nat) = 2 ^ 16 - 1 from rfl, Nat.and_two_pow_sub_one_eq_mod, Nat.mod_eq_of_lt h, popcountTable16_getD h]

/-- **C37**: `popcount32` counts the one bits of a number of 32 bits. -/
theorem popcount32_eq {x : Nat} (h : x < 2 ^ 32) : popcount32 x = bitCount 32 x := by
  unfold popcount32
  rw [show (0xFFFF : Nat) = 2 ^ 16 - 1 from rfl, Nat.and_two_pow_sub_one_eq_mod, Nat.and_two_pow_sub_one_eq_mod,
    Nat.shiftRight_eq_div_pow, Nat.mod_eq_of_lt (a := x / 2 ^ 16) (by omega),
    popcountTable16_getD (Nat.mod_lt _ (by omega)), popcountTable16_getD (by omega)]
  have := bitCount_add 16 16 (x % 2 ^ 16) (x / 2 ^ 16) (Nat.mod_lt _ (by omega))
  rw [Nat.div_add_mod] at this
  exact this.symm

/-- **C37**: `popcount64` counts the one bits of a number of 64 bits. -/
theorem popcount64_eq {x : Nat} (h : x < 2 ^ 64) : popcount64 x = bitCount 64 x := by
  obtain ⟨hp, hb, hl⟩ := unpack_spec 8 x h
  generalize unpack 8 x = cs at hp hb hl
  subst hp
  have htab := fun c hc => steps_table c (hb c hc)
  have m1 : (0x5555555555555555 : Nat) = pack (List.replicate cs.length 0x55) := by rw [hl]; rfl
  have m2 : (0x3333333333333333 : Nat) = pack (List.replicate (cs.map step1).length 0x33) := by
    rw [List.length_map, hl]; rfl
  have m3 : (0x0f0f0f0f0f0f0f0f : Nat) = pack (List.replicate ((cs.map step1).map step2).length 0x0f) := by
    rw [List.length_map, List.length_map, hl]; rfl
  have e1 : pack cs - ((pack cs >>> 1) &&& 0x5555555555555555) = pack (cs.map step1) := by
    rw [m1, pack_shift_and 1 _ (by omega) (by decide) cs hb]
    have := (pack_sub id (fun c => (c >>> 1) &&& 0x55) cs (fun c hc => (htab c hc).1)).1
    rw [List.map_id] at this
    exact this
  have b1 : Bytes (cs.map step1) := bytes_map fun c hc => (htab c hc).2.1
  have e2 : (pack (cs.map step1) &&& 0x3333333333333333) + ((pack (cs.map step1) >>> 2) &&& 0x3333333333333333) =
      pack ((cs.map step1).map step2) := by
    rw [m2, pack_and _ (by decide) _ b1, pack_shift_and 2 _ (by omega) (by decide) _ b1, pack_add]
    rfl
  have e3 := (pack_nibbles ((cs.map step1).map step2) (by
    intro d hd
    rw [List.map_map] at hd
    obtain ⟨c, hc, rfl⟩ := List.mem_map.mp hd
    exact (htab c hc).2.2.2.2)).1
  rw [← m3] at e3
  have e4 : ((cs.map step1).map step2).map step3 = cs.map (bitCount 8) := by
    rw [List.map_map, List.map_map]
    apply List.map_congr_left
    intro c hc
    exact (htab c hc).2.2.2.1
  unfold popcount64
  simp only
  rw [e1, e2, e3, e4]
  have hw := bitCount_pack cs hb
  rw [hl] at hw
  rw [show bitCount 64 (pack cs) = _ from hw]
  match cs, hl with
  | [c0, c1, c2, c3, c4, c5, c6, c7], _ =>
      simp only [List.map_cons, List.map_nil, List.sum_cons, List.sum_nil]
      rw [gather _ _ _ _ _ _ _ _ (bitCount_le 8 _) (bitCount_le 8 _) (bitCount_le 8 _) (bitCount_le 8 _) (bitCount_le 8 _)
        (bitCount_le 8 _) (bitCount_le 8 _) (bitCount_le 8 _)]
      omega

example : bitCount 64 0xF00000000000000F = 8 ∧ popcount64 0xF00000000000000F = 8 ∧ popcount 0xF00000000000000F = 8 := by
  decide +kernel

/-- `popcount64` is wrong beyond 64 bits. -/
theorem popcount64_wide : popcount64 (2 ^ 64) = 0 ∧ bitCount 65 (2 ^ 64) = 1 := by decide +kernel

/-- **C63** is false; what holds instead: `is_power_of_two` is a true value exactly when its argument is neither zero nor a power of two. -/
theorem is_power_of_two_partial (x : Nat) : isPowerOfTwo x = 0 ↔ x = 0 ∨ ∃ k, x = 2 ^ k := by
  unfold isPowerOfTwo
  constructor
  · intro h
    rcases Nat.eq_zero_or_pos x with h0 | h0
    · exact Or.inl h0
    · right
      obtain ⟨k, hk1, hk2⟩ : ∃ k, 2 ^ k ≤ x ∧ x < 2 ^ (k + 1) :=
        ⟨Nat.log2 x, Nat.log2_self_le (by omega), Nat.lt_log2_self⟩
      refine ⟨k, ?_⟩
      by_contra hne
      have hlt : 2 ^ k < x := by omega
      have t1 : x.testBit k = true := by
        have := Nat.testBit_two_pow_add_eq (x - 2 ^ k) k
        rw [show 2 ^ k + (x - 2 ^ k) = x by omega] at this
        rw [this, Nat.testBit_lt_two_pow (by rw [Nat.pow_succ] at hk2; omega)]
        rfl
      have t2 : (x - 1).testBit k = true := by
        have := Nat.testBit_two_pow_add_eq (x - 1 - 2 ^ k) k
        rw [show 2 ^ k + (x - 1 - 2 ^ k) = x - 1 by omega] at this
        rw [this, Nat.testBit_lt_two_pow (by rw [Nat.pow_succ] at hk2; omega)]
        rfl
      have := Nat.testBit_and x (x - 1) k
      rw [h, t1, t2, Nat.zero_testBit] at this
      simp at this
  · rintro (rfl | ⟨k, rfl⟩)
    · rfl
    · rw [Nat.and_two_pow_sub_one_eq_mod, Nat.mod_self]

/-- In particular on eight and six. -/
theorem is_power_of_two_inverted : isPowerOfTwo 8 = 0 ∧ isPowerOfTwo 6 ≠ 0 := by decide

end Fog.Props
