import Verif.Spec.Crc
import Verif.Props.Crc32
import Mathlib.Algebra.CharP.Two
import Mathlib.Algebra.Polynomial.Degree.Lemmas
import Mathlib.Algebra.Polynomial.Div
import Mathlib.Tactic.ComputeDegree
import Mathlib.Tactic.Ring
import Mathlib.Tactic.LinearCombination

/-!
# C146: `crc32` is CRC-32
-/

namespace Fog.Props

open Fog.Spec Fog.LshUtils Polynomial

theorem poly_add_self (p : (ZMod 2)[X]) : p + p = 0 := CharTwo.add_self_eq_zero p

theorem poly_sub (p q : (ZMod 2)[X]) : p - q = p + q := CharTwo.sub_eq_add p q

theorem bitsPoly_append (l m : List Bool) : bitsPoly (l ++ m) = X ^ m.length * bitsPoly l + bitsPoly m := by
  induction l with
  | nil => simp [bitsPoly]
  | cons b l ih =>
      rw [List.cons_append, bitsPoly, bitsPoly, ih, List.length_append]
      split
      · ring
      · ring

theorem bitsPoly_false (n : Nat) : bitsPoly (List.replicate n false) = 0 := by
  induction n with
  | zero => rfl
  | succ n ih => rw [List.replicate_succ, bitsPoly, ih]; simp

theorem bitsPoly_xor (l : List Nat) (f g : Nat → Bool) :
    bitsPoly (l.map fun k => f k ^^ g k) = bitsPoly (l.map f) + bitsPoly (l.map g) := by
  induction l with
  | nil => simp [bitsPoly]
  | cons a l ih =>
      simp only [List.map_cons, bitsPoly, List.length_map, ih]
      have h := poly_add_self (X ^ l.length)
      cases f a <;> cases g a
      · simp
      · simp; ring
      · simp; ring
      · simp; linear_combination -h

theorem bitsPoly_not (l : List Nat) (f : Nat → Bool) :
    bitsPoly (l.map fun k => !f k) = bitsPoly (l.map f) + bitsPoly (List.replicate l.length true) := by
  have h := bitsPoly_xor l f (fun _ => true)
  have e : (l.map fun _ => true) = List.replicate l.length true := by simp
  rw [e] at h
  rw [← h]
  congr 1
  apply List.map_congr_left
  intro k _
  cases f k <;> rfl

theorem bitsPoly_degree (l : List Bool) : (bitsPoly l).degree < l.length := by
  induction l with
  | nil => simp [bitsPoly]
  | cons b l ih =>
      rw [bitsPoly]
      refine lt_of_le_of_lt (degree_add_le _ _) (max_lt ?_ ?_)
      · split
        · rw [degree_X_pow]
          exact_mod_cast Nat.lt_succ_self _
        · rw [degree_zero]; exact WithBot.bot_lt_coe _
      · refine ih.trans ?_
        rw [List.length_cons]
        exact_mod_cast Nat.lt_succ_self _

theorem bitsPoly_injective {l m : List Bool} (hl : l.length = m.length) (h : bitsPoly l = bitsPoly m) : l = m := by
  induction l generalizing m with
  | nil => exact (List.length_eq_zero_iff.mp hl.symm).symm
  | cons b l ih =>
      cases m with
      | nil => simp at hl
      | cons d m =>
          simp only [List.length_cons, Nat.add_right_cancel_iff] at hl
          have hc := congrArg (fun p => p.coeff l.length) h
          simp only [bitsPoly, coeff_add] at hc
          rw [coeff_eq_zero_of_degree_lt (bitsPoly_degree l), hl, coeff_eq_zero_of_degree_lt (bitsPoly_degree m)] at hc
          have hbd : b = d := by
            cases b <;> cases d <;> simp at hc ⊢
          subst hbd
          simp only [bitsPoly, hl] at h
          rw [ih hl (add_left_cancel h)]

/-- The register as a polynomial. -/
noncomputable def registerPoly (s : BitVec 32) : (ZMod 2)[X] := bitsPoly ((List.range 32).map s.getLsbD)

theorem registerPoly_xor (s t : BitVec 32) : registerPoly (s ^^^ t) = registerPoly s + registerPoly t := by
  unfold registerPoly
  rw [← bitsPoly_xor]
  congr 1
  apply List.map_congr_left
  intro k _
  rw [BitVec.getLsbD_xor]

theorem registerPoly_shift (s : BitVec 32) : registerPoly (s >>> 1) + (if s.getLsbD 0 then X ^ 32 else 0) = X * registerPoly s := by
  unfold registerPoly
  have e1 : (List.range 32).map s.getLsbD = s.getLsbD 0 :: (List.range 31).map fun k => s.getLsbD (k + 1) := by
    rw [List.range_succ_eq_map, List.map_cons, List.map_map]; rfl
  have e2 : (List.range 32).map (s >>> 1).getLsbD = ((List.range 31).map fun k => s.getLsbD (k + 1)) ++ [false] := by
    rw [List.range_succ, List.map_append, List.map_singleton]
    have h1 : (List.range 31).map (s >>> 1).getLsbD = (List.range 31).map fun k => s.getLsbD (k + 1) := by
      apply List.map_congr_left
      intro k _
      rw [BitVec.getLsbD_ushiftRight, Nat.add_comm]
    have h2 : (s >>> 1).getLsbD 31 = false := by
      rw [BitVec.getLsbD_ushiftRight, BitVec.getLsbD_of_ge _ _ (by omega)]
    rw [h1, h2]
  rw [e1, e2, bitsPoly_append]
  simp only [bitsPoly, List.length_map, List.length_range, List.length_singleton, Bool.false_eq_true, if_false]
  split <;> ring

theorem registerPoly_constant : registerPoly 0xEDB88320#32 + X ^ 32 = crcGenerator := by
  have e : (List.range 32).map (0xEDB88320#32).getLsbD = [false, false, false, false, false, true, false, false, true, true, false, false, false,
      false, false, true, false, false, false, true, true, true, false, true, true, false, true, true, false, true, true, true] := by decide
  unfold registerPoly crcGenerator
  rw [e]
  simp only [bitsPoly, List.length_cons, List.length_nil, Bool.false_eq_true, if_false, if_true]
  ring

theorem registerPoly_step (s : BitVec 32) :
    registerPoly (crcStep s) = X * registerPoly s + crcGenerator * (if s.getLsbD 0 then 1 else 0) := by
  unfold crcStep
  rw [registerPoly_xor, ← registerPoly_shift]
  split
  · have h := poly_add_self (X ^ 32)
    rw [← registerPoly_constant]
    linear_combination -h
  · have : registerPoly 0#32 = 0 := by
      unfold registerPoly
      rw [show (List.range 32).map (0#32).getLsbD = List.replicate 32 false by decide]
      exact bitsPoly_false 32
    rw [this]; ring

theorem registerPoly_steps (n : Nat) (s : BitVec 32) : ∃ q, registerPoly (crcStep^[n] s) = X ^ n * registerPoly s + crcGenerator * q := by
  induction n with
  | zero => exact ⟨0, by simp⟩
  | succ n ih =>
      obtain ⟨q, hq⟩ := ih
      rw [Function.iterate_succ_apply', registerPoly_step, hq]
      exact ⟨X * q + (if (crcStep^[n] s).getLsbD 0 then 1 else 0), by ring⟩

theorem registerPoly_setWidth (b : UInt8) :
    registerPoly (b.toBitVec.setWidth 32) = X ^ 24 * bitsPoly ((List.range 8).map fun k => b.toNat.testBit k) := by
  unfold registerPoly
  have e : (List.range 32).map (b.toBitVec.setWidth 32).getLsbD =
      ((List.range 8).map fun k => b.toNat.testBit k) ++ List.replicate 24 false := by
    apply List.ext_getElem
    · simp
    · intro k h1 h2
      simp only [List.length_map, List.length_range] at h1
      rw [List.getElem_map, List.getElem_range, BitVec.getLsbD_setWidth]
      by_cases hk : k < 8
      · rw [List.getElem_append_left (by simpa using hk)]
        simp [h1]
        rfl
      · rw [List.getElem_append_right (by simpa using hk)]
        rw [List.getElem_replicate, BitVec.getLsbD_of_ge _ _ (by omega), Bool.and_false]
  rw [e, bitsPoly_append, bitsPoly_false, List.length_replicate, add_zero]

theorem registerPoly_fold (data : List UInt8) (s : BitVec 32) : ∃ q, registerPoly (data.foldl crcByte s) =
    X ^ (8 * data.length) * registerPoly s + X ^ 32 * bitsPoly (messageBits data) + crcGenerator * q := by
  induction data generalizing s with
  | nil => exact ⟨0, by simp [messageBits, bitsPoly]⟩
  | cons b data ih =>
      obtain ⟨q, hq⟩ := ih (crcByte s b)
      obtain ⟨r, hr⟩ := registerPoly_steps 8 (s ^^^ b.toBitVec.setWidth 32)
      have hb : registerPoly (crcByte s b) = _ := hr
      rw [registerPoly_xor, registerPoly_setWidth] at hb
      have hm : messageBits (b :: data) = ((List.range 8).map fun k => b.toNat.testBit k) ++ messageBits data := rfl
      have hl : (messageBits data).length = 8 * data.length := by
        unfold messageBits
        rw [List.length_flatMap]
        simp [Nat.mul_comm]
      rw [List.foldl_cons, hq, hb, hm, bitsPoly_append, hl, List.length_cons]
      exact ⟨X ^ (8 * data.length) * r + q, by ring⟩

/-- C146. There is at most one CRC-32. -/
theorem crc32_unique {data : List UInt8} {c c' : Nat} (h : IsCrc32 data c) (h' : IsCrc32 data c') : c = c' := by
  obtain ⟨hc, hd⟩ := h
  obtain ⟨hc', hd'⟩ := h'
  have hdiv := dvd_sub hd' hd
  have e : ∀ a b d e : (ZMod 2)[X], (a - (b + d)) - (a - (e + d)) = e - b := fun a b d e => by ring
  rw [e] at hdiv
  have hdeg : (bitsPoly ((List.range 32).map c.testBit) - bitsPoly ((List.range 32).map c'.testBit)).degree < crcGenerator.degree := by
    have hg : crcGenerator.degree = 32 := by unfold crcGenerator; compute_degree!
    rw [hg]
    refine lt_of_le_of_lt (degree_sub_le _ _) (max_lt ?_ ?_)
    · exact lt_of_lt_of_eq (bitsPoly_degree _) (by simp)
    · exact lt_of_lt_of_eq (bitsPoly_degree _) (by simp)
  have hz := eq_zero_of_dvd_of_degree_lt hdiv hdeg
  have hbits := bitsPoly_injective (by simp) (sub_eq_zero.mp hz)
  apply Nat.eq_of_testBit_eq
  intro k
  by_cases hk : k < 32
  · have := congrArg (fun l => l[k]?) hbits
    simpa [hk] using this
  · rw [Nat.testBit_lt_two_pow (lt_of_lt_of_le hc (Nat.pow_le_pow_right (by norm_num) (by omega))),
      Nat.testBit_lt_two_pow (lt_of_lt_of_le hc' (Nat.pow_le_pow_right (by norm_num) (by omega)))]

/-- C146. `crc32(x)` is the CRC-32 of IEEE 802.3 of the encoding of `x`, and nothing else is. -/
theorem crc32_standard (x : List Char) (c : Nat) : crc32 x = c ↔ IsCrc32 (encode x) c := by
  have key : IsCrc32 (encode x) (crc32 x) := by
    refine ⟨crc32_lt x, ?_⟩
    rw [crc32_eq]
    unfold binasciiCrc32
    obtain ⟨q, hq⟩ := registerPoly_fold (encode x) 0xFFFFFFFF#32
    have h1 : (List.range 32).map (~~~ ((encode x).foldl crcByte 0xFFFFFFFF#32)).toNat.testBit =
        (List.range 32).map fun k => ! ((encode x).foldl crcByte 0xFFFFFFFF#32).getLsbD k := by
      apply List.map_congr_left
      intro k hk
      rw [List.mem_range] at hk
      rw [BitVec.testBit_toNat, BitVec.getLsbD_not]
      simp [hk]
    have h2 : registerPoly 0xFFFFFFFF#32 = bitsPoly (List.replicate 32 true) := by
      unfold registerPoly
      rw [show (List.range 32).map (0xFFFFFFFF#32).getLsbD = List.replicate 32 true by decide]
    rw [h1, bitsPoly_not, List.length_range, bitsPoly_append, bitsPoly_false, List.length_replicate, ← h2]
    have h3 : bitsPoly ((List.range 32).map ((encode x).foldl crcByte 0xFFFFFFFF#32).getLsbD) = _ := hq
    rw [h3]
    have h4 := poly_add_self (registerPoly 0xFFFFFFFF#32)
    exact ⟨-q, by linear_combination -h4⟩
  exact ⟨fun h => h ▸ key, fun h => crc32_unique key h⟩

/-- The check value of the standard. -/
example : IsCrc32 (encode "123456789".toList) 0xCBF43926 := (crc32_standard _ _).mp (by decide +kernel)

/-- A zero byte in front matters. -/
example : ¬ IsCrc32 (encode [Char.ofNat 0]) 0 := fun h => absurd ((crc32_standard _ _).mpr h) (by decide +kernel)

end Fog.Props
