import Verif.Model.Simhash
import Verif.Lemmas.Bits
import Verif.Props.Bits
import Mathlib.Algebra.Order.Field.Rat
import Mathlib.Tactic.Positivity
import Mathlib.Tactic.FieldSimp
import Mathlib.Tactic.Linarith

/-!
# C38: simhash
-/

namespace Fog.Props

open Simhash LshUtils Spec

variable {τ : Type _}

/-- What is asked of the three hash functions: the right number of hexadecimal digits. -/
def LawfulDigest (hexdigest : Nat → τ → List Nat) : Prop :=
  ∀ n token, n = 128 ∨ n = 256 ∨ n = 512 → 4 * (hexdigest n token).length = n ∧ ∀ d ∈ hexdigest n token, d < 16

theorem digestSize_cases (f : Nat) : digestSize f = 128 ∨ digestSize f = 256 ∨ digestSize f = 512 := by
  unfold digestSize; split <;> (try split) <;> simp

/-- The `f` first bits of a digest, read as a number: the digest of 256 bits for 256 bits, that of 512 bits for 512 bits, and that of 128 bits
for other widths. -/
def firstBits (hexdigest : Nat → τ → List Nat) (f : Nat) (token : τ) : Nat :=
  ((hexdigest (match f with | 256 => 256 | 512 => 512 | _ => 128) token).take (f / 4)).foldl (fun n d => 16 * n + d) 0

theorem firstBits_eq (hexdigest : Nat → τ → List Nat) (f : Nat) (token : τ) :
    firstBits hexdigest f token = ((hexdigest (digestSize f) token).take (f / 4)).foldl (fun n d => 16 * n + d) 0 := by
  unfold firstBits digestSize
  split
  · rfl
  · rfl
  · next h1 h2 => rw [if_neg (fun e => h1 e), if_neg (fun e => h2 e)]

theorem foldl_hex_lt : ∀ (digits : List Nat) (n b : Nat), (∀ d ∈ digits, d < 16) → n < b →
    digits.foldl (fun n d => 16 * n + d) n < b * 16 ^ digits.length := by
  intro digits
  induction digits with
  | nil => intro n b _ h; simpa using h
  | cons d digits ih =>
      intro n b h hn
      have hd := h d (by simp)
      have := ih (16 * n + d) (16 * b) (fun x hx => h x (by simp [hx])) (by omega)
      rw [List.foldl_cons, List.length_cons, Nat.pow_succ]
      calc _ < 16 * b * 16 ^ digits.length := this
        _ = b * (16 ^ digits.length * 16) := by rw [Nat.mul_comm 16 b, Nat.mul_assoc, Nat.mul_comm 16]

theorem firstBits_lt {hexdigest : Nat → τ → List Nat} (hh : LawfulDigest hexdigest) {f : Nat} (hf : f % 4 = 0) (token : τ) :
    firstBits hexdigest f token < 2 ^ f := by
  have h := foldl_hex_lt ((hexdigest (digestSize f) token).take (f / 4)) 0 1
    (fun d hd => (hh _ token (digestSize_cases f)).2 d (List.mem_of_mem_take hd)) (by omega)
  rw [firstBits_eq]
  rw [Nat.one_mul] at h
  refine Nat.lt_of_lt_of_le h ?_
  rw [show (16 : Nat) = 2 ^ 4 from rfl, ← Nat.pow_mul]
  apply Nat.pow_le_pow_right (by omega)
  rw [List.length_take]
  omega

theorem shift_and_one (h i : Nat) : (h >>> i) &&& 1 = (h.testBit i).toNat := by
  rw [Nat.and_one_is_mod]
  have := Nat.toNat_testBit h i
  rw [this, Nat.shiftRight_eq_div_pow]

/-- The histogram counts votes: plus one for each hash with the bit, minus one for the others. -/
theorem histogram_spec (hexdigest : Nat → τ → List Nat) (f : Nat) (g : τ → Nat) : ∀ (tokens : List τ) (init : List Int),
    (∀ t ∈ tokens, tokenHash hexdigest f t = .ok (g t)) →
    ∃ hist, histogramOf hexdigest f tokens init = .ok hist ∧ hist.length = init.length ∧
      ∀ i < init.length, hist.getD i 0 =
        init.getD i 0 + 2 * (tokens.countP fun t => (g t).testBit i) - tokens.length := by
  intro tokens
  induction tokens with
  | nil => intro init _; exact ⟨init, rfl, rfl, by simp⟩
  | cons t tokens ih =>
      intro init h
      obtain ⟨hist, h1, h2, h3⟩ := ih (addHash (g t) init) (fun x hx => h x (by simp [hx]))
      refine ⟨hist, ?_, by rw [h2]; simp [addHash], ?_⟩
      · simp only [histogramOf, h t (by simp)]
        exact h1
      · intro i hi
        have hl : (addHash (g t) init).length = init.length := by simp [addHash]
        rw [h3 i (by rw [hl]; exact hi)]
        have hg : (addHash (g t) init).getD i 0 = init.getD i 0 + (if (g t).testBit i then 1 else -1) := by
          simp only [addHash, List.getD_eq_getElem?_getD, List.getElem?_mapIdx, List.getElem?_eq_getElem hi, Option.map_some,
            Option.getD_some, shift_and_one]
          cases (g t).testBit i <;> rfl
        rw [hg, List.countP_cons, List.length_cons]
        cases (g t).testBit i <;> simp <;> omega

theorem foldl_or_testBit (p : Nat → Bool) (f i : Nat) :
    ((List.range f).foldl (fun signature i => if p i = true then signature ||| (1 <<< i) else signature) 0).testBit i =
      (decide (i < f) && p i) := by
  induction f with
  | zero => simp
  | succ f ih =>
      rw [List.range_succ, List.foldl_append]
      simp only [List.foldl_cons, List.foldl_nil]
      generalize (List.range f).foldl (fun signature i => if p i = true then signature ||| (1 <<< i) else signature) 0 = s at *
      by_cases hp : p f = true
      · rw [if_pos hp, Nat.testBit_or, ih, Nat.one_shiftLeft, Nat.testBit_two_pow]
        by_cases h : f = i
        · subst h; simp [hp]
        · have : (i < f + 1) = (i < f) := by simp; omega
          simp [h, this]
      · rw [if_neg hp, ih]
        by_cases h : f = i
        · subst h; simp [hp]
        · have : (i < f + 1) = (i < f) := by simp; omega
          simp [this]

/-- **C38** partial: for the widths 4, 8, ..., 512, bit `i` of the signature is set exactly when it is set in more than half of
the hashes of the tokens; the signature fits in `f` bits. Missing: the widths 1 and 2, see below. -/
theorem simhash_majority_partial {hexdigest : Nat → τ → List Nat} (hh : LawfulDigest hexdigest) (tokens : List τ) {k : Nat}
    (hk : 2 ≤ k) (hk9 : k ≤ 9) :
    ∃ s, simhash hexdigest tokens (2 ^ k) = .ok s ∧ s < 2 ^ (2 ^ k) ∧
      ∀ i, s.testBit i = true ↔
        tokens.length < 2 * (tokens.countP fun t => (firstBits hexdigest (2 ^ k) t).testBit i) := by
  have hf4 : (2 ^ k) % 4 = 0 := by
    obtain ⟨d, rfl⟩ := Nat.exists_eq_add_of_le hk
    rw [Nat.pow_add]; omega
  have hf512 : 2 ^ k ≤ 512 := by
    calc 2 ^ k ≤ 2 ^ 9 := Nat.pow_le_pow_right (by omega) hk9
      _ = 512 := rfl
  have hfpos : 4 ≤ 2 ^ k := by
    have : 0 < 2 ^ k := Nat.two_pow_pos k
    omega
  have hpow : isPowerOfTwo (2 ^ k) = 0 := (is_power_of_two_partial _).mpr (Or.inr ⟨k, rfl⟩)
  have hfit : ∀ t, firstBits hexdigest (2 ^ k) t < 2 ^ (2 ^ k) := fun t => firstBits_lt hh hf4 t
  generalize 2 ^ k = f at *
  have htok : ∀ t ∈ tokens, tokenHash hexdigest f t = .ok (firstBits hexdigest f t) := by
    intro t _
    rw [firstBits_eq]
    unfold tokenHash parseHex
    rw [Nat.shiftRight_eq_div_pow, show (2 : Nat) ^ 2 = 4 from rfl, if_neg]
    intro h0
    have hl := (hh (digestSize f) t (digestSize_cases f)).1
    have hd : 128 ≤ digestSize f := by unfold digestSize; split <;> (try split) <;> omega
    have := congrArg List.length h0
    rw [List.length_take, List.length_nil] at this
    omega
  obtain ⟨hist, h1, h2, h3⟩ := histogram_spec hexdigest f (firstBits hexdigest f) tokens (List.replicate f 0) htok
  rw [List.length_replicate] at h2 h3
  have hbit : ∀ i, ((List.range f).foldl (fun signature i => if hist.getD i 0 > 0 then signature ||| (1 <<< i) else signature)
      0).testBit i = (decide (i < f) && decide (hist.getD i 0 > 0)) := by
    intro i
    have := foldl_or_testBit (fun i => decide (hist.getD i 0 > 0)) f i
    simp only [decide_eq_true_eq] at this
    exact this
  refine ⟨(List.range f).foldl (fun signature i => if hist.getD i 0 > 0 then signature ||| (1 <<< i) else signature) 0, ?_, ?_, ?_⟩
  · unfold simhash
    rw [if_neg (by simp [hf512, hpow]), h1]
    rfl
  · apply Nat.lt_pow_two_of_testBit
    intro i hi
    rw [hbit]
    simp; omega
  · intro i
    rw [hbit]
    by_cases hi : i < f
    · have hh3 := h3 i hi
      have h0 : (List.replicate f (0 : Int)).getD i 0 = 0 := by
        rw [List.getD_eq_getElem?_getD, List.getElem?_replicate]; split <;> rfl
      rw [h0] at hh3
      simp only [hi, decide_true, Bool.true_and, decide_eq_true_eq]
      omega
    · simp only [hi, decide_false, Bool.false_and, Bool.false_eq_true, false_iff]
      have : tokens.countP (fun t => (firstBits hexdigest f t).testBit i) = 0 := by
        rw [List.countP_eq_zero]
        intro t _
        rw [Nat.testBit_lt_two_pow (Nat.lt_of_lt_of_le (hfit t) (Nat.pow_le_pow_right (by omega) (by omega)))]
        simp
      omega

/-- **C38**: hence the order of the tokens does not matter. -/
theorem simhash_perm {hexdigest : Nat → τ → List Nat} (hh : LawfulDigest hexdigest) {tokens tokens' : List τ}
    (hp : tokens.Perm tokens') {k : Nat} (hk : 2 ≤ k) (hk9 : k ≤ 9) :
    simhash hexdigest tokens (2 ^ k) = simhash hexdigest tokens' (2 ^ k) := by
  obtain ⟨s, h1, _, h2⟩ := simhash_majority_partial hh tokens hk hk9
  obtain ⟨s', h1', _, h2'⟩ := simhash_majority_partial hh tokens' hk hk9
  rw [h1, h1']
  congr 1
  apply Nat.eq_of_testBit_eq
  intro i
  have e := h2 i
  have e' := h2' i
  rw [hp.length_eq, hp.countP_eq, ← e'] at e
  exact Bool.eq_iff_iff.mpr e

/-- **C38** is false for the widths 1 and 2, and for 0, which pass the assertion: `int('', 16)` raises a `ValueError`. -/
theorem simhash_narrow (hexdigest : Nat → τ → List Nat) (t : τ) (tokens : List τ) :
    simhash hexdigest (t :: tokens) 0 = .error .valueError ∧
    simhash hexdigest (t :: tokens) 1 = .error .valueError ∧ simhash hexdigest (t :: tokens) 2 = .error .valueError := by
  refine ⟨?_, ?_, ?_⟩ <;> rfl

/-- Other widths are refused. -/
theorem simhash_refused (hexdigest : Nat → τ → List Nat) (tokens : List τ) {f : Nat} (h0 : f ≠ 0) (h : ∀ k ≤ 9, f ≠ 2 ^ k) :
    simhash hexdigest tokens f = .error .assertionError := by
  unfold simhash
  rw [if_pos]
  rintro ⟨h1, h2⟩
  rcases (is_power_of_two_partial f).mp h2 with h3 | ⟨k, hk⟩
  · exact h0 h3
  · have : k ≤ 9 := by
      by_contra hc
      have : 2 ^ 10 ≤ 2 ^ k := Nat.pow_le_pow_right (by omega) (by omega)
      omega
    exact h k this hk

/-- **C38**: `simhash_similarity` is symmetric, between zero and one, and one exactly on equal signatures. -/
theorem simhash_similarity_laws {A B f : Nat} (hf : f ≠ 0) (hA : A < 2 ^ f) (hB : B < 2 ^ f) :
    ∃ s d : ℚ, simhashSimilarity A B f = .ok s ∧ simhashSimilarity B A f = .ok s ∧ 0 ≤ s ∧ s ≤ 1 ∧ (s = 1 ↔ A = B) ∧
      simhashDistance A B f = .ok d ∧ s + d = 1 := by
  have hlt : A ^^^ B < 2 ^ f := Nat.xor_lt_two_pow hA hB
  have hpc := popcount_eq hlt
  have hle := bitCount_le f (A ^^^ B)
  have hfq : (0 : ℚ) < f := by
    have : 0 < f := by omega
    exact_mod_cast this
  have hleq : ((bitCount f (A ^^^ B) : ℕ) : ℚ) / f ≤ 1 := by
    rw [div_le_one hfq]; exact_mod_cast hle
  have h0 : (0 : ℚ) ≤ ((bitCount f (A ^^^ B) : ℕ) : ℚ) / f := by positivity
  refine ⟨1 - ((bitCount f (A ^^^ B) : ℕ) : ℚ) / f, ((bitCount f (A ^^^ B) : ℕ) : ℚ) / f, ?_, ?_, ?_, ?_, ?_, ?_, ?_⟩
  · rw [simhashSimilarity, if_neg hf, hpc]
  · rw [simhashSimilarity, if_neg hf, Nat.xor_comm, hpc]
  · linarith
  · linarith
  · constructor
    · intro h
      have h1 : ((bitCount f (A ^^^ B) : ℕ) : ℚ) / f = 0 := by linarith
      rw [div_eq_zero_iff] at h1
      have h2 : bitCount f (A ^^^ B) = 0 := by
        rcases h1 with h1 | h1
        · exact_mod_cast h1
        · exact absurd h1 hfq.ne'
      have h3 := (bitCount_eq_zero hlt).mp h2
      exact Nat.xor_eq_zero_iff.mp h3
    · rintro rfl
      rw [Nat.xor_self, bitCount_zero]; simp
  · rw [simhashDistance, if_neg hf, hpc]
  · linarith

-- Hash functions of the right sizes.
example : LawfulDigest (fun n (t : Nat) => List.replicate (n / 4) (t % 16)) := by
  rintro n t (rfl | rfl | rfl)
  all_goals
    refine ⟨by simp, fun d hd => ?_⟩
    rw [List.eq_of_mem_replicate hd]
    omega

-- Digits 6, 6 and 5: bit 0 is set once, bit 1 twice, bit 2 three times.
example : simhash (fun n (t : Nat) => List.replicate (n / 4) (t % 16)) [6, 6, 5] 4 = .ok 6 := by decide +kernel

end Fog.Props
