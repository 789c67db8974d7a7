import Verif.Model.Minhash
import Verif.Lemmas.Dedup
import Verif.Props.Bits
import Mathlib.Algebra.Order.Field.Rat
import Mathlib.Tactic.Positivity
import Mathlib.Tactic.FieldSimp
import Mathlib.Tactic.Linarith

/-!
# C34, C64, C65: MinHash signatures
-/

namespace Fog.Props

open Minhash LshUtils Spec

variable {τ : Type _}

/-- The value of a token under the universal hash of coefficients `a` and `b`. -/
def universalHash (a b token : Nat) : Nat := (a * token + b) % 4294967311

/-- The value computed is the least of the hashes of the tokens and of the largest integer of 32 bits. -/
theorem minHash_spec (a b : Nat) (tokens : List Nat) (n : Nat) :
    minHash a b tokens = n ↔
      (n = 2 ^ 32 - 1 ∨ ∃ t ∈ tokens, universalHash a b t = n) ∧ n ≤ 2 ^ 32 - 1 ∧ ∀ t ∈ tokens, n ≤ universalHash a b t := by
  have key : ∀ (l : List Nat) (m : Nat),
      let r := l.foldl (fun min_hash token =>
        let h := (a * token + b) % nextPrime
        if h < min_hash then h else min_hash) m
      (r = m ∨ ∃ t ∈ l, universalHash a b t = r) ∧ r ≤ m ∧ ∀ t ∈ l, r ≤ universalHash a b t := by
    intro l
    induction l with
    | nil => intro m; simp
    | cons t l ih =>
        intro m
        simp only [List.foldl_cons]
        have hu : (a * t + b) % nextPrime = universalHash a b t := rfl
        rw [hu]
        split
        · next hlt =>
          obtain ⟨h1, h2, h3⟩ := ih (universalHash a b t)
          refine ⟨?_, Nat.le_trans h2 (Nat.le_of_lt hlt), ?_⟩
          · right
            rcases h1 with h1 | ⟨t', ht', h1⟩
            · exact ⟨t, by simp, h1.symm⟩
            · exact ⟨t', by simp [ht'], h1⟩
          · intro t' ht'
            rcases List.mem_cons.mp ht' with rfl | ht'
            · exact h2
            · exact h3 t' ht'
        · next hge =>
          obtain ⟨h1, h2, h3⟩ := ih m
          refine ⟨?_, h2, ?_⟩
          · rcases h1 with h1 | ⟨t', ht', h1⟩
            · exact Or.inl h1
            · exact Or.inr ⟨t', by simp [ht'], h1⟩
          · intro t' ht'
            rcases List.mem_cons.mp ht' with rfl | ht'
            · exact Nat.le_trans h2 (Nat.le_of_not_lt hge)
            · exact h3 t' ht'
  obtain ⟨h1, h2, h3⟩ := key tokens maxUint32
  change (minHash a b tokens = _ ∨ _) at h1
  change minHash a b tokens ≤ _ at h2
  change ∀ t ∈ tokens, minHash a b tokens ≤ _ at h3
  constructor
  · rintro rfl
    exact ⟨h1, h2, h3⟩
  · rintro ⟨g1, g2, g3⟩
    apply Nat.le_antisymm
    · rcases g1 with g1 | ⟨t, ht, g1⟩
      · rw [g1]; exact h2
      · rw [← g1]; exact h3 t ht
    · rcases h1 with h1 | ⟨t, ht, h1⟩
      · rw [h1]; exact g2
      · change universalHash a b t = minHash a b tokens at h1
        rw [← h1]; exact g3 t ht

theorem minHash_congr {a b : Nat} {l l' : List Nat} (h : ∀ t, t ∈ l ↔ t ∈ l') : minHash a b l = minHash a b l' := by
  rw [minHash_spec]
  obtain ⟨h1, h2, h3⟩ := (minHash_spec a b l' _).mp rfl
  refine ⟨?_, h2, fun t ht => h3 t ((h t).mp ht)⟩
  rcases h1 with h1 | ⟨t, ht, h1⟩
  · exact Or.inl h1
  · exact Or.inr ⟨t, (h t).mpr ht, h1⟩

theorem minHash_union (a b : Nat) {l l' u : List Nat} (h : ∀ t, t ∈ u ↔ t ∈ l ∨ t ∈ l') :
    minHash a b u = min (minHash a b l) (minHash a b l') := by
  rw [minHash_spec]
  obtain ⟨h1, h2, h3⟩ := (minHash_spec a b l _).mp rfl
  obtain ⟨g1, g2, g3⟩ := (minHash_spec a b l' _).mp rfl
  refine ⟨?_, by omega, ?_⟩
  · rcases Nat.le_total (minHash a b l) (minHash a b l') with hle | hle
    · rw [Nat.min_eq_left hle]
      rcases h1 with h1 | ⟨t, ht, h1⟩
      · exact Or.inl h1
      · exact Or.inr ⟨t, (h t).mpr (Or.inl ht), h1⟩
    · rw [Nat.min_eq_right hle]
      rcases g1 with g1 | ⟨t, ht, g1⟩
      · exact Or.inl g1
      · exact Or.inr ⟨t, (h t).mpr (Or.inr ht), g1⟩
  · intro t ht
    rcases (h t).mp ht with ht | ht
    · have := h3 t ht; omega
    · have := g3 t ht; omega

/-- The order of iteration of a set. -/
def LawfulOrder (ord : List Nat → List Nat) : Prop := ∀ l, (ord l).Perm l

theorem mem_tokenSet {ord : List Nat → List Nat} (ho : LawfulOrder ord) {hash : τ → Nat} {sequence : List τ} {x : Nat} :
    x ∈ Minhash.tokenSet ord hash sequence ↔ ∃ t ∈ sequence, hash t = x := by
  unfold Minhash.tokenSet
  rw [(ho _).mem_iff, mem_dedup, List.mem_map]

theorem length_tokenSet {ord : List Nat → List Nat} (ho : LawfulOrder ord) {hash : τ → Nat} {sequence : List τ} :
    (Minhash.tokenSet ord hash sequence).length = 0 ↔ sequence = [] := by
  rw [List.length_eq_zero_iff, List.eq_nil_iff_forall_not_mem, List.eq_nil_iff_forall_not_mem]
  constructor
  · intro h t ht
    exact h (hash t) ((mem_tokenSet ho).mpr ⟨t, ht, rfl⟩)
  · intro h x hx
    obtain ⟨t, ht, _⟩ := (mem_tokenSet ho).mp hx
    exact h t ht

/-- **C34**: the signature is a function of the set of tokens: order and repetition do not matter, nor does the order in which
the set is iterated upon. -/
theorem create_signature_set {ord ord' : List Nat → List Nat} (ho : LawfulOrder ord) (ho' : LawfulOrder ord') (hash : τ → Nat)
    (params : List (Nat × Nat)) {s s' : List τ} (h : ∀ t, t ∈ s ↔ t ∈ s') :
    createSignature ord hash params s = createSignature ord' hash params s' := by
  have hmem : ∀ x, x ∈ Minhash.tokenSet ord hash s ↔ x ∈ Minhash.tokenSet ord' hash s' := by
    intro x
    rw [mem_tokenSet ho, mem_tokenSet ho']
    exact exists_congr fun t => and_congr_left fun _ => h t
  have hnil : s = [] ↔ s' = [] := by
    rw [List.eq_nil_iff_forall_not_mem, List.eq_nil_iff_forall_not_mem]
    exact forall_congr' fun t => not_congr (h t)
  simp only [createSignature, length_tokenSet ho, length_tokenSet ho', hnil]
  congr 1
  apply List.map_congr_left
  intro p _
  exact minHash_congr hmem

/-- **C34**: every value is the least of the hashes of the tokens, and fits in 32 bits. -/
theorem create_signature_values {ord : List Nat → List Nat} (ho : LawfulOrder ord) (hash : τ → Nat)
    (params : List (Nat × Nat)) (s : List τ) :
    (createSignature ord hash params s).length = params.length ∧ (∀ n ∈ createSignature ord hash params s, n < 2 ^ 32) ∧
    (s ≠ [] → ∀ (i : Nat) p, params[i]? = some p → ∃ n, (createSignature ord hash params s)[i]? = some n ∧
      (n = 2 ^ 32 - 1 ∨ ∃ t ∈ s, universalHash p.1 p.2 (hash t) = n) ∧ ∀ t ∈ s, n ≤ universalHash p.1 p.2 (hash t)) := by
  refine ⟨?_, ?_, ?_⟩
  · unfold createSignature
    simp only
    split <;> simp
  · intro n hn
    unfold createSignature at hn
    simp only at hn
    split at hn
    · rw [List.eq_of_mem_replicate hn]; omega
    · obtain ⟨p, _, rfl⟩ := List.mem_map.mp hn
      have := ((minHash_spec p.1 p.2 (Minhash.tokenSet ord hash s) _).mp rfl).2.1
      omega
  · intro hs i p hp
    simp only [createSignature, length_tokenSet ho, hs, if_false]
    obtain ⟨h1, h2, h3⟩ := (minHash_spec p.1 p.2 (Minhash.tokenSet ord hash s) _).mp rfl
    refine ⟨_, by rw [List.getElem?_map, hp]; rfl, ?_, ?_⟩
    · rcases h1 with h1 | ⟨x, hx, h1⟩
      · exact Or.inl h1
      · obtain ⟨t, ht, rfl⟩ := (mem_tokenSet ho).mp hx
        exact Or.inr ⟨t, ht, h1⟩
    · intro t ht
      exact h3 _ ((mem_tokenSet ho).mpr ⟨t, ht, rfl⟩)

/-- **C34** partial: the signature of a union is the pointwise minimum of the signatures, when no sequence is empty. Missing:
empty sequences, see below. -/
theorem create_signature_union_partial {ord : List Nat → List Nat} (ho : LawfulOrder ord) (hash : τ → Nat)
    (params : List (Nat × Nat)) {s s' u : List τ} (hs : s ≠ []) (hs' : s' ≠ []) (hu : ∀ t, t ∈ u ↔ t ∈ s ∨ t ∈ s') :
    createSignature ord hash params u =
      List.zipWith min (createSignature ord hash params s) (createSignature ord hash params s') := by
  have hune : u ≠ [] := by
    obtain ⟨t, l, rfl⟩ := List.exists_cons_of_ne_nil hs
    intro h
    have := (hu t).mpr (Or.inl (by simp))
    rw [h] at this
    simp at this
  simp only [createSignature, length_tokenSet ho, hs, hs', hune, if_false]
  rw [List.zipWith_map, List.zipWith_self]
  apply List.map_congr_left
  intro p _
  apply minHash_union
  intro x
  rw [mem_tokenSet ho, mem_tokenSet ho, mem_tokenSet ho]
  constructor
  · rintro ⟨t, ht, rfl⟩
    exact ((hu t).mp ht).imp (fun h => ⟨t, h, rfl⟩) (fun h => ⟨t, h, rfl⟩)
  · rintro (⟨t, ht, rfl⟩ | ⟨t, ht, rfl⟩)
    · exact ⟨t, (hu t).mpr (Or.inl ht), rfl⟩
    · exact ⟨t, (hu t).mpr (Or.inr ht), rfl⟩

/-- **C34** is false for the union with an empty sequence: its signature is zero, which is not the largest value. -/
theorem create_signature_empty : createSignature id (fun n : Nat => n) [(3, 5)] ([7] ++ []) = [26] ∧
    List.zipWith min (createSignature id (fun n : Nat => n) [(3, 5)] [7]) (createSignature id (fun n : Nat => n) [(3, 5)] []) =
      [0] := by
  decide +kernel

example : createSignature id (fun n : Nat => n) [(3, 5), (4294967290, 1)] [7, 2, 7] = [11, 4294967165] ∧
    LawfulOrder id := ⟨by decide +kernel, fun l => List.Perm.refl l⟩

/-! ## C64 -/

theorem similarity_loop {β : Type _} [DecidableEq β] : ∀ (A B : List β) (n : Nat), A.length = B.length →
    minhashSimilarity.loop n A B = .ok (n + (A.zip B).countP fun p => p.1 ≠ p.2) := by
  intro A
  induction A with
  | nil => intro B n _; simp [minhashSimilarity.loop]
  | cons a A ih =>
      intro B n h
      cases B with
      | nil => simp at h
      | cons b B =>
          rw [minhashSimilarity.loop, ih B _ (by simpa using h), List.zip_cons_cons, List.countP_cons]
          by_cases hab : a = b <;> simp [hab] <;> omega

theorem countP_ne_eq_zero {β : Type _} [DecidableEq β] : ∀ (A B : List β), A.length = B.length →
    ((A.zip B).countP (fun p => p.1 ≠ p.2) = 0 ↔ A = B) := by
  intro A
  induction A with
  | nil => intro B h; cases B with | nil => simp | cons b B => simp at h
  | cons a A ih =>
      intro B h
      cases B with
      | nil => simp at h
      | cons b B =>
          rw [List.zip_cons_cons, List.countP_cons, Nat.add_eq_zero_iff, ih B (by simpa using h)]
          by_cases hab : a = b <;> simp [hab]

/-- **C64**: on two signatures of the same length, which are not empty, `minhash_similarity` is the share of the positions where
they agree; it is symmetric, between zero and one, and one exactly on equal signatures. -/
theorem minhash_similarity_eq {β : Type _} [DecidableEq β] {A B : List β} (h : A.length = B.length) (hne : A ≠ []) :
    ∃ s : ℚ, minhashSimilarity A B = .ok s ∧ minhashSimilarity B A = .ok s ∧
      s = ((A.zip B).countP fun p => p.1 = p.2 : ℕ) / A.length ∧ 0 ≤ s ∧ s ≤ 1 ∧ (s = 1 ↔ A = B) := by
  have hl : 0 < A.length := List.length_pos_iff.mpr hne
  have hlq : (0 : ℚ) < A.length := by exact_mod_cast hl
  have htot : (A.zip B).countP (fun p => p.1 ≠ p.2) + (A.zip B).countP (fun p => p.1 = p.2) = A.length := by
    have := List.length_eq_countP_add_countP (fun p : β × β => decide (p.1 = p.2)) (l := A.zip B)
    rw [List.length_zip, ← h, Nat.min_self] at this
    rw [this, Nat.add_comm]
    congr 1
    apply List.countP_congr
    intro p _
    by_cases hp : p.1 = p.2 <;> simp [hp]
  have hsym : (B.zip A).countP (fun p => p.1 ≠ p.2) = (A.zip B).countP fun p => p.1 ≠ p.2 := by
    rw [← List.zip_swap, List.countP_map]
    apply List.countP_congr
    intro p _
    simp only [Function.comp, decide_eq_true_eq, Prod.fst_swap, Prod.snd_swap]
    exact ⟨Ne.symm, Ne.symm⟩
  have hqt : (((A.zip B).countP fun p => p.1 ≠ p.2 : ℕ) : ℚ) + ((A.zip B).countP fun p => p.1 = p.2 : ℕ) = A.length := by
    exact_mod_cast htot
  refine ⟨1 - (((A.zip B).countP fun p => p.1 ≠ p.2 : ℕ) : ℚ) / A.length, ?_, ?_, ?_, ?_, ?_, ?_⟩
  · simp only [minhashSimilarity, similarity_loop A B 0 h, if_neg hl.ne', Nat.zero_add]
  · simp only [minhashSimilarity, similarity_loop B A 0 h.symm, ← h, if_neg hl.ne', Nat.zero_add, hsym]
  · field_simp
    linarith
  · rw [sub_nonneg, div_le_one hlq]
    have : (0 : ℚ) ≤ ((A.zip B).countP fun p => p.1 = p.2 : ℕ) := Nat.cast_nonneg _
    linarith
  · have : (0 : ℚ) ≤ (((A.zip B).countP fun p => p.1 ≠ p.2 : ℕ) : ℚ) / A.length := by positivity
    linarith
  · rw [← countP_ne_eq_zero A B h]
    constructor
    · intro h1
      have h2 : (((A.zip B).countP fun p => p.1 ≠ p.2 : ℕ) : ℚ) / A.length = 0 := by linarith
      rw [div_eq_zero_iff] at h2
      rcases h2 with h2 | h2
      · exact_mod_cast h2
      · exact absurd h2 hlq.ne'
    · intro h1
      rw [h1]; simp

example : minhashSimilarity [1, 2, 3, 4] [1, 5, 3, 4] = .ok (3 / 4) := by decide +kernel

/-! ## C65 -/

theorem lsb_fold (tokens : List Nat) : ∀ (params : List (Nat × Nat)) (k n i : Nat),
    ((params.zipIdx k).foldl (fun integer p => integer ||| ((minHash p.1.1 p.1.2 tokens &&& 1) <<< p.2)) n).testBit i =
      (n.testBit i || (decide (k ≤ i) && match params[i - k]? with
        | some p => decide (minHash p.1 p.2 tokens % 2 = 1)
        | none => false)) := by
  intro params
  induction params with
  | nil => intro k n i; simp
  | cons p params ih =>
      intro k n i
      rw [List.zipIdx_cons, List.foldl_cons, ih, Nat.testBit_or, Nat.testBit_shiftLeft, Nat.and_one_is_mod]
      by_cases h1 : k ≤ i
      · by_cases h2 : k = i
        · subst h2
          simp [Nat.testBit_zero]
        · have h3 : i - k = (i - (k + 1)) + 1 := by omega
          rw [h3, List.getElem?_cons_succ]
          have h4 : k + 1 ≤ i := by omega
          have h5 : (minHash p.1 p.2 tokens % 2).testBit (i - (k + 1) + 1) = false := by
            apply Nat.testBit_lt_two_pow
            rw [Nat.pow_succ]
            have := Nat.two_pow_pos (i - (k + 1))
            omega
          simp [h1, h4, h5]
      · have h4 : ¬ k + 1 ≤ i := by omega
        have h5 : ¬ i ≥ k := h1
        simp [h1, h4]

/-- **C65**: bit `i` of integer `s` of an `LSBMinHash` signature is the parity of value `64 * s + i` of the `MinHash` signature
with the same coefficients, and each integer fits in 64 bits. -/
theorem lsb_create_signature_eq {ord : List Nat → List Nat} (ho : LawfulOrder ord) (hash : τ → Nat) (precision : Nat)
    {params : List (Nat × Nat)} (hl : params.length = 64 * precision) (sequence : List τ) :
    (lsbCreateSignature ord hash precision params sequence).length = precision ∧
    ∀ s < precision, ∃ n, (lsbCreateSignature ord hash precision params sequence)[s]? = some n ∧ n < 2 ^ 64 ∧
      ∀ i < 64, ∃ v, (createSignature ord hash params sequence)[64 * s + i]? = some v ∧ (n.testBit i = true ↔ v % 2 = 1) := by
  unfold lsbCreateSignature createSignature
  simp only [length_tokenSet ho]
  by_cases hs : sequence = []
  · simp only [hs, if_true]
    refine ⟨by simp, fun s hlt => ⟨0, by rw [List.getElem?_replicate, if_pos hlt], by omega, fun i hi => ⟨0, ?_, by simp⟩⟩⟩
    rw [List.getElem?_replicate, if_pos (by omega)]
  · simp only [hs, if_false]
    refine ⟨by simp, fun s hlt => ?_⟩
    generalize Minhash.tokenSet ord hash sequence = tokens
    refine ⟨lsbInteger tokens (slice params (s * 64) (s * 64 + 64)), by rw [List.getElem?_map, List.getElem?_range hlt]; rfl, ?_, ?_⟩
    · apply Nat.lt_pow_two_of_testBit
      intro i hi
      unfold lsbInteger
      rw [lsb_fold, Nat.zero_testBit, List.getElem?_eq_none]
      · simp
      · unfold slice
        rw [List.length_drop, List.length_take]
        omega
    · intro i hi
      have hlt' : 64 * s + i < params.length := by omega
      refine ⟨minHash params[64 * s + i].1 params[64 * s + i].2 tokens, ?_, ?_⟩
      · rw [List.getElem?_map, List.getElem?_eq_getElem hlt']; rfl
      · unfold lsbInteger
        rw [lsb_fold]
        unfold slice
        rw [Nat.sub_zero, List.getElem?_drop, List.getElem?_take, if_pos (by omega), show s * 64 + i = 64 * s + i by omega,
          List.getElem?_eq_getElem hlt']
        simp

theorem lsb_similarity_loop : ∀ (A B : List Nat) (n : Nat), A.length = B.length → (∀ a ∈ A, a < 2 ^ 64) → (∀ b ∈ B, b < 2 ^ 64) →
    lsbMinhashSimilarity.loop n A B = .ok (n + ((A.zip B).map fun p => bitCount 64 (p.1 ^^^ p.2)).sum) := by
  intro A
  induction A with
  | nil => intro B n _ _ _; simp [lsbMinhashSimilarity.loop]
  | cons a A ih =>
      intro B n h hA hB
      cases B with
      | nil => simp at h
      | cons b B =>
          rw [lsbMinhashSimilarity.loop, ih B _ (by simpa using h) (fun x hx => hA x (by simp [hx])) (fun x hx => hB x (by simp [hx])),
            List.zip_cons_cons, List.map_cons, List.sum_cons,
            popcount64_eq (Nat.xor_lt_two_pow (hA a (by simp)) (hB b (by simp))), Nat.add_assoc]

theorem sum_bitCount_le (l : List (Nat × Nat)) : (l.map fun p => bitCount 64 (p.1 ^^^ p.2)).sum ≤ 64 * l.length := by
  induction l with
  | nil => simp
  | cons p l ih =>
      have := bitCount_le 64 (p.1 ^^^ p.2)
      rw [List.map_cons, List.sum_cons, List.length_cons]
      omega

theorem sum_bitCount_eq_zero : ∀ (A B : List Nat), A.length = B.length → (∀ a ∈ A, a < 2 ^ 64) → (∀ b ∈ B, b < 2 ^ 64) →
    (((A.zip B).map fun p => bitCount 64 (p.1 ^^^ p.2)).sum = 0 ↔ A = B) := by
  intro A
  induction A with
  | nil => intro B h _ _; cases B with | nil => simp | cons b B => simp at h
  | cons a A ih =>
      intro B h hA hB
      cases B with
      | nil => simp at h
      | cons b B =>
          rw [List.zip_cons_cons, List.map_cons, List.sum_cons, Nat.add_eq_zero_iff,
            ih B (by simpa using h) (fun x hx => hA x (by simp [hx])) (fun x hx => hB x (by simp [hx])),
            bitCount_eq_zero (Nat.xor_lt_two_pow (hA a (by simp)) (hB b (by simp))), Nat.xor_eq_zero_iff]
          simp

/-- **C65**: `lsb_minhash_similarity` is twice the share of bits which agree, minus one: it is symmetric, between minus one and
one, and one exactly on equal signatures. -/
theorem lsb_minhash_similarity_eq {A B : List Nat} (h : A.length = B.length) (hne : A ≠ []) (hA : ∀ a ∈ A, a < 2 ^ 64)
    (hB : ∀ b ∈ B, b < 2 ^ 64) :
    ∃ s : ℚ, lsbMinhashSimilarity A B = .ok s ∧ lsbMinhashSimilarity B A = .ok s ∧
      s = 1 - 2 * (((A.zip B).map fun p => bitCount 64 (p.1 ^^^ p.2)).sum : ℕ) / (64 * A.length : ℕ) ∧ -1 ≤ s ∧ s ≤ 1 ∧
      (s = 1 ↔ A = B) := by
  have hl : 0 < A.length := List.length_pos_iff.mpr hne
  have hlq : (0 : ℚ) < (64 * A.length : ℕ) := by
    have : 0 < 64 * A.length := by omega
    exact_mod_cast this
  have hsym : ((B.zip A).map fun p => bitCount 64 (p.1 ^^^ p.2)).sum = ((A.zip B).map fun p => bitCount 64 (p.1 ^^^ p.2)).sum := by
    rw [← List.zip_swap, List.map_map]
    congr 1
    apply List.map_congr_left
    intro p _
    simp [Nat.xor_comm]
  have hle := sum_bitCount_le (A.zip B)
  rw [List.length_zip, ← h, Nat.min_self] at hle
  have hleq : ((((A.zip B).map fun p => bitCount 64 (p.1 ^^^ p.2)).sum : ℕ) : ℚ) ≤ (64 * A.length : ℕ) := by exact_mod_cast hle
  have h0 : (0 : ℚ) ≤ (((A.zip B).map fun p => bitCount 64 (p.1 ^^^ p.2)).sum : ℕ) := Nat.cast_nonneg _
  refine ⟨_, ?_, ?_, rfl, ?_, ?_, ?_⟩
  · simp only [lsbMinhashSimilarity, lsb_similarity_loop A B 0 h hA hB, if_neg hl.ne', Nat.zero_add, Nat.mul_comm A.length 64]
  · simp only [lsbMinhashSimilarity, lsb_similarity_loop B A 0 h.symm hB hA, ← h, if_neg hl.ne', Nat.zero_add, hsym,
      Nat.mul_comm A.length 64]
  · have : 2 * ((((A.zip B).map fun p => bitCount 64 (p.1 ^^^ p.2)).sum : ℕ) : ℚ) / (64 * A.length : ℕ) ≤ 2 := by
      rw [div_le_iff₀ hlq]; linarith
    linarith
  · have : 0 ≤ 2 * ((((A.zip B).map fun p => bitCount 64 (p.1 ^^^ p.2)).sum : ℕ) : ℚ) / (64 * A.length : ℕ) := by positivity
    linarith
  · rw [← sum_bitCount_eq_zero A B h hA hB]
    constructor
    · intro h1
      have h2 : 2 * ((((A.zip B).map fun p => bitCount 64 (p.1 ^^^ p.2)).sum : ℕ) : ℚ) / (64 * A.length : ℕ) = 0 := by linarith
      rw [div_eq_zero_iff] at h2
      rcases h2 with h2 | h2
      · have h3 : ((((A.zip B).map fun p => bitCount 64 (p.1 ^^^ p.2)).sum : ℕ) : ℚ) = 0 := by linarith
        exact_mod_cast h3
      · exact absurd h2 hlq.ne'
    · intro h1
      rw [h1]; simp

example : lsbMinhashSimilarity [0, 2 ^ 64 - 1] [1, 2 ^ 64 - 1] = .ok (63 / 64) := by decide +kernel

end Fog.Props
