import Verif.Lemmas.SuperMinhash
import Verif.Props.Minhash

/-!
# Properties of SuperMinHash signatures (C72)
-/

namespace Fog.Props

open Fog.SuperMinhash Fog.Spec

variable {τ : Type}

/-- What is known of `rng.random()`. -/
def LawfulRandom (rand : Nat → Nat → ℚ) : Prop := ∀ token j, 0 ≤ rand token j ∧ rand token j < 1

theorem super_values {rand : Nat → Nat → ℚ} (hr : LawfulRandom rand) {m : Nat} (hm : 0 < m) (tokens : List Nat) :
    ∃ s, outer rand m tokens.zipIdx (start m) = .ok s ∧ s.h.length = m ∧
      ∀ pos < m, ∃ v, s.h[pos]? = some v ∧ IsLeast (candidateValues rand m tokens pos) v := by
  have hq : ∀ y ∈ (start m).q, y < ((0 : Nat) : Int) := by
    intro y hy
    simp only [start] at hy
    rw [List.eq_of_mem_replicate hy]
    decide
  have := outer_spec (fun t j => (hr t j).1) (fun t j => (hr t j).2) tokens 0 [] (start m) (base_start hm) hq (by
    intro pos hpos
    refine ⟨(m : ℚ) + 1, by simp [start, hpos], .inl rfl, ?_⟩
    rintro u (rfl | ⟨t, ht, _⟩)
    · exact le_refl _
    · simp at ht)
  simpa using this

/-- **C72**: at each position, the signature holds the integer part of the least value given by the tokens, as if each token had shuffled
all positions. The loop that stops early and the permutation that is reset lazily change nothing, and no exception is raised. -/
theorem super_minhash_eq {ord : List Nat → List Nat} (ho : LawfulOrder ord) (hash : τ → Nat) {rand : Nat → Nat → ℚ} (hr : LawfulRandom rand)
    {m : Nat} (hm : 0 < m) (sequence : List τ) :
    ∃ signature, SuperMinhash.createSignature ord hash rand m sequence = .ok signature ∧
      IsSuperSignature rand m (sequence.map hash) signature := by
  obtain ⟨s, e, hl, hs⟩ := super_values hr hm (Minhash.tokenSet ord hash sequence)
  refine ⟨s.h.map fun v => ⌊v⌋, ?_, by simp [hl], ?_⟩
  · unfold SuperMinhash.createSignature
    simp only [if_neg (show m ≠ 0 by omega), e, bind, Except.bind, pure, Except.pure]
  · intro pos hpos
    obtain ⟨v, h1, h2⟩ := hs pos hpos
    refine ⟨v, ?_, by simp [h1]⟩
    have : candidateValues rand m (Minhash.tokenSet ord hash sequence) pos = candidateValues rand m (sequence.map hash) pos := by
      unfold candidateValues
      simp only [mem_tokenSet ho, List.mem_map]
    rwa [← this]

example : ∃ signature, SuperMinhash.createSignature List.reverse (fun n : Nat => n) (fun token j => ((token + j) % 4 : Nat) / 4) 3 [5, 2, 7] = .ok signature ∧
    IsSuperSignature (fun token j => ((token + j) % 4 : Nat) / 4) 3 ([5, 2, 7].map fun n => n) signature :=
  super_minhash_eq List.reverse_perm _ (by
    intro token j
    have : (token + j) % 4 < 4 := Nat.mod_lt _ (by decide)
    have h : (((token + j) % 4 : Nat) : ℚ) < 4 := by exact_mod_cast this
    constructor
    · positivity
    · linarith) (by decide) _

theorem super_signature_unique {rand : Nat → Nat → ℚ} {m : Nat} {tokens tokens' : List Nat} (h : ∀ t, t ∈ tokens ↔ t ∈ tokens')
    {x y : List Int} (hx : IsSuperSignature rand m tokens x) (hy : IsSuperSignature rand m tokens' y) : x = y := by
  apply List.ext_getElem?
  intro pos
  by_cases hpos : pos < m
  · obtain ⟨v, h1, h2⟩ := hx.2 pos hpos
    obtain ⟨w, h3, h4⟩ := hy.2 pos hpos
    have hc : candidateValues rand m tokens pos = candidateValues rand m tokens' pos := by
      unfold candidateValues
      simp only [h]
    rw [hc] at h1
    rw [h2, h4, h1.unique h3]
  · rw [List.getElem?_eq_none (by rw [hx.1]; omega), List.getElem?_eq_none (by rw [hy.1]; omega)]

/-- **C72**: the signature is a function of the set of tokens: order and repetition do not matter, nor does the order in which Python
iterates over the set. -/
theorem super_minhash_set {ord ord' : List Nat → List Nat} (ho : LawfulOrder ord) (ho' : LawfulOrder ord') (hash : τ → Nat)
    {rand : Nat → Nat → ℚ} (hr : LawfulRandom rand) (m : Nat) {s s' : List τ} (hs : ∀ t, t ∈ s ↔ t ∈ s') :
    SuperMinhash.createSignature ord hash rand m s = SuperMinhash.createSignature ord' hash rand m s' := by
  rcases Nat.eq_zero_or_pos m with rfl | hm
  · rfl
  · obtain ⟨x, e1, h1⟩ := super_minhash_eq ho hash hr hm s
    obtain ⟨y, e2, h2⟩ := super_minhash_eq ho' hash hr hm s'
    rw [e1, e2, super_signature_unique (by simp [hs]) h1 h2]

example : LawfulRandom (fun _ j => 1 / (j + 2)) ∧ (∀ t, t ∈ [1, 2, 2, 3] ↔ t ∈ [3, 1, 2]) := by
  refine ⟨fun _ j => ⟨by positivity, ?_⟩, fun t => by grind⟩
  have : (0 : ℚ) ≤ j := Nat.cast_nonneg j
  rw [div_lt_one (by linarith)]
  linarith

/-- **C72**: at each position, the signature of a union is the least of the two signatures. -/
theorem super_minhash_union {ord : List Nat → List Nat} (ho : LawfulOrder ord) (hash : τ → Nat) {rand : Nat → Nat → ℚ}
    (hr : LawfulRandom rand) {m : Nat} (hm : 0 < m) (s s' : List τ) :
    ∃ x y, SuperMinhash.createSignature ord hash rand m s = .ok x ∧ SuperMinhash.createSignature ord hash rand m s' = .ok y ∧
      SuperMinhash.createSignature ord hash rand m (s ++ s') = .ok (List.zipWith min x y) := by
  obtain ⟨x, e1, h1⟩ := super_minhash_eq ho hash hr hm s
  obtain ⟨y, e2, h2⟩ := super_minhash_eq ho hash hr hm s'
  obtain ⟨z, e3, h3⟩ := super_minhash_eq ho hash hr hm (s ++ s')
  refine ⟨x, y, e1, e2, ?_⟩
  rw [e3]
  refine congrArg _ (super_signature_unique (tokens' := (s ++ s').map hash) (fun _ => Iff.rfl) h3 ⟨by simp [h1.1, h2.1], ?_⟩)
  intro pos hpos
  obtain ⟨v, k1, k2⟩ := h1.2 pos hpos
  obtain ⟨w, l1, l2⟩ := h2.2 pos hpos
  refine ⟨min v w, ?_, ?_⟩
  · have : candidateValues rand m ((s ++ s').map hash) pos =
        candidateValues rand m (s.map hash) pos ∪ candidateValues rand m (s'.map hash) pos := by
      ext u
      simp only [candidateValues, List.map_append, List.mem_append, Set.mem_setOf_eq, Set.mem_union]
      constructor
      · rintro (h | ⟨t, h | h, g⟩)
        · exact .inl (.inl h)
        · exact .inl (.inr ⟨t, h, g⟩)
        · exact .inr (.inr ⟨t, h, g⟩)
      · rintro ((h | ⟨t, h, g⟩) | (h | ⟨t, h, g⟩))
        · exact .inl h
        · exact .inr ⟨t, .inl h, g⟩
        · exact .inl h
        · exact .inr ⟨t, .inr h, g⟩
    rw [this]
    exact k1.union l1
  · rw [List.getElem?_zipWith, k2, l2]
    simp only [Option.some.injEq]
    rcases le_total v w with h | h
    · rw [min_eq_left h, min_eq_left (Int.floor_le_floor h)]
    · rw [min_eq_right h, min_eq_right (Int.floor_le_floor h)]

/-- **C72**: when there is a token, the integers go from `0` to `m - 1`; without tokens, all of them are `m + 1`; and `h=0` raises. -/
theorem super_minhash_range {ord : List Nat → List Nat} (ho : LawfulOrder ord) (hash : τ → Nat) {rand : Nat → Nat → ℚ}
    (hr : LawfulRandom rand) :
    (∀ m, 0 < m → ∀ s : List τ, s ≠ [] → ∃ x, SuperMinhash.createSignature ord hash rand m s = .ok x ∧
      ∀ n ∈ x, 0 ≤ n ∧ n < (m : Int)) ∧
    (∀ m, 0 < m → SuperMinhash.createSignature ord hash rand m ([] : List τ) = .ok (List.replicate m ((m : Int) + 1))) ∧
    (∀ s : List τ, SuperMinhash.createSignature ord hash rand 0 s = .error .indexError) := by
  refine ⟨?_, ?_, fun _ => rfl⟩
  · intro m hm s hs
    obtain ⟨x, e, h1, h2⟩ := super_minhash_eq ho hash hr hm s
    refine ⟨x, e, fun n hn => ?_⟩
    obtain ⟨pos, hp⟩ := List.mem_iff_getElem?.mp hn
    have hpos : pos < m := by
      rw [← h1]
      exact (List.getElem?_eq_some_iff.mp hp).1
    obtain ⟨v, k1, k2⟩ := h2 pos hpos
    rw [hp] at k2
    cases k2
    constructor
    · rw [Int.floor_nonneg]
      rcases k1.1 with h | ⟨t, _, j, _, _, h⟩
      · rw [h]; positivity
      · rw [h]
        have := (hr t j).1
        positivity
    · cases s with
      | nil => exact absurd rfl hs
      | cons t s =>
          have hperm := fisherYates_perm (k := drawn (rand (hash t)) m) (m := m)
            (fun j hj => drawn_lt (fun j => (hr (hash t) j).1) (fun j => (hr (hash t) j).2) hj) m (Nat.le_refl m)
          have hmem := hperm.mem_iff.mpr (List.mem_range.mpr hpos)
          obtain ⟨j, hj⟩ := List.mem_iff_getElem?.mp hmem
          have hjm : j < m := by
            have := (List.getElem?_eq_some_iff.mp hj).1
            rwa [length_fisherYates] at this
          have hle : v ≤ rand (hash t) j + j := k1.2 (.inr ⟨hash t, by simp, j, hjm, hj, rfl⟩)
          rw [Int.floor_lt]
          have h3 := (hr (hash t) j).2
          have h4 : (j : ℚ) + 1 ≤ m := by exact_mod_cast hjm
          push_cast
          linarith
  · intro m hm
    obtain ⟨x, e, h1, h2⟩ := super_minhash_eq ho hash hr hm ([] : List τ)
    rw [e]
    congr 1
    apply List.ext_getElem?
    intro pos
    by_cases hpos : pos < m
    · obtain ⟨v, k1, k2⟩ := h2 pos hpos
      rw [k2]
      rcases k1.1 with h | ⟨t, ht, _⟩
      · rw [h]
        have := Int.floor_intCast (R := ℚ) ((m : Int) + 1)
        push_cast at this
        simp [hpos, this]
      · simp at ht
    · rw [List.getElem?_eq_none (by omega), List.getElem?_eq_none (by simp; omega)]

example : LawfulOrder List.reverse ∧ LawfulRandom (fun token j => if token = j then 0 else 1 / 2) := by
  refine ⟨List.reverse_perm, fun token j => ?_⟩
  dsimp only
  split <;> norm_num

end Fog.Props
