import Verif.Model.KeyLevenshtein
import Verif.Spec.Doubles
import Mathlib.Data.List.Nodup
import Mathlib.Data.List.Range
import Mathlib.Tactic.SplitIfs

/-!
# How many blocking keys a string has (`fog/key/levenshtein.py`)
-/

namespace Fog.Props

open Fog.Spec Fog.KeyLevenshtein

variable {α : Type _} [DecidableEq α]

/-! ## C106 -/

theorem doubles_range (a : α) (l : List α) :
    ((List.range l.length).filter fun i => decide ((a :: l)[i]? = l[i]?)).length = doubles (a :: l) := by
  induction l generalizing a with
  | nil => rfl
  | cons b l ih =>
      rw [List.length_cons, List.range_succ_eq_map, List.filter_cons]
      have : ((List.map Nat.succ (List.range l.length)).filter fun i => decide ((a :: b :: l)[i]? = (b :: l)[i]?)).length =
          doubles (b :: l) := by
        rw [← ih b, List.filter_map, List.length_map]
        rfl
      simp only [List.getElem?_cons_zero, Option.some.injEq, decide_eq_true_eq, doubles]
      split_ifs <;> simp [this, Nat.add_comm]

theorem doubles_positions (s : List α) :
    ((List.range s.length).filter fun i => decide (i > 0 ∧ s[i - 1]? = s[i]?)).length = doubles s := by
  cases s with
  | nil => rfl
  | cons a l =>
      rw [← doubles_range a l, List.length_cons, List.range_succ_eq_map, List.filter_cons, if_neg (by simp), List.filter_map, List.length_map]
      congr 1
      apply List.filter_congr
      intro i hi
      simp [Function.comp]

theorem length_flatMap_count {β γ : Type _} (l : List β) (f : β → List γ) (p : β → Bool) (a b : Nat)
    (hp : ∀ x ∈ l, (f x).length + (if p x then b else 0) = a) :
    (l.flatMap f).length + b * (l.filter p).length = a * l.length := by
  induction l with
  | nil => simp
  | cons x l ih =>
      have h1 := hp x (by simp)
      have h2 := ih fun y hy => hp y (by simp [hy])
      rw [List.flatMap_cons, List.length_append, List.filter_cons]
      split_ifs at h1 ⊢ <;> simp only [List.length_cons, Nat.mul_add, Nat.mul_one] <;> omega

/-- **C106**: the number of keys of `levenshtein_1d_keys`. The documentation has one more. -/
theorem levenshtein_1d_keys_count_partial (flag : α) (s : List α) :
    (levenshtein1dKeys false flag s).length + doubles s = 2 * s.length + 2 := by
  have := length_flatMap_count (List.range s.length) (keysAt false flag s) (fun i => decide (i > 0 ∧ s[i - 1]? = s[i]?)) 2 1 (by
    intro i _
    by_cases h : i > 0 ∧ s[i - 1]? = s[i]?
    · simp [keysAt, h]
    · simp [keysAt, h])
  rw [doubles_positions, List.length_range] at this
  simp only [levenshtein1dKeys, List.length_append, List.length_cons, List.length_nil]
  omega

/-- **C106**: with transpositions; the documentation has one more here too. -/
theorem damerau_levenshtein_1d_keys_count_partial (flag : α) (s : List α) (h : s ≠ []) :
    (levenshtein1dKeys true flag s).length + 2 * doubles s = 3 * s.length + 1 := by
  cases s with
  | nil => exact absurd rfl h
  | cons a l =>
      have e := length_flatMap_count (List.range l.length) (fun i => keysAt true flag (a :: l) (i + 1))
        (fun i => decide ((a :: l)[i]? = l[i]?)) 3 2 (by
        intro i _
        by_cases h : (a :: l)[i]? = l[i]?
        · simp [keysAt, h]
        · simp [keysAt, h])
      rw [doubles_range, List.length_range] at e
      simp only [levenshtein1dKeys, List.length_append, List.length_cons, List.length_nil, List.range_succ_eq_map, List.flatMap_cons,
        List.flatMap_map]
      have e0 : (keysAt true flag (a :: l) 0).length = 2 := by simp [keysAt]
      simp only [Nat.succ_eq_add_one] at *
      omega

/-- What a key of `keysAt` is: a substitution, an addition or a transposition. -/
theorem keysAt_mem (t : Bool) (flag : α) (s : List α) (i : Nat) (k : List α) (h : k ∈ keysAt t flag s i) :
    k = s.take i ++ flag :: s.drop (i + 1) ∨ k = s.take i ++ flag :: s.drop i ∨
      ∃ m, i = m + 1 ∧ s[m]? ≠ s[m + 1]? ∧ k = s.take m ++ s[m + 1]?.toList ++ s[m]?.toList ++ s.drop (m + 2) := by
  unfold keysAt at h
  simp only at h
  split_ifs at h with h1 h2 h3
  · simp only [List.mem_singleton] at h; exact Or.inl h
  · simp only [List.mem_cons, List.not_mem_nil, or_false] at h
    obtain ⟨m, rfl⟩ : ∃ m, i = m + 1 := ⟨i - 1, by omega⟩
    rcases h with h | h
    · exact Or.inl h
    · exact Or.inr (Or.inr ⟨m, rfl, h2, h⟩)
  · simp only [List.mem_cons, List.not_mem_nil, or_false] at h
    obtain ⟨m, rfl⟩ : ∃ m, i = m + 1 := ⟨i - 1, by omega⟩
    rcases h with h | h | h
    · exact Or.inl h
    · exact Or.inr (Or.inr ⟨m, rfl, h2, h⟩)
    · exact Or.inr (Or.inl h)
  · simp only [List.mem_singleton] at h; exact Or.inl h
  · simp only [List.mem_cons, List.not_mem_nil, or_false] at h
    rcases h with h | h
    · exact Or.inl h
    · exact Or.inr (Or.inl h)

theorem idxOf_flag {flag : α} {s : List α} (hf : flag ∉ s) {i : Nat} (hi : i ≤ s.length) (r : List α) :
    (s.take i ++ flag :: r).idxOf flag = i := by
  rw [List.idxOf_append_of_notMem (fun h => hf (List.mem_of_mem_take h))]
  simp [hi]

theorem swap_facts {flag : α} {s : List α} (hf : flag ∉ s) {m : Nat} (hm : m + 1 < s.length) :
    let k := s.take m ++ s[m + 1]?.toList ++ s[m]?.toList ++ s.drop (m + 2)
    k.length = s.length ∧ flag ∉ k ∧ k[m]? = s[m + 1]? ∧ ∀ j < m, k[j]? = s[j]? := by
  have h1 : m < s.length := by omega
  simp only [List.getElem?_eq_getElem hm, List.getElem?_eq_getElem h1, Option.toList_some]
  refine ⟨?_, ?_, ?_, ?_⟩
  · simp; omega
  · simp only [List.mem_append, List.mem_singleton, not_or]
    refine ⟨⟨⟨fun h => hf (List.mem_of_mem_take h), ?_⟩, ?_⟩, fun h => hf (List.mem_of_mem_drop h)⟩
    · intro h; exact hf (h ▸ List.getElem_mem hm)
    · intro h; exact hf (h ▸ List.getElem_mem h1)
  · simp [List.append_assoc, List.getElem?_append, h1, Nat.min_eq_left (Nat.le_of_lt h1)]
  · intro j hj
    rw [List.append_assoc, List.append_assoc, List.getElem?_append_left (by simp; omega), List.getElem?_take_of_lt hj]

/-- **C106**: no key is given twice, when the flag is not in the string. -/
theorem levenshtein_1d_keys_nodup (t : Bool) (flag : α) (s : List α) (hf : flag ∉ s) : (levenshtein1dKeys t flag s).Nodup := by
  have noflag : ∀ (i : Nat) (r : List α), flag ∈ s.take i ++ flag :: r := by intro i r; simp
  have sub_len : ∀ i < s.length, (s.take i ++ flag :: s.drop (i + 1)).length = s.length := by intro i hi; simp; omega
  have add_len : ∀ i ≤ s.length, (s.take i ++ flag :: s.drop i).length = s.length + 1 := by intro i hi; simp; omega
  unfold levenshtein1dKeys
  rw [List.cons_append, List.nodup_cons, List.nodup_append]
  have last : s ++ [flag] = s.take s.length ++ flag :: s.drop s.length := by simp
  refine ⟨?_, ?_, by simp, ?_⟩
  · intro h
    simp only [List.mem_append, List.mem_flatMap, List.mem_range, List.mem_singleton] at h
    rcases h with ⟨i, hi, hk⟩ | h
    · rcases keysAt_mem t flag s i s hk with e | e | ⟨m, rfl, hne, e⟩
      · exact hf (e ▸ noflag i _)
      · exact hf (e ▸ noflag i _)
      · obtain ⟨-, -, q, -⟩ := swap_facts hf hi
        rw [← e] at q
        exact hne q
    · exact hf (by rw [h]; simp)
  · rw [List.nodup_flatMap]
    constructor
    · intro i hi
      rw [List.mem_range] at hi
      have sa : s.take i ++ flag :: s.drop (i + 1) ≠ s.take i ++ flag :: s.drop i := by
        intro e
        have := congrArg List.length e
        rw [sub_len i hi, add_len i (by omega)] at this
        omega
      unfold keysAt
      simp only
      by_cases h0 : i = 0
      · subst h0; simpa using sa
      · obtain ⟨m, rfl⟩ : ∃ m, i = m + 1 := ⟨i - 1, by omega⟩
        obtain ⟨q1, q2, -, -⟩ := swap_facts hf hi
        have st : s.take (m + 1) ++ flag :: s.drop (m + 1 + 1) ≠ s.take m ++ s[m + 1]?.toList ++ s[m]?.toList ++ s.drop (m + 2) := by
          intro e; exact q2 (e ▸ noflag _ _)
        have ta : s.take m ++ s[m + 1]?.toList ++ s[m]?.toList ++ s.drop (m + 2) ≠ s.take (m + 1) ++ flag :: s.drop (m + 1) := by
          intro e; exact q2 (e ▸ noflag _ _)
        simp only [Nat.add_sub_cancel]
        split_ifs <;> simp only [List.nodup_cons, List.mem_cons, List.not_mem_nil, or_false, not_or, not_false_eq_true, and_true,
          List.nodup_nil, true_and]
        · exact st
        · exact ⟨⟨st, sa⟩, ta⟩
        · exact sa
    · refine List.Pairwise.imp_of_mem ?_ (List.pairwise_lt_range)
      intro i j hi hj hij
      rw [List.mem_range] at hi hj
      simp only [Function.onFun]
      intro k hk hk'
      rcases keysAt_mem t flag s i k hk with e | e | ⟨m, rfl, hne, e⟩ <;>
        rcases keysAt_mem t flag s j k hk' with e' | e' | ⟨m', rfl, hne', e'⟩
      · have h1 := idxOf_flag hf (by omega : i ≤ s.length) (s.drop (i + 1))
        have h2 := idxOf_flag hf (by omega : j ≤ s.length) (s.drop (j + 1))
        rw [← e] at h1; rw [← e'] at h2; omega
      · have h1 := sub_len i hi
        have h2 := add_len j (by omega)
        rw [← e] at h1; rw [← e'] at h2; omega
      · exact (swap_facts hf hj).2.1 (e' ▸ e ▸ noflag _ _)
      · have h1 := add_len i (by omega)
        have h2 := sub_len j hj
        rw [← e] at h1; rw [← e'] at h2; omega
      · have h1 := idxOf_flag hf (by omega : i ≤ s.length) (s.drop i)
        have h2 := idxOf_flag hf (by omega : j ≤ s.length) (s.drop j)
        rw [← e] at h1; rw [← e'] at h2; omega
      · exact (swap_facts hf hj).2.1 (e' ▸ e ▸ noflag _ _)
      · exact (swap_facts hf hi).2.1 (e ▸ e' ▸ noflag _ _)
      · exact (swap_facts hf hi).2.1 (e ▸ e' ▸ noflag _ _)
      · obtain ⟨-, -, q, -⟩ := swap_facts hf hi
        obtain ⟨-, -, -, q'⟩ := swap_facts hf hj
        have q' := q' m (by omega)
        rw [← e] at q; rw [← e'] at q'
        exact hne (q'.symm.trans q)
  · intro k hk k' hk' e
    simp only [List.mem_flatMap, List.mem_range] at hk
    simp only [List.mem_singleton] at hk'
    subst e
    obtain ⟨i, hi, hk⟩ := hk
    rw [last] at hk'
    rcases keysAt_mem t flag s i k hk with e | e | ⟨m, rfl, hne, e⟩
    · have h1 := sub_len i hi
      have h2 := add_len s.length (Nat.le_refl _)
      rw [← e] at h1; rw [← hk'] at h2; omega
    · have h1 := idxOf_flag hf (by omega : i ≤ s.length) (s.drop i)
      have h2 := idxOf_flag hf (Nat.le_refl s.length) (s.drop s.length)
      rw [← e] at h1; rw [← hk'] at h2; omega
    · have := (swap_facts hf hi).1
      rw [← e] at this
      have h2 := add_len s.length (Nat.le_refl _)
      rw [← hk'] at h2; omega

-- `hello` has one doubled letter: 11 keys, where the documentation has 13; 14 with transpositions, where it has 17.
example : (levenshtein1dKeys false '*' "hello".toList).length = 11 ∧ (levenshtein1dKeys true '*' "hello".toList).length = 14 ∧
    doubles "hello".toList = 1 ∧ '*' ∉ "hello".toList := by decide +kernel

-- With the flag in the string there are repeated keys.
example : ¬ (levenshtein1dKeys false '*' "a*".toList).Nodup := by decide +kernel

/-- **C106 is false**: the number of keys of the documentation is never the number of keys. -/
theorem levenshtein_1d_keys_count_documented (flag : α) (s : List α) :
    (levenshtein1dKeys false flag s).length ≠ 2 * s.length + 3 ∧ (s ≠ [] → (levenshtein1dKeys true flag s).length ≠ 3 * s.length + 2) := by
  constructor
  · have := levenshtein_1d_keys_count_partial flag s; omega
  · intro h
    have := damerau_levenshtein_1d_keys_count_partial flag s h; omega

/-- **C106**: the number of blocks of `levenshtein_1d_blocks`: two for an even length, or four with transpositions; four for an odd one,
but three for a single letter. -/
theorem levenshtein_1d_blocks_count_partial (t : Bool) (flag : α) (s : List α) :
    (levenshtein1dBlocks t flag s).length =
      if s.length = 1 then 3 else if s.length % 2 = 0 ∧ t = false then 2 else 4 := by
  unfold levenshtein1dBlocks
  cases t <;> simp only [] <;> split_ifs <;> simp_all

/-- **C106**: the number of blocks of `levenshtein_2d_blocks`: three, six or seven. -/
theorem levenshtein_2d_blocks_count_partial (t : Bool) (f1 f2 f3 : α) (s : List α) (blocks : List (List α))
    (h : levenshtein2dBlocks t f1 f2 f3 s = .ok blocks) :
    blocks.length = if s.length % 3 ≠ 0 then 7 else if t then 6 else 3 := by
  unfold levenshtein2dBlocks at h
  simp only at h
  split_ifs at h ⊢ with h1 h2 h3
  all_goals first
    | (cases h; simp; done)
    | omega
    | skip
  · split at h
    · cases h; simp
    · cases h

example : (levenshtein1dBlocks true '*' "a".toList).length = 3 ∧ (levenshtein1dBlocks true '*' "ab".toList).length = 4 ∧
    (levenshtein1dBlocks false '*' "ab".toList).length = 2 := by decide +kernel

example : ∃ blocks, levenshtein2dBlocks false '1' '2' '3' "abcde".toList = .ok blocks ∧ blocks.length = 7 := ⟨_, rfl, rfl⟩

end Fog.Props
