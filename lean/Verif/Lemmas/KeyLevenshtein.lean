import Verif.Model.KeyLevenshtein
import Verif.Lemmas.EditDistance

/-!
# The keys of `levenshtein_1d_keys` as decompositions of the string
-/

namespace Fog.KeyLevenshtein

open Fog.Spec

variable {α : Type _}

/-- `k` replaces one letter of `s` by the flag. -/
def SubKey (flag : α) (s k : List α) : Prop := ∃ u c v, s = u ++ c :: v ∧ k = u ++ flag :: v

/-- `k` adds the flag somewhere in `s`, but not between two equal letters. -/
def AddKey (flag : α) (s k : List α) : Prop := ∃ u v, s = u ++ v ∧ k = u ++ flag :: v ∧ ¬ Doubled u v

variable [DecidableEq α]

omit [DecidableEq α] in
theorem cut_at (s : List α) (i : Nat) (hi : i < s.length) :
    ∃ u c v, s = u ++ c :: v ∧ u.length = i := by
  refine ⟨s.take i, s[i], s.drop (i + 1), ?_, by simp; omega⟩
  rw [← List.drop_eq_getElem_cons hi, List.take_append_drop]

omit [DecidableEq α] in
theorem doubled_iff (u : List α) (c : α) (v : List α) :
    Doubled u (c :: v) ↔ u.length > 0 ∧ (u ++ c :: v)[u.length - 1]? = (u ++ c :: v)[u.length]? := by
  rcases List.eq_nil_or_concat u with rfl | ⟨u, x, rfl⟩
  · simp [Doubled]
  · rw [List.concat_eq_append]
    simp [Doubled, eq_comm]

theorem keysAt_mem (t : Bool) (flag : α) (u : List α) (c : α) (v k : List α) :
    k ∈ keysAt t flag (u ++ c :: v) u.length ↔
      k = u ++ flag :: v ∨ (k = u ++ flag :: c :: v ∧ ¬ Doubled u (c :: v)) ∨
      (t = true ∧ ∃ w x, u = w ++ [x] ∧ x ≠ c ∧ k = w ++ c :: x :: v) := by
  have hd := doubled_iff u c v
  have hsub : (u ++ c :: v).take u.length ++ flag :: (u ++ c :: v).drop (u.length + 1) = u ++ flag :: v := by
    simp [← List.drop_drop]
  have hadd : (u ++ c :: v).take u.length ++ flag :: (u ++ c :: v).drop u.length = u ++ flag :: c :: v := by
    simp
  unfold keysAt
  rw [hsub, hadd]
  by_cases hD : Doubled u (c :: v)
  · have h1 := hd.mp hD
    have h2 : ∀ w x, u = w ++ [x] → x = c := by
      rintro w x rfl
      obtain ⟨y, hy1, hy2⟩ := hD
      simp at hy1 hy2; rw [hy1, hy2]
    simp only [h1.1, h1.2, and_self, true_and, if_true, hD, not_true, and_false, false_or]
    have h3 : ∀ w x, u = w ++ [x] → x ≠ c → k = w ++ c :: x :: v → False := fun w x h ne _ => ne (h2 w x h)
    cases t
    · simp
    · simp only [if_true, List.mem_singleton, true_and]
      constructor
      · intro h; exact Or.inl h
      · rintro (h | ⟨w, x, h4, h5, h6⟩)
        · exact h
        · exact (h3 w x h4 h5 h6).elim
  · have h1 : ¬ (u.length > 0 ∧ (u ++ c :: v)[u.length - 1]? = (u ++ c :: v)[u.length]?) := fun h => hD (hd.mpr h)
    simp only [h1, if_false, hD, not_false_eq_true, and_true]
    rcases List.eq_nil_or_concat u with rfl | ⟨w, x, rfl⟩
    · simp
    · rw [List.concat_eq_append] at *
      have hne : x ≠ c := by
        rintro rfl
        exact hD ⟨x, by simp, by simp⟩
      cases t
      · simp
      · have h5 : ¬ ((w ++ [x]) ++ c :: v)[(w ++ [x]).length - 1]? = ((w ++ [x]) ++ c :: v)[(w ++ [x]).length]? := by
          intro h; exact h1 ⟨by simp, h⟩
        rw [if_pos ⟨by simp, rfl⟩, if_neg h5]
        have h6 : ((w ++ [x]) ++ c :: v).take ((w ++ [x]).length - 1) ++ ((w ++ [x]) ++ c :: v)[(w ++ [x]).length]?.toList
            ++ ((w ++ [x]) ++ c :: v)[(w ++ [x]).length - 1]?.toList ++ ((w ++ [x]) ++ c :: v).drop ((w ++ [x]).length + 1)
            = w ++ c :: x :: v := by
          have e1 : ((w ++ [x]) ++ c :: v)[(w ++ [x]).length]? = some c := by
            rw [List.getElem?_append_right (Nat.le_refl _)]; simp
          have e2 : ((w ++ [x]) ++ c :: v)[(w ++ [x]).length - 1]? = some x := by
            simp
          have e3 : ((w ++ [x]) ++ c :: v).drop ((w ++ [x]).length + 1) = v := by
            rw [← List.drop_drop]; simp
          have e4 : ((w ++ [x]) ++ c :: v).take ((w ++ [x]).length - 1) = w := by
            simp
          rw [e1, e2, e3, e4]; simp
        rw [h6]
        simp only [List.mem_cons, List.not_mem_nil, or_false, true_and]
        constructor
        · rintro (h | h | h)
          · exact Or.inl h
          · exact Or.inr (Or.inr ⟨w, x, rfl, hne, h⟩)
          · exact Or.inr (Or.inl h)
        · rintro (h | h | ⟨w', x', h7, h8, h9⟩)
          · exact Or.inl h
          · exact Or.inr (Or.inr h)
          · obtain ⟨rfl, h⟩ := List.append_inj' h7 rfl
            simp at h; subst h
            exact Or.inr (Or.inl h9)

theorem mem_keys_iff (t : Bool) (flag : α) (s k : List α) :
    k ∈ levenshtein1dKeys t flag s ↔
      k = s ∨ SubKey flag s k ∨ AddKey flag s k ∨ (t = true ∧ SwapsLetters s k) := by
  unfold levenshtein1dKeys
  simp only [List.mem_cons, List.mem_append, List.cons_append, List.mem_flatMap, List.mem_range, List.not_mem_nil,
    or_false]
  constructor
  · rintro (h | ⟨i, hi, h⟩ | h)
    · exact Or.inl h
    · obtain ⟨u, c, v, rfl, rfl⟩ := cut_at s i hi
      rw [keysAt_mem] at h
      rcases h with h | ⟨h, hD⟩ | ⟨ht, w, x, rfl, hne, h⟩
      · exact Or.inr (Or.inl ⟨u, c, v, rfl, h⟩)
      · exact Or.inr (Or.inr (Or.inl ⟨u, c :: v, rfl, h, hD⟩))
      · exact Or.inr (Or.inr (Or.inr ⟨ht, w, x, c, v, hne, by simp, h⟩))
    · exact Or.inr (Or.inr (Or.inl ⟨s, [], by simp, h, by simp [Doubled]⟩))
  · rintro (h | ⟨u, c, v, rfl, rfl⟩ | ⟨u, v, rfl, rfl, hD⟩ | ⟨ht, u, c, d, v, hne, rfl, rfl⟩)
    · exact Or.inl h
    · refine Or.inr (Or.inl ⟨u.length, by simp, ?_⟩)
      rw [keysAt_mem]; exact Or.inl rfl
    · cases v with
      | nil => right; right; simp
      | cons c v =>
          refine Or.inr (Or.inl ⟨u.length, by simp, ?_⟩)
          rw [keysAt_mem]; exact Or.inr (Or.inl ⟨rfl, hD⟩)
    · refine Or.inr (Or.inl ⟨(u ++ [c]).length, by simp, ?_⟩)
      have := (keysAt_mem t flag (u ++ [c]) d v (u ++ d :: c :: v)).mpr
        (Or.inr (Or.inr ⟨ht, u, c, rfl, hne, rfl⟩))
      simpa using this

omit [DecidableEq α] in
/-- A string has at most one cut at a letter which it contains only once. -/
theorem cut_unique {f : α} {u v u' v' : List α} (hu : f ∉ u) (hu' : f ∉ u')
    (h : u ++ f :: v = u' ++ f :: v') : u = u' ∧ v = v' := by
  induction u generalizing u' with
  | nil =>
      cases u' with
      | nil => simpa using h
      | cons y u' => simp at h hu'; exact absurd h.1 hu'.1
  | cons x u ih =>
      cases u' with
      | nil => simp at h hu; exact absurd h.1.symm hu.1
      | cons y u' =>
          simp only [List.cons_append, List.cons.injEq, List.mem_cons, not_or] at h hu hu'
          obtain ⟨h1, h2⟩ := ih hu.2 hu'.2 h.2
          exact ⟨by rw [h.1, h1], h2⟩

omit [DecidableEq α] in
theorem flag_mem_sub {f : α} {s k : List α} (h : SubKey f s k) : f ∈ k := by
  obtain ⟨u, c, v, rfl, rfl⟩ := h; simp

omit [DecidableEq α] in
theorem flag_mem_add {f : α} {s k : List α} (h : AddKey f s k) : f ∈ k := by
  obtain ⟨u, v, rfl, rfl, _⟩ := h; simp

omit [DecidableEq α] in
theorem flag_mem_swap {f : α} {s k : List α} (h : SwapsLetters s k) : f ∈ k ↔ f ∈ s := by
  obtain ⟨u, c, d, v, _, rfl, rfl⟩ := h; simp; grind

omit [DecidableEq α] in
theorem swapsLetters_symm {s k : List α} (h : SwapsLetters s k) : SwapsLetters k s := by
  obtain ⟨u, c, d, v, hne, rfl, rfl⟩ := h
  exact ⟨u, d, c, v, hne.symm, rfl, rfl⟩

theorem share_iff (t : Bool) (flag : α) (A B : List α) (hA : flag ∉ A) (hB : flag ∉ B) :
    (∃ k, k ∈ levenshtein1dKeys t flag A ∧ k ∈ levenshtein1dKeys t flag B) ↔
      A = B ∨ ReplacesLetter A B ∨ AddsLetter A B ∨ AddsLetter B A ∨
      (t = true ∧ (SwapsLetters A B ∨ ∃ k, SwapsLetters A k ∧ SwapsLetters B k)) := by
  constructor
  · rintro ⟨k, ha, hb⟩
    rw [mem_keys_iff] at ha hb
    by_cases hk : flag ∈ k
    · have ha' : SubKey flag A k ∨ AddKey flag A k := by
        rcases ha with rfl | h | h | ⟨_, h⟩
        · exact absurd hk hA
        · exact Or.inl h
        · exact Or.inr h
        · exact absurd ((flag_mem_swap h).mp hk) hA
      have hb' : SubKey flag B k ∨ AddKey flag B k := by
        rcases hb with rfl | h | h | ⟨_, h⟩
        · exact absurd hk hB
        · exact Or.inl h
        · exact Or.inr h
        · exact absurd ((flag_mem_swap h).mp hk) hB
      rcases ha' with ⟨u, c, v, rfl, rfl⟩ | ⟨u, v, rfl, rfl, hD⟩
      · rcases hb' with ⟨u', c', v', rfl, h⟩ | ⟨u', v', rfl, h, hD'⟩
        · obtain ⟨rfl, rfl⟩ := cut_unique (by simp at hA; exact hA.1) (by simp at hB; exact hB.1) h
          exact Or.inr (Or.inl ⟨u, c, c', v, rfl, rfl⟩)
        · obtain ⟨rfl, rfl⟩ := cut_unique (by simp at hA; exact hA.1) (by simp at hB; exact hB.1) h
          exact Or.inr (Or.inr (Or.inr (Or.inl ⟨u, c, v, rfl, rfl, hD'⟩)))
      · rcases hb' with ⟨u', c', v', rfl, h⟩ | ⟨u', v', rfl, h, hD'⟩
        · obtain ⟨rfl, rfl⟩ := cut_unique (by simp at hA; exact hA.1) (by simp at hB; exact hB.1) h
          exact Or.inr (Or.inr (Or.inl ⟨u, c', v, rfl, rfl, hD⟩))
        · obtain ⟨rfl, rfl⟩ := cut_unique (by simp at hA; exact hA.1) (by simp at hB; exact hB.1) h
          exact Or.inl rfl
    · have ha' : k = A ∨ (t = true ∧ SwapsLetters A k) := by
        rcases ha with h | h | h | h
        · exact Or.inl h
        · exact absurd (flag_mem_sub h) hk
        · exact absurd (flag_mem_add h) hk
        · exact Or.inr h
      have hb' : k = B ∨ (t = true ∧ SwapsLetters B k) := by
        rcases hb with h | h | h | h
        · exact Or.inl h
        · exact absurd (flag_mem_sub h) hk
        · exact absurd (flag_mem_add h) hk
        · exact Or.inr h
      rcases ha' with rfl | ⟨ht, h1⟩
      · rcases hb' with rfl | ⟨ht, h2⟩
        · exact Or.inl rfl
        · exact Or.inr (Or.inr (Or.inr (Or.inr ⟨ht, Or.inl (swapsLetters_symm h2)⟩)))
      · rcases hb' with rfl | ⟨_, h2⟩
        · exact Or.inr (Or.inr (Or.inr (Or.inr ⟨ht, Or.inl h1⟩)))
        · exact Or.inr (Or.inr (Or.inr (Or.inr ⟨ht, Or.inr ⟨k, h1, h2⟩⟩)))
  · simp only [mem_keys_iff]
    rintro (rfl | ⟨u, c, d, v, rfl, rfl⟩ | ⟨u, c, v, rfl, rfl, hD⟩ | ⟨u, c, v, rfl, rfl, hD⟩ | ⟨ht, h | ⟨k, h1, h2⟩⟩)
    · exact ⟨A, Or.inl rfl, Or.inl rfl⟩
    · exact ⟨u ++ flag :: v, Or.inr (Or.inl ⟨u, c, v, rfl, rfl⟩), Or.inr (Or.inl ⟨u, d, v, rfl, rfl⟩)⟩
    · exact ⟨u ++ flag :: v, Or.inr (Or.inr (Or.inl ⟨u, v, rfl, rfl, hD⟩)), Or.inr (Or.inl ⟨u, c, v, rfl, rfl⟩)⟩
    · exact ⟨u ++ flag :: v, Or.inr (Or.inl ⟨u, c, v, rfl, rfl⟩), Or.inr (Or.inr (Or.inl ⟨u, v, rfl, rfl, hD⟩))⟩
    · exact ⟨B, Or.inr (Or.inr (Or.inr ⟨ht, h⟩)), Or.inl rfl⟩
    · exact ⟨k, Or.inr (Or.inr (Or.inr ⟨ht, h1⟩)), Or.inr (Or.inr (Or.inr ⟨ht, h2⟩))⟩

end Fog.KeyLevenshtein
