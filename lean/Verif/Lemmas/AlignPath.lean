import Verif.Lemmas.EditDistance
import Verif.Model.Py

/-!
# The path of an alignment

An alignment of `A` and `B` sends each position `i` of `A` to a position `f i` of `B` with `E i` edits made so far.
-/

namespace Fog

variable {α : Type _}

/-! ### Slices -/

theorem slice_succ_succ (x : α) (s : List α) (i j : Nat) : slice (x :: s) (i + 1) (j + 1) = slice s i j := by
  simp [slice]

theorem slice_zero_succ (x : α) (s : List α) (j : Nat) : slice (x :: s) 0 (j + 1) = x :: slice s 0 j := by
  simp [slice]

theorem slice_zero (s : List α) (j : Nat) : slice s 0 j = s.take j := by simp [slice]

theorem slice_self (s : List α) (j : Nat) : slice s j j = [] := by simp [slice]

theorem slice_length (s : List α) (i : Nat) : slice s i s.length = s.drop i := by simp [slice]

theorem slice_slice (s : List α) (a b i j : Nat) (h : a + j ≤ b) :
    slice (slice s a b) i j = slice s (a + i) (a + j) := by
  unfold slice
  rw [List.take_drop, List.take_take, List.drop_drop, Nat.min_eq_left (by omega)]

/-- Equal slices have equal sub-slices at the same offsets. -/
theorem slice_sub {A B : List α} {a b c d : Nat} (h : slice A a b = slice B c d) (i j : Nat) (h1 : a + j ≤ b)
    (h2 : c + j ≤ d) : slice A (a + i) (a + j) = slice B (c + i) (c + j) := by
  rw [← slice_slice A a b i j h1, ← slice_slice B c d i j h2, h]

/-- What a path along an alignment satisfies. -/
structure IsPath (A B : List α) (n : Nat) (f E : Nat → Nat) : Prop where
  start : f 0 ≤ E 0
  total : E A.length ≤ n
  stop_le : f A.length ≤ B.length
  stop : B.length - f A.length ≤ n - E A.length
  step : ∀ i j, i ≤ j → j ≤ A.length → f i ≤ f j ∧ E i ≤ E j ∧
    f j + i ≤ f i + j + (E j - E i) ∧ f i + j ≤ f j + i + (E j - E i)
  same : ∀ i j, i ≤ j → j ≤ A.length → E i = E j → slice A i j = slice B (f i) (f j)
  kept : ∀ i, i < A.length → f (i + 1) = f i + 1 + (E (i + 1) - E i) → A[i]? = B[f i]?

theorem Align.path {A B : List α} {n : Nat} (h : Align A B n) : ∃ f E, IsPath A B n f E := by
  induction h with
  | nil =>
      refine ⟨fun _ => 0, fun _ => 0, by simp, by simp, by simp, by simp, ?_, ?_, ?_⟩
      · intro i j h1 h2; simp at h2; omega
      · intro i j h1 h2 _; simp [slice]
      · intro i h1; simp at h1
  | @keep a b n x h ih =>
      obtain ⟨f, E, p⟩ := ih
      refine ⟨fun i => match i with | 0 => 0 | i + 1 => f i + 1, fun i => match i with | 0 => 0 | i + 1 => E i,
        Nat.le_refl _, p.total, ?_, ?_, ?_, ?_, ?_⟩
      · have := p.stop_le; simp only [List.length_cons]; omega
      · have := p.stop; simp only [List.length_cons]; omega
      · intro i j hij hj
        simp only [List.length_cons] at hj
        cases i with
        | zero =>
            cases j with
            | zero => simp
            | succ j =>
                have h1 := p.step 0 j (by omega) (by omega)
                have h2 := p.start
                simp only; omega
        | succ i =>
            cases j with
            | zero => omega
            | succ j =>
                have h1 := p.step i j (by omega) (by omega)
                simp only; omega
      · intro i j hij hj he
        simp only [List.length_cons] at hj
        cases i with
        | zero =>
            cases j with
            | zero => simp [slice_self]
            | succ j =>
                simp only at he ⊢
                have h1 := p.step 0 j (by omega) (by omega)
                have h2 := p.start
                have h3 := p.same 0 j (by omega) (by omega) (by omega)
                rw [show f 0 = 0 by omega] at h3
                rw [slice_zero_succ, slice_zero_succ, h3]
        | succ i =>
            cases j with
            | zero => omega
            | succ j =>
                simp only at he ⊢
                rw [slice_succ_succ, slice_succ_succ]
                exact p.same i j (by omega) (by omega) he
      · intro i hi he
        simp only [List.length_cons] at hi
        cases i with
        | zero => simp
        | succ i =>
            simp only at he
            have := p.kept i (by omega) (by omega)
            simpa using this
  | @sub a b n x y h ih =>
      obtain ⟨f, E, p⟩ := ih
      refine ⟨fun i => match i with | 0 => 0 | i + 1 => f i + 1, fun i => match i with | 0 => 0 | i + 1 => E i + 1,
        Nat.le_refl _, ?_, ?_, ?_, ?_, ?_, ?_⟩
      · have := p.total; simp only [List.length_cons]; omega
      · have := p.stop_le; simp only [List.length_cons]; omega
      · have := p.stop; simp only [List.length_cons]; omega
      · intro i j hij hj
        simp only [List.length_cons] at hj
        cases i with
        | zero =>
            cases j with
            | zero => simp
            | succ j =>
                have h1 := p.step 0 j (by omega) (by omega)
                have h2 := p.start
                simp only; omega
        | succ i =>
            cases j with
            | zero => omega
            | succ j =>
                have h1 := p.step i j (by omega) (by omega)
                simp only; omega
      · intro i j hij hj he
        simp only [List.length_cons] at hj
        cases i with
        | zero =>
            cases j with
            | zero => simp [slice_self]
            | succ j => simp only at he; omega
        | succ i =>
            cases j with
            | zero => omega
            | succ j =>
                simp only at he ⊢
                rw [slice_succ_succ, slice_succ_succ]
                exact p.same i j (by omega) (by omega) (by omega)
      · intro i hi he
        simp only [List.length_cons] at hi
        cases i with
        | zero => simp only at he; have := p.start; omega
        | succ i =>
            simp only at he
            have := p.kept i (by omega) (by omega)
            simpa using this
  | @del a b n x h ih =>
      obtain ⟨f, E, p⟩ := ih
      refine ⟨fun i => match i with | 0 => 0 | i + 1 => f i, fun i => match i with | 0 => 0 | i + 1 => E i + 1,
        Nat.le_refl _, ?_, ?_, ?_, ?_, ?_, ?_⟩
      · have := p.total; simp only [List.length_cons]; omega
      · have := p.stop_le; simp only [List.length_cons]; omega
      · have := p.stop; simp only [List.length_cons]; omega
      · intro i j hij hj
        simp only [List.length_cons] at hj
        cases i with
        | zero =>
            cases j with
            | zero => simp
            | succ j =>
                have h1 := p.step 0 j (by omega) (by omega)
                have h2 := p.start
                simp only; omega
        | succ i =>
            cases j with
            | zero => omega
            | succ j =>
                have h1 := p.step i j (by omega) (by omega)
                simp only; omega
      · intro i j hij hj he
        simp only [List.length_cons] at hj
        cases i with
        | zero =>
            cases j with
            | zero => simp [slice_self]
            | succ j => simp only at he; omega
        | succ i =>
            cases j with
            | zero => omega
            | succ j =>
                simp only at he ⊢
                rw [slice_succ_succ]
                exact p.same i j (by omega) (by omega) (by omega)
      · intro i hi he
        simp only [List.length_cons] at hi
        cases i with
        | zero => simp only at he; have := p.start; omega
        | succ i =>
            simp only at he
            have := p.kept i (by omega) (by omega)
            simpa using this
  | @ins a b n y h ih =>
      obtain ⟨f, E, p⟩ := ih
      refine ⟨fun i => f i + 1, fun i => E i + 1, ?_, ?_, ?_, ?_, ?_, ?_, ?_⟩
      · have := p.start; omega
      · have := p.total; omega
      · have := p.stop_le; simp only [List.length_cons]; omega
      · have := p.stop; simp only [List.length_cons]; omega
      · intro i j hij hj
        have := p.step i j hij hj
        omega
      · intro i j hij hj he
        rw [slice_succ_succ]
        exact p.same i j hij hj (by omega)
      · intro i hi he
        have := p.kept i hi (by omega)
        simpa using this

/-- Along a path, nothing edited before `i` means equal prefixes. -/
theorem IsPath.take_eq {A B : List α} {n : Nat} {f E : Nat → Nat} (p : IsPath A B n f E) {i : Nat} (hi : i ≤ A.length)
    (h : E i = 0) : f i = i ∧ A.take i = B.take i := by
  have h1 := p.step 0 i (by omega) hi
  have h2 := p.start
  have h3 := p.same 0 i (by omega) hi (by omega)
  rw [show f 0 = 0 by omega, slice_zero, slice_zero, show f i = i by omega] at h3
  exact ⟨by omega, h3⟩

/-- Along a path, nothing edited after `i` means equal suffixes. -/
theorem IsPath.drop_eq {A B : List α} {n : Nat} {f E : Nat → Nat} (p : IsPath A B n f E) {i : Nat} (hi : i ≤ A.length)
    (h : E i = n) : f i + (A.length - i) = B.length ∧ A.drop i = B.drop (f i) := by
  have h1 := p.step i A.length hi (Nat.le_refl _)
  have h2 := p.total
  have h3 := p.stop
  have h4 := p.stop_le
  have h5 := p.same i A.length hi (Nat.le_refl _) (by omega)
  rw [show f A.length = B.length by omega, slice_length, slice_length] at h5
  exact ⟨by omega, h5⟩

end Fog
