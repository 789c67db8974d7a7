/-! # General list lemmas -/

namespace Fog

/-- Induction on lists from the end. -/
theorem snoc_induction {α : Type _} {p : List α → Prop} (nil : p [])
    (snoc : ∀ (l : List α) (x : α), p l → p (l ++ [x])) (l : List α) : p l := by
  have : ∀ n (l : List α), l.length = n → p l := by
    intro n
    induction n with
    | zero => intro l h; rw [List.length_eq_zero_iff.mp h]; exact nil
    | succ n ih =>
        intro l h
        rcases List.eq_nil_or_concat l with rfl | ⟨l', x, rfl⟩
        · simp at h
        · rw [List.concat_eq_append] at h ⊢; exact snoc l' x (ih l' (by simp at h; exact h))
  exact this _ l rfl

end Fog
