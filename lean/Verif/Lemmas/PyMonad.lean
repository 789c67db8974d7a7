import Verif.Model.Py
import Mathlib.Data.List.Forall2

/-!
# Loops which may raise
-/

namespace Fog

/-- A loop none of whose turns raises. -/
theorem mapM_forall₂ {α β : Type _} {R : α → β → Prop} (f : α → Py β) (l : List α) (h : ∀ a ∈ l, ∃ b, f a = .ok b ∧ R a b) :
    ∃ bs, l.mapM f = .ok bs ∧ List.Forall₂ R l bs := by
  induction l with
  | nil => exact ⟨[], rfl, .nil⟩
  | cons a l ih =>
      obtain ⟨b, hb, hr⟩ := h a (by simp)
      obtain ⟨bs, hbs, hrs⟩ := ih (fun x hx => h x (by simp [hx]))
      refine ⟨b :: bs, ?_, .cons hr hrs⟩
      rw [List.mapM_cons, hb, hbs]
      rfl

/-- A loop which keeps an invariant. -/
theorem foldlM_inv {α β : Type _} {I : β → Prop} (f : β → α → Py β) (l : List α) (h : ∀ b, I b → ∀ a ∈ l, ∃ b', f b a = .ok b' ∧ I b')
    {b : β} (hb : I b) : ∃ b', l.foldlM f b = .ok b' ∧ I b' := by
  induction l generalizing b with
  | nil => exact ⟨b, rfl, hb⟩
  | cons a l ih =>
      obtain ⟨b', hb', hi⟩ := h b hb a (by simp)
      obtain ⟨b'', hb'', hi'⟩ := ih (fun b hb a ha => h b hb a (by simp [ha])) hi
      refine ⟨b'', ?_, hi'⟩
      rw [List.foldlM_cons, hb']
      exact hb''

theorem forall₂_getElem? {α β : Type _} {R : α → β → Prop} {l : List α} {l' : List β} (h : List.Forall₂ R l l') {i : Nat} {b : β}
    (hb : l'[i]? = some b) : ∃ a, l[i]? = some a ∧ R a b := by
  induction h generalizing i with
  | nil => simp at hb
  | cons hr _ ih =>
      cases i with
      | zero => simp only [List.getElem?_cons_zero, Option.some.injEq] at hb; subst hb; exact ⟨_, rfl, hr⟩
      | succ i => simpa using ih (by simpa using hb)

end Fog
