import Verif.Lemmas.PyMonad
import Verif.Spec.Faults

/-!
# The first fault of a list
-/

namespace Fog

open Fog.Spec

theorem mapM_error_iff {α β : Type} (f : α → Py β) (l : List α) (e : PyErr) :
    l.mapM f = .error e ↔ FirstFault (fun x e => f x = .error e) l e := by
  induction l with
  | nil =>
      constructor
      · intro h; cases h
      · rintro ⟨before, x, after, h, _⟩; simp at h
  | cons a l ih =>
      rw [List.mapM_cons]
      constructor
      · intro h
        cases ha : f a with
        | error e' =>
            rw [ha] at h
            injection h with h
            subst h
            exact ⟨[], a, l, rfl, by simp, ha⟩
        | ok b =>
            rw [ha] at h
            cases hl : l.mapM f with
            | ok bs =>
                exfalso
                have h' : (do let bs ← l.mapM f; pure (b :: bs) : Py (List β)) = .error e := h
                rw [hl] at h'
                cases h'
            | error e' =>
                have h' : (do let bs ← l.mapM f; pure (b :: bs) : Py (List β)) = .error e := h
                rw [hl] at h'
                injection h' with h'
                subst h'
                obtain ⟨before, x, after, rfl, hb, hx⟩ := ih.mp hl
                refine ⟨a :: before, x, after, rfl, ?_, hx⟩
                intro y hy
                rcases List.mem_cons.mp hy with rfl | hy
                · intro e' hc
                  have hc : f y = .error e' := hc
                  rw [ha] at hc
                  cases hc
                · exact hb y hy
      · rintro ⟨before, x, after, hl, hb, hx⟩
        cases before with
        | nil =>
            simp only [List.nil_append, List.cons.injEq] at hl
            obtain ⟨rfl, rfl⟩ := hl
            rw [hx]
            rfl
        | cons y before =>
            simp only [List.cons_append, List.cons.injEq] at hl
            obtain ⟨rfl, rfl⟩ := hl
            have ih' := ih.mpr ⟨before, x, after, rfl, fun z hz => hb z (by simp [hz]), hx⟩
            cases ha : f a with
            | error e' => exact absurd ha (hb a (by simp) e')
            | ok b =>
                rw [ih']
                rfl

end Fog
