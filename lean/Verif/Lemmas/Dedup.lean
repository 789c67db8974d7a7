import Verif.Model.Py

/-! # Lemmas about the elements of a set -/

namespace Fog

variable {α : Type _} [DecidableEq α]

theorem mem_dedup {l : List α} {a : α} : a ∈ dedup l ↔ a ∈ l := by
  induction l with
  | nil => simp [dedup]
  | cons b l ih =>
      rw [dedup]
      split
      · next h =>
          rw [ih, List.mem_cons]
          refine ⟨Or.inr, ?_⟩
          rintro (rfl | h')
          · exact h
          · exact h'
      · rw [List.mem_cons, List.mem_cons, ih]

theorem nodup_dedup (l : List α) : (dedup l).Nodup := by
  induction l with
  | nil => simp [dedup]
  | cons b l ih =>
      rw [dedup]
      split
      · exact ih
      · next h => exact List.nodup_cons.mpr ⟨fun h' => h (mem_dedup.mp h'), ih⟩

theorem dedup_eq_self {l : List α} (h : l.Nodup) : dedup l = l := by
  induction l with
  | nil => rfl
  | cons b l ih =>
      rw [List.nodup_cons] at h
      rw [dedup, if_neg h.1, ih h.2]

end Fog
