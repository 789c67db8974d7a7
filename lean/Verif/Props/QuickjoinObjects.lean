import Verif.Model.QuickjoinObjects
import Verif.Props.Quickjoin
import Mathlib.Algebra.Order.Ring.Rat
import Mathlib.Data.List.Basic
import Mathlib.Tactic.NormNum

/-!
# quickjoin with a vantage point tree, when equal items are different objects (C156)
-/

namespace Fog.Props

open Fog.QuickjoinObjects

variable {β K : Type _} [DecidableEq β] [Field K] [LinearOrder K]

/-- C156. The pairs which are yielded, by their values and in one of both orders, are those of different values within the radius, whatever the identities. -/
theorem self_vptree_objects (S : List (Obj β)) (distance : β → β → K) (radius : K) (hsym : ∀ x y, distance x y = distance y x)
    (hid : ∀ A ∈ S, ∀ B ∈ S, A.ident = B.ident → A.value = B.value) (neighbors : Obj β → List (Obj β))
    (hn : ∀ A ∈ S, ∀ B, B ∈ neighbors A ↔ B ∈ S ∧ distance A.value B.value ≤ radius) (x y : β) :
    ((∃ p ∈ QuickjoinObjects.selfVptree neighbors S, p.1.value = x ∧ p.2.value = y) ∨
      ∃ p ∈ QuickjoinObjects.selfVptree neighbors S, p.1.value = y ∧ p.2.value = x) ↔
    x ≠ y ∧ x ∈ S.map Obj.value ∧ y ∈ S.map Obj.value ∧ distance x y ≤ radius := by
  have hmem : ∀ p : Obj β × Obj β, p ∈ QuickjoinObjects.selfVptree neighbors S ↔
      p.1 ∈ S ∧ p.2 ∈ S ∧ distance p.1.value p.2.value ≤ radius ∧ p.1.value ≠ p.2.value ∧ p.1.ident < p.2.ident := by
    rintro ⟨A, B⟩
    unfold QuickjoinObjects.selfVptree
    split
    · next h1 =>
        obtain ⟨C, rfl⟩ := List.length_eq_one_iff.mp h1
        simp only [List.not_mem_nil, List.mem_singleton, false_iff, not_and]
        rintro rfl rfl _ h
        exact absurd rfl h
    · simp only [List.mem_flatMap, List.mem_filterMap]
      constructor
      · rintro ⟨A', hA, B', hB, h⟩
        split at h
        · cases h
        · next hv =>
            split at h
            · next hlt => cases h; exact ⟨hA, ((hn A hA B).mp hB).1, ((hn A hA B).mp hB).2, hv, hlt⟩
            · cases h
      · rintro ⟨hA, hB, hd, hv, hlt⟩
        exact ⟨A, hA, B, (hn A hA B).mpr ⟨hB, hd⟩, by rw [if_neg hv, if_pos hlt]⟩
  simp only [hmem, List.mem_map]
  constructor
  · rintro (⟨p, ⟨h1, h2, hd, hv, _⟩, rfl, rfl⟩ | ⟨p, ⟨h1, h2, hd, hv, _⟩, rfl, rfl⟩)
    · exact ⟨hv, ⟨_, h1, rfl⟩, ⟨_, h2, rfl⟩, hd⟩
    · exact ⟨hv.symm, ⟨_, h2, rfl⟩, ⟨_, h1, rfl⟩, by rw [hsym]; exact hd⟩
  · rintro ⟨hv, ⟨A, hA, rfl⟩, ⟨B, hB, rfl⟩, hd⟩
    rcases Nat.lt_trichotomy A.ident B.ident with h | h | h
    · exact Or.inl ⟨(A, B), ⟨hA, hB, hd, hv, h⟩, rfl, rfl⟩
    · exact absurd (hid A hA B hB h) hv
    · exact Or.inr ⟨(B, A), ⟨hB, hA, by rw [hsym]; exact hd, fun e => hv e.symm, h⟩, rfl, rfl⟩

/-- C156. These are the pairs of different values which comparing everything finds. -/
theorem self_vptree_objects_bruteforce (S : List (Obj β)) (distance : β → β → K) (radius : K) (hsym : ∀ x y, distance x y = distance y x)
    (hid : ∀ A ∈ S, ∀ B ∈ S, A.ident = B.ident → A.value = B.value) (neighbors : Obj β → List (Obj β))
    (hn : ∀ A ∈ S, ∀ B, B ∈ neighbors A ↔ B ∈ S ∧ distance A.value B.value ≤ radius) (x y : β) (hxy : x ≠ y) :
    ((∃ p ∈ QuickjoinObjects.selfVptree neighbors S, p.1.value = x ∧ p.2.value = y) ∨
      ∃ p ∈ QuickjoinObjects.selfVptree neighbors S, p.1.value = y ∧ p.2.value = x) ↔
    (x, y) ∈ Quickjoin.selfBruteforce (S.map Obj.value) distance radius ∨ (y, x) ∈ Quickjoin.selfBruteforce (S.map Obj.value) distance radius := by
  rw [self_vptree_objects S distance radius hsym hid neighbors hn x y]
  have hb : ∀ (l : List β) (x y : β), (x, y) ∈ Quickjoin.selfBruteforce l distance radius ↔ [x, y].Sublist l ∧ distance x y ≤ radius := by
    intro l x y
    induction l with
    | nil => simp [Quickjoin.selfBruteforce]
    | cons A l ih =>
        rw [Quickjoin.selfBruteforce, List.mem_append, ih, List.mem_filterMap, List.cons_sublist_cons']
        constructor
        · rintro (⟨B, hB, h⟩ | ⟨h1, h2⟩)
          · split at h
            · next hd => cases h; exact ⟨Or.inr ⟨rfl, List.singleton_sublist.mpr hB⟩, hd⟩
            · cases h
          · exact ⟨Or.inl h1, h2⟩
        · rintro ⟨h | ⟨rfl, h⟩, hd⟩
          · exact Or.inr ⟨h, hd⟩
          · exact Or.inl ⟨y, List.singleton_sublist.mp h, by rw [if_pos hd]⟩
  have hs : ∀ (l : List β), x ∈ l → y ∈ l → [x, y].Sublist l ∨ [y, x].Sublist l := by
    intro l hx hy
    induction l with
    | nil => cases hx
    | cons A l ih =>
        rcases List.mem_cons.mp hx with rfl | hx'
        · rcases List.mem_cons.mp hy with h | hy
          · exact absurd h.symm hxy
          · exact Or.inl (List.cons_sublist_cons.mpr (List.singleton_sublist.mpr hy))
        · rcases List.mem_cons.mp hy with rfl | hy
          · exact Or.inr (List.cons_sublist_cons.mpr (List.singleton_sublist.mpr hx'))
          · exact (ih hx' hy).imp (fun h => h.cons _) fun h => h.cons _
  rw [hb, hb]
  constructor
  · rintro ⟨_, hx, hy, hd⟩
    exact (hs _ hx hy).imp (fun h => ⟨h, hd⟩) fun h => ⟨h, by rw [hsym]; exact hd⟩
  · rintro (⟨h, hd⟩ | ⟨h, hd⟩)
    · exact ⟨hxy, h.subset (by simp), h.subset (by simp), hd⟩
    · exact ⟨hxy, h.subset (by simp), h.subset (by simp), by rw [hsym]; exact hd⟩

/-- Two objects of value 0 around one of value 1 in memory: the pair is yielded in both orders. -/
example : (QuickjoinObjects.selfVptree (fun _ => [⟨10, 0⟩, ⟨20, 1⟩, ⟨30, 0⟩]) [⟨10, 0⟩, ⟨20, 1⟩, ⟨30, 0⟩]).map (fun p => (p.1.value, p.2.value)) =
    [((0 : Nat), 1), (1, 0)] := by decide +kernel

/-- This tree finds the neighbors of the objects, for the radius 1. -/
example : ∀ A ∈ [(⟨10, 0⟩ : Obj Nat), ⟨20, 1⟩, ⟨30, 0⟩], ∀ B, B ∈ [(⟨10, 0⟩ : Obj Nat), ⟨20, 1⟩, ⟨30, 0⟩] ↔
    B ∈ [(⟨10, 0⟩ : Obj Nat), ⟨20, 1⟩, ⟨30, 0⟩] ∧ (if A.value = B.value then 0 else 1 : Rat) ≤ 1 := by
  intro A _ B
  refine ⟨fun h => ⟨h, ?_⟩, fun h => h.1⟩
  split <;> norm_num

end Fog.Props
