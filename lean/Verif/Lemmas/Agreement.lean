import Verif.Spec.Graph
import Verif.Spec.Lists
import Verif.Spec.Positions
import Mathlib.Data.List.Nodup

/-!
# Components of positions and components of items
-/

namespace Fog.Spec

variable {α : Type _}

theorem pair_sublist_iff {l : List α} {a b : α} :
    [a, b].Sublist l ↔ ∃ i j : Nat, i < j ∧ l[i]? = some a ∧ l[j]? = some b := by
  induction l with
  | nil => simp
  | cons x l ih =>
      constructor
      · intro h
        cases h with
        | cons _ h =>
            obtain ⟨i, j, hij, h1, h2⟩ := ih.mp h
            exact ⟨i + 1, j + 1, by omega, by simpa using h1, by simpa using h2⟩
        | cons_cons _ h =>
            obtain ⟨j, h2⟩ := List.getElem?_of_mem (List.singleton_sublist.mp h)
            exact ⟨0, j + 1, by omega, by simp, by simpa using h2⟩
      · rintro ⟨i, j, hij, h1, h2⟩
        obtain ⟨j, rfl⟩ : ∃ j', j = j' + 1 := ⟨j - 1, by omega⟩
        rw [List.getElem?_cons_succ] at h2
        cases i with
        | zero =>
            simp only [List.getElem?_cons_zero, Option.some.injEq] at h1
            subst h1
            exact List.Sublist.cons_cons _ (List.singleton_sublist.mpr (List.mem_of_getElem? h2))
        | succ i =>
            rw [List.getElem?_cons_succ] at h1
            exact List.Sublist.cons _ (ih.mpr ⟨i, j, by omega, h1, h2⟩)

/-- Two different items of a list without repetition. -/
theorem twoItems_nodup {l : List α} (hl : l.Nodup) {a b : α} : TwoItems l a b ↔ a ∈ l ∧ b ∈ l ∧ a ≠ b := by
  constructor
  · have key : ∀ {a b : α}, [a, b].Sublist l → a ∈ l ∧ b ∈ l ∧ a ≠ b := by
      intro a b h
      refine ⟨h.subset (by simp), h.subset (by simp), ?_⟩
      have := h.nodup hl
      rintro rfl
      simp at this
    rintro (h | h)
    · exact key h
    · exact ⟨(key h).2.1, (key h).1, (key h).2.2.symm⟩
  · rintro ⟨ha, hb, hab⟩
    obtain ⟨i, hi⟩ := List.getElem?_of_mem ha
    obtain ⟨j, hj⟩ := List.getElem?_of_mem hb
    rcases Nat.lt_trichotomy i j with h | h | h
    · exact Or.inl (pair_sublist_iff.mpr ⟨i, j, h, hi, hj⟩)
    · subst h
      rw [hi] at hj
      exact absurd (Option.some.inj hj) hab
    · exact Or.inr (pair_sublist_iff.mpr ⟨j, i, h, hj, hi⟩)

/-- Different items of the data which are similar. -/
def SimilarItems (similar : α → α → Prop) (data : List α) (a b : α) : Prop := a ∈ data ∧ b ∈ data ∧ a ≠ b ∧ similar a b

theorem SimilarItems.symm {similar : α → α → Prop} (hs : ∀ a b, similar a b → similar b a) {data : List α} (a b : α)
    (h : SimilarItems similar data a b) : SimilarItems similar data b a :=
  ⟨h.2.1, h.1, h.2.2.1.symm, hs _ _ h.2.2.2⟩

section positions

variable {similarity : α → α → Bool} {data : List α} (hn : data.Nodup) (hs : ∀ a b, similarity a b = similarity b a)

include hn in
theorem position_inj {i j : Nat} {a : α} (hi : data[i]? = some a) (hj : data[j]? = some a) : i = j := by
  obtain ⟨h1, h1'⟩ := List.getElem?_eq_some_iff.mp hi
  obtain ⟨h2, h2'⟩ := List.getElem?_eq_some_iff.mp hj
  exact (List.Nodup.getElem_inj_iff hn).mp (h1'.trans h2'.symm)

include hn hs in
theorem similarPositions_iff {i j : Nat} {a b : α} (hi : data[i]? = some a) (hj : data[j]? = some b) :
    SimilarPositions similarity data i j ↔ SimilarItems (fun a b => similarity a b = true) data a b := by
  unfold SimilarPositions SimilarItems
  constructor
  · rintro (⟨hij, x, y, hx, hy, h⟩ | ⟨hij, x, y, hx, hy, h⟩)
    · rw [hi] at hx; rw [hj] at hy
      cases hx; cases hy
      refine ⟨List.mem_of_getElem? hi, List.mem_of_getElem? hj, ?_, h⟩
      rintro rfl
      have := position_inj hn hi hj
      omega
    · rw [hj] at hx; rw [hi] at hy
      cases hx; cases hy
      refine ⟨List.mem_of_getElem? hi, List.mem_of_getElem? hj, ?_, (hs _ _).trans h⟩
      rintro rfl
      have := position_inj hn hi hj
      omega
  · rintro ⟨_, _, hab, h⟩
    rcases Nat.lt_trichotomy i j with hij | hij | hij
    · exact Or.inl ⟨hij, a, b, hi, hj, h⟩
    · subst hij
      rw [hi] at hj
      exact absurd (Option.some.inj hj) hab
    · exact Or.inr ⟨hij, b, a, hj, hi, by rw [hs]; exact h⟩

theorem SimilarPositions.lt {i j : Nat} (h : SimilarPositions similarity data i j) : i < data.length ∧ j < data.length := by
  have key : ∀ {i : Nat} {a : α}, data[i]? = some a → i < data.length := fun h => (List.getElem?_eq_some_iff.mp h).1
  rcases h with ⟨_, _, _, h1, h2, _⟩ | ⟨_, _, _, h1, h2, _⟩
  · exact ⟨key h1, key h2⟩
  · exact ⟨key h2, key h1⟩

include hn hs in
theorem connected_items {i : Nat} {a : α} (hi : data[i]? = some a) {b : α} :
    Connected (SimilarItems (fun a b => similarity a b = true) data) a b ↔
      ∃ j, data[j]? = some b ∧ Connected (SimilarPositions similarity data) i j := by
  constructor
  · intro h
    induction h generalizing i with
    | refl a => exact ⟨i, hi, .refl _⟩
    | @step a c d h1 h2 ih =>
        obtain ⟨k, hk⟩ := List.getElem?_of_mem h1.2.1
        obtain ⟨j, hj, hc⟩ := ih hk
        exact ⟨j, hj, .step ((similarPositions_iff hn hs hi hk).mpr h1) hc⟩
  · rintro ⟨j, hj, hc⟩
    induction hc generalizing a with
    | refl i =>
        rw [hi] at hj
        rw [Option.some.inj hj]
        exact .refl _
    | @step i k j h1 h2 ih =>
        obtain ⟨c, hc⟩ : ∃ c, data[k]? = some c := ⟨_, List.getElem?_eq_getElem h1.lt.2⟩
        exact .step ((similarPositions_iff hn hs hi hc).mp h1) (ih hc hj)

include hn hs in
theorem component_items {i : Nat} {a : α} (hi : data[i]? = some a) {c : List Nat}
    (h : IsComponentOf (SimilarPositions similarity data) i c) :
    IsComponentOf (SimilarItems (fun a b => similarity a b = true) data) a (c.filterMap fun i => data[i]?) ∧
      (c.filterMap fun i => data[i]?).length = c.length := by
  have hlt : ∀ j ∈ c, j < data.length := by
    intro j hj
    have hc := (h.2 j).mp hj
    have : i < data.length := (List.getElem?_eq_some_iff.mp hi).1
    clear hj h hi
    induction hc with
    | refl => exact this
    | step h1 _ ih => exact ih h1.lt.2
  refine ⟨⟨?_, ?_⟩, ?_⟩
  · refine List.Nodup.filterMap ?_ h.1
    intro i j b h1 h2
    exact position_inj hn h1 h2
  · intro x
    rw [List.mem_filterMap, connected_items hn hs hi]
    constructor
    · rintro ⟨j, hj, hx⟩
      exact ⟨j, hx, (h.2 j).mp hj⟩
    · rintro ⟨j, hx, hj⟩
      exact ⟨j, (h.2 j).mpr hj, hx⟩
  · clear h
    induction c with
    | nil => rfl
    | cons j c ih =>
        rw [List.filterMap_cons, List.getElem?_eq_getElem (hlt j (by simp))]
        simp only [List.length_cons]
        rw [ih fun j hj => hlt j (List.mem_cons_of_mem _ hj)]

include hn hs in
/-- Components of positions give those of items, when those of a single item are not wanted. -/
theorem components_items [DecidableEq α] {ok : Nat → Prop} (hok : ∀ n, ok n → 2 ≤ n) {ps : List (List Nat)}
    (h : IsComponents (SimilarPositions similarity data) (fun i => i < data.length) ok ps) :
    IsComponents (SimilarItems (fun a b => similarity a b = true) data)
      (fun a => ∃ b, SimilarItems (fun a b => similarity a b = true) data a b) ok
      (ps.map fun c => c.filterMap fun i => data[i]?) := by
  constructor
  · intro c hc
    obtain ⟨p, hp, rfl⟩ := List.mem_map.mp hc
    obtain ⟨h1, i, hi, h2⟩ := h.sound p hp
    have hi' := List.getElem?_eq_getElem hi
    obtain ⟨h3, h4⟩ := component_items hn hs hi' h2
    refine ⟨h4 ▸ h1, data[i], ?_, h3⟩
    have hlen := hok _ h1
    obtain ⟨j, hj, hij⟩ : ∃ j ∈ p, j ≠ i := by
      by_contra hc
      have hc' : ∀ j ∈ p, j = i := by
        intro j hj
        by_contra hne
        exact hc ⟨j, hj, hne⟩
      match p, hlen, h2.1, hc' with
      | x :: y :: p, _, hnd, hc' =>
          have h1 := hc' x (by simp)
          have h2 := hc' y (by simp)
          subst h1; subst h2
          simp at hnd
    have hcon := (h2.2 j).mp hj
    cases hcon with
    | refl => exact absurd rfl hij
    | @step _ k _ hs1 _ =>
        exact ⟨data[k]'hs1.lt.2, (similarPositions_iff hn hs hi' (List.getElem?_eq_getElem hs1.lt.2)).mp hs1⟩
  · rintro a ⟨b, hab⟩ l hl hokl
    obtain ⟨i, hi⟩ := List.getElem?_of_mem hab.1
    have hmem : ∀ x ∈ l, x ∈ data := by
      intro x hx
      obtain ⟨j, hj, _⟩ := (connected_items hn hs hi).mp ((hl.2 x).mp hx)
      exact List.mem_of_getElem? hj
    have hcomp : IsComponentOf (SimilarPositions similarity data) i (l.map fun x => data.idxOf x) := by
      constructor
      · refine List.Nodup.map_on ?_ hl.1
        intro x hx y hy he
        exact (List.idxOf_inj (hmem x hx)).mp he
      · intro j
        rw [List.mem_map]
        constructor
        · rintro ⟨x, hx, rfl⟩
          obtain ⟨j, hj, hc⟩ := (connected_items hn hs hi).mp ((hl.2 x).mp hx)
          have hj' : data[data.idxOf x]? = some x := by
            rw [List.getElem?_eq_getElem (List.idxOf_lt_length_of_mem (hmem x hx)), List.getElem_idxOf]
          rwa [position_inj hn hj' hj]
        · intro hc
          have hj : j < data.length := by
            have : i < data.length := (List.getElem?_eq_some_iff.mp hi).1
            clear hi
            induction hc with
            | refl => exact this
            | step h1 _ ih => exact ih h1.lt.2
          refine ⟨data[j], (hl.2 _).mpr ((connected_items hn hs hi).mpr ⟨j, List.getElem?_eq_getElem hj, hc⟩), ?_⟩
          have hm := hmem _ ((hl.2 _).mpr ((connected_items hn hs hi).mpr ⟨j, List.getElem?_eq_getElem hj, hc⟩))
          refine position_inj hn (a := data[j]) ?_ (List.getElem?_eq_getElem hj)
          rw [List.getElem?_eq_getElem (List.idxOf_lt_length_of_mem hm), List.getElem_idxOf]
    obtain ⟨c, hc, hic⟩ := h.complete i (List.getElem?_eq_some_iff.mp hi).1 _ hcomp (by rw [List.length_map]; exact hokl)
    exact ⟨_, List.mem_map.mpr ⟨c, hc, rfl⟩, List.mem_filterMap.mpr ⟨i, hic, hi⟩⟩
  · rw [List.pairwise_map]
    refine h.disjoint.imp ?_
    intro c d hcd x hx hy
    obtain ⟨i, hi, hx⟩ := List.mem_filterMap.mp hx
    obtain ⟨j, hj, hy⟩ := List.mem_filterMap.mp hy
    have := position_inj hn hx hy
    subst this
    exact hcd i hi hj

end positions

end Fog.Spec
