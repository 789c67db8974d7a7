import Verif.Lemmas.Components

/-!
# The fuzzy clusters mode of `clusters_from_pairs`
-/

namespace Fog.ClusteringUtils

open Fog.Spec

variable {α : Type _} [DecidableEq α]

/-- The items paired with `a`, one for each pair, in the order of the pairs. -/
def partners (pairs : List (α × α)) (a : α) : List α :=
  pairs.flatMap fun p => (if p.1 = a then [p.2] else []) ++ (if p.2 = a then [p.1] else [])

theorem foldl_get_list (pairs : List (α × α)) (graph : Dict α (List α)) (a : α) :
    ((pairs.foldl (addPair false) graph).get? a).getD [] = (graph.get? a).getD [] ++ partners pairs a := by
  induction pairs generalizing graph with
  | nil => simp [partners]
  | cons p pairs ih =>
      rw [List.foldl_cons, ih]
      obtain ⟨x, y⟩ := p
      have : ((addPair false graph (x, y)).get? a).getD [] =
          (graph.get? a).getD [] ++ ((if x = a then [y] else []) ++ (if y = a then [x] else [])) := by
        simp only [addPair, Dict.get?_update, add, Bool.false_and]
        by_cases h1 : y = a
        · subst h1
          by_cases h2 : x = y
          · subst h2; simp
          · simp [h2]
        · by_cases h2 : x = a
          · subst h2; simp [h1]
          · simp [h1, h2]
      rw [this]
      simp [partners]

theorem makeGraph_get_list (pairs : List (α × α)) (a : α) (l : List α) (h : (makeGraph false pairs).get? a = some l) :
    l = partners pairs a := by
  have := foldl_get_list pairs [] a
  unfold makeGraph at h
  rw [h] at this
  simpa [Dict.get?] using this

theorem foldl_nodup_set (pairs : List (α × α)) (graph : Dict α (List α))
    (hg : ∀ a l, graph.get? a = some l → l.Nodup) (a : α) (l : List α)
    (h : (pairs.foldl (addPair true) graph).get? a = some l) : l.Nodup := by
  induction pairs generalizing graph with
  | nil => exact hg a l h
  | cons p pairs ih =>
      rw [List.foldl_cons] at h
      refine ih _ ?_ h
      intro b l hl
      have up : ∀ (g : Dict α (List α)) (k x : α), (∀ a l, g.get? a = some l → l.Nodup) →
          ∀ a l, (g.update k [] (fun c => add true c x)).get? a = some l → l.Nodup := by
        intro g k x hg a l hl
        rw [Dict.get?_update] at hl
        by_cases hk : k = a
        · subst hk
          simp at hl; subst hl
          apply nodup_add
          cases hk : g.get? k with
          | none => simp
          | some l => exact hg k l hk
        · simp only [hk, if_false] at hl
          exact hg a l hl
      exact up _ _ _ (up _ _ _ hg) b l hl

theorem partners_nodup (pairs : List (α × α)) (hd : pairs.Pairwise (fun p q => p ≠ q ∧ p ≠ (q.2, q.1)))
    (hs : ∀ p ∈ pairs, p.1 ≠ p.2) (a : α) : (partners pairs a).Nodup := by
  unfold partners
  induction pairs with
  | nil => simp
  | cons p pairs ih =>
      rw [List.pairwise_cons] at hd
      have h1 := hs p (by simp)
      rw [List.flatMap_cons, List.nodup_append]
      refine ⟨?_, ih hd.2 (fun q hq => hs q (by simp [hq])), ?_⟩
      · by_cases e1 : p.1 = a
        · have : p.2 ≠ a := fun e => h1 (e1.trans e.symm)
          simp [e1, this]
        · by_cases e2 : p.2 = a <;> simp [e1, e2]
      · rintro x hx y hy rfl
        simp only [List.mem_flatMap] at hy
        obtain ⟨q, hq, hy⟩ := hy
        have hne := hd.1 q hq
        obtain ⟨p1, p2⟩ := p
        obtain ⟨q1, q2⟩ := q
        simp only [ne_eq, Prod.mk.injEq, not_and, List.mem_append] at hne hx hy h1
        have m : ∀ (b : Prop) [Decidable b] (y : α), x ∈ (if b then [y] else []) ↔ b ∧ x = y := by
          intro b _ y; by_cases hb : b <;> simp [hb]
        simp only [m] at hx hy
        rcases hx with ⟨rfl, rfl⟩ | ⟨rfl, rfl⟩ <;> rcases hy with ⟨h3, h4⟩ | ⟨h3, h4⟩
        · exact hne.1 h3.symm h4
        · exact hne.2 h3.symm h4
        · exact hne.2 h4 h3.symm
        · exact hne.1 h4 h3.symm

theorem mem_partners (pairs : List (α × α)) (a b : α) : b ∈ partners pairs a ↔ Linked pairs a b := by
  unfold partners Linked
  simp only [List.mem_flatMap, List.mem_append]
  have m : ∀ (c : Prop) [Decidable c] (y : α), b ∈ (if c then [y] else []) ↔ c ∧ b = y := by
    intro c _ y; by_cases hc : c <;> simp [hc]
  simp only [m]
  constructor
  · rintro ⟨⟨x, y⟩, h, ⟨rfl, rfl⟩ | ⟨rfl, rfl⟩⟩
    · exact Or.inl h
    · exact Or.inr h
  · rintro (h | h)
    · exact ⟨(a, b), h, Or.inl ⟨rfl, rfl⟩⟩
    · exact ⟨(b, a), h, Or.inr ⟨rfl, rfl⟩⟩

/-! ### The loop -/

theorem fuzzyClusters_mem {fuzzy : Bool} {ord : α → List α → List α} {min : Nat} {max : Option Nat}
    (items : List (α × List α)) (visited : List α) :
    ∀ c ∈ fuzzyClusters fuzzy ord min max items visited, ∃ p ∈ items, p.1 ∉ visited ∧
      c = p.1 :: iterate fuzzy ord p.1 p.2 ∧ sizeOk min max (p.2.length + 1) = true := by
  induction items generalizing visited with
  | nil => simp [fuzzyClusters]
  | cons p items ih =>
      obtain ⟨item, ns⟩ := p
      intro c hc
      unfold fuzzyClusters at hc
      split at hc
      · obtain ⟨p, hp, h⟩ := ih _ c hc
        exact ⟨p, by simp [hp], h⟩
      · next hv =>
          split at hc
          · next hz =>
              simp only [List.mem_cons] at hc
              rcases hc with rfl | hc
              · exact ⟨(item, ns), by simp, hv, rfl, hz⟩
              · obtain ⟨p, hp, h1, h2⟩ := ih _ c hc
                exact ⟨p, by simp [hp], fun h => h1 (by simp [h]), h2⟩
          · obtain ⟨p, hp, h⟩ := ih _ c hc
            exact ⟨p, by simp [hp], h⟩

theorem fuzzyClusters_leaders {fuzzy : Bool} {ord : α → List α → List α} (hord : ∀ a l, (ord a l).Perm l) {min : Nat}
    {max : Option Nat} (items : List (α × List α)) (hk : (items.map Prod.fst).Nodup) (visited : List α) :
    (fuzzyClusters fuzzy ord min max items visited).Pairwise
      (fun c d => ∀ item, d.head? = some item → item ∉ c.tail ∧ c.head? ≠ some item) := by
  induction items generalizing visited with
  | nil => simp [fuzzyClusters]
  | cons p items ih =>
      obtain ⟨item, ns⟩ := p
      simp only [List.map_cons, List.nodup_cons] at hk
      unfold fuzzyClusters
      split
      · exact ih hk.2 _
      · split
        · rw [List.pairwise_cons]
          refine ⟨?_, ih hk.2 _⟩
          intro d hd leader hl
          obtain ⟨p, hp, h1, rfl, _⟩ := fuzzyClusters_mem _ _ d hd
          simp only [List.head?_cons, Option.some.injEq] at hl
          subst hl
          simp only [List.mem_append, not_or] at h1
          refine ⟨?_, ?_⟩
          · simp only [List.tail_cons]
            intro h
            apply h1.1
            unfold iterate at h
            split at h
            · exact (hord item ns).mem_iff.mp h
            · exact h
          · simp only [List.head?_cons, ne_eq, Option.some.injEq]
            rintro rfl
            exact hk.1 (List.mem_map_of_mem (f := Prod.fst) hp)
        · exact ih hk.2 _

theorem fuzzyClusters_cover {fuzzy : Bool} {ord : α → List α → List α} (hord : ∀ a l, (ord a l).Perm l) {min : Nat}
    {max : Option Nat} (items : List (α × List α)) (visited : List α)
    (hsz : ∀ p ∈ items, sizeOk min max (p.2.length + 1) = true) :
    ∀ p ∈ items, p.1 ∈ visited ∨ ∃ c ∈ fuzzyClusters fuzzy ord min max items visited, p.1 ∈ c := by
  induction items generalizing visited with
  | nil => simp
  | cons q items ih =>
      obtain ⟨item, ns⟩ := q
      have hsz' : ∀ p ∈ items, sizeOk min max (p.2.length + 1) = true := fun p hp => hsz p (by simp [hp])
      intro p hp
      unfold fuzzyClusters
      by_cases hv : item ∈ visited
      · rw [if_pos hv]
        simp only [List.mem_cons] at hp
        rcases hp with rfl | hp
        · exact Or.inl hv
        · exact ih visited hsz' p hp
      · rw [if_neg hv, if_pos (hsz (item, ns) (by simp))]
        simp only [List.mem_cons] at hp
        rcases hp with rfl | hp
        · exact Or.inr ⟨_, List.mem_cons_self .., by simp⟩
        · rcases ih (ns ++ visited) hsz' p hp with h | ⟨c, hc, h⟩
          · simp only [List.mem_append] at h
            rcases h with h | h
            · refine Or.inr ⟨_, List.mem_cons_self .., ?_⟩
              simp only [List.mem_cons]
              right
              unfold iterate
              split
              · exact (hord item ns).mem_iff.mpr h
              · exact h
            · exact Or.inl h
          · exact Or.inr ⟨c, by simp [hc], h⟩

end Fog.ClusteringUtils
