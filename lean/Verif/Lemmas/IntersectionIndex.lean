import Mathlib.Data.Finset.Card
import Mathlib.Data.Finset.Basic
import Verif.Model.IntersectionIndex
import Verif.Lemmas.Dict
import Verif.Lemmas.Dedup

/-!
# The intersection index counts the common tokens
-/

namespace Fog.IntersectionIndex

open Fog.ClusteringUtils

variable {τ : Type _} [DecidableEq τ]

/-! ### Counting events -/

/-- The dictionary of counters made by the increments `(i, j)` in turn. -/
def counters (events : List (Nat × Nat)) (d : Dict Nat (Dict Nat Nat)) : Dict Nat (Dict Nat Nat) :=
  events.foldl (fun d e => increment e.1 d e.2) d

/-- The value found in a dictionary of counters. -/
def countAt (d : Dict Nat (Dict Nat Nat)) (i j : Nat) : Option Nat := (d.get? i).bind fun c => c.get? j

/-- What the dictionary holds after some events. -/
structure Counts (events : List (Nat × Nat)) (d : Dict Nat (Dict Nat Nat)) : Prop where
  nodup : d.keys.Nodup
  nodup' : ∀ i c, d.get? i = some c → c.keys.Nodup
  count : ∀ i j, countAt d i j = if (i, j) ∈ events then some (events.count (i, j)) else none

theorem counts_increment {events : List (Nat × Nat)} {d : Dict Nat (Dict Nat Nat)} (h : Counts events d)
    (i j : Nat) : Counts (events ++ [(i, j)]) (increment i d j) := by
  refine ⟨Dict.nodup_keys_update h.nodup .., ?_, ?_⟩
  · intro i' c hc
    unfold increment at hc
    rw [Dict.get?_update] at hc
    split at hc
    · next hi =>
        subst hi
        cases hc
        apply Dict.nodup_keys_update
        cases hg : d.get? i with
        | none => simp [Dict.keys]
        | some c => exact h.nodup' i c hg
    · exact h.nodup' i' c hc
  · intro i' j'
    have hcnt := h.count i' j'
    unfold countAt increment at *
    rw [Dict.get?_update]
    by_cases hi : i = i'
    · subst hi
      rw [if_pos rfl, Option.bind_some, Dict.get?_update]
      have hold : ((d.get? i).getD []).get? j' = if (i, j') ∈ events then some (events.count (i, j')) else none := by
        rw [← hcnt]
        cases d.get? i <;> simp [Dict.get?]
      by_cases hj : j = j'
      · subst hj
        rw [if_pos rfl, if_pos (by simp), hold, List.count_append]
        congr 1
        by_cases hm : (i, j) ∈ events
        · simp [hm]
        · simp [hm, List.count_eq_zero_of_not_mem hm]
      · rw [if_neg hj, hold]
        have : (i, j') ≠ (i, j) := fun e => hj (by simpa using e.symm)
        simp [List.count_append, this, Ne.symm this]
    · rw [if_neg hi]
      rw [hcnt]
      have : (i', j') ≠ (i, j) := fun e => hi (by simpa using (Prod.mk.inj e).1.symm)
      simp [List.count_append, this, Ne.symm this]

theorem counts_append {events events' : List (Nat × Nat)} {d : Dict Nat (Dict Nat Nat)} (h : Counts events d) :
    Counts (events ++ events') (counters events' d) := by
  induction events' generalizing events d with
  | nil => simpa [counters] using h
  | cons e es ih =>
      have := ih (counts_increment h e.1 e.2)
      simpa [counters] using this

theorem counts_nil : Counts [] [] := ⟨by simp [Dict.keys], by simp [Dict.get?], by simp [countAt, Dict.get?]⟩

/-! ### The loop over items -/

/-- Whether the item at position `j` has a token. -/
def has (items : List (List τ)) (j : Nat) (t : τ) : Bool :=
  match items[j]? with
  | none => false
  | some item => decide (t ∈ item)

/-- The positions below `i` of the items which have a token. -/
def having (items : List (List τ)) (i : Nat) (t : τ) : List Nat := (List.range i).filter fun j => has items j t

theorem shingles_fold (items : List (List τ)) (i : Nat) (S S0 : List τ) (hS : (S0 ++ S).Nodup) (s : State τ)
    (hb : ∀ t, (s.1.get? t).getD [] = having items i t ++ if t ∈ S0 then [i] else []) :
    (∀ t, ((S.foldl (shingleStep i) s).1.get? t).getD [] = having items i t ++ if t ∈ S0 ++ S then [i] else []) ∧
      (S.foldl (shingleStep i) s).2 = counters (S.flatMap fun t => (having items i t).map fun j => (i, j)) s.2 := by
  induction S generalizing S0 s with
  | nil => simpa [counters] using hb
  | cons t S ih =>
      have ht : t ∉ S0 := by
        intro h
        rw [List.nodup_append] at hS
        exact hS.2.2 t h t (by simp) rfl
      have hbt : (s.1.get? t).getD [] = having items i t := by rw [hb, if_neg ht, List.append_nil]
      have := ih (S0 ++ [t]) (by simpa using hS) (shingleStep i s t) (by
        intro u
        unfold shingleStep
        simp only [Dict.get?_set, hbt]
        by_cases hu : t = u
        · subst hu; simp
        · rw [if_neg hu, hb u]; simp [Ne.symm hu])
      rw [List.foldl_cons]
      refine ⟨by simpa using this.1, ?_⟩
      rw [this.2]
      simp only [shingleStep, hbt, List.flatMap_cons, counters, List.foldl_append]
      congr 1
      rw [List.foldl_map]

/-- The increments made for the item at position `i`. -/
def events (ord : List τ → List τ) (items : List (List τ)) (i : Nat) : List (Nat × Nat) :=
  match items[i]? with
  | none => []
  | some item => (ord (dedup item)).flatMap fun t => (having items i t).map fun j => (i, j)

theorem indexLoop_eq (ord : List τ → List τ) (hord : ∀ l, (ord l).Perm l) (pre rest : List (List τ)) (s : State τ)
    (hb : ∀ t, (s.1.get? t).getD [] = having (pre ++ rest) pre.length t) :
    (indexLoop ord pre.length rest s).2 =
      counters ((List.range' pre.length rest.length).flatMap (events ord (pre ++ rest))) s.2 := by
  induction rest generalizing pre s with
  | nil => simp [indexLoop, counters]
  | cons item rest ih =>
      rw [indexLoop]
      have hnd : ([] ++ ord (dedup item)).Nodup := by
        rw [List.nil_append]; exact (hord _).nodup_iff.mpr (nodup_dedup _)
      obtain ⟨h1, h2⟩ := shingles_fold (pre ++ item :: rest) pre.length (ord (dedup item)) [] hnd s (by simpa using hb)
      have hpre : (pre ++ [item]).length = pre.length + 1 := by simp
      have happ : pre ++ [item] ++ rest = pre ++ item :: rest := by simp
      have := ih (pre ++ [item]) ((ord (dedup item)).foldl (shingleStep pre.length) s) (by
        intro t
        rw [h1 t, hpre, happ]
        have hhas : has (pre ++ item :: rest) pre.length t = decide (t ∈ item) := by
          simp [has]
        unfold having
        rw [List.range_succ, List.filter_append]
        congr 1
        simp only [List.nil_append, (hord _).mem_iff, mem_dedup]
        by_cases ht : t ∈ item <;> simp [hhas, ht])
      rw [hpre, happ] at this
      rw [this, h2, List.length_cons, List.range'_succ, List.flatMap_cons]
      have hev : events ord (pre ++ item :: rest) pre.length =
          (ord (dedup item)).flatMap fun t => (having (pre ++ item :: rest) pre.length t).map fun j => (pre.length, j) := by
        simp [events]
      rw [hev]
      simp only [counters, List.foldl_append]

theorem counts_index (ord : List τ → List τ) (hord : ∀ l, (ord l).Perm l) (items : List (List τ)) :
    Counts ((List.range items.length).flatMap (events ord items)) (indexLoop ord 0 items ([], [])).2 := by
  have h := indexLoop_eq ord hord [] items ([], []) (by simp [Dict.get?, having])
  simp only [List.length_nil, List.nil_append] at h
  rw [h, List.range_eq_range']
  simpa using counts_append counts_nil

theorem count_map_pair (l : List Nat) (i j : Nat) : (l.map fun k => (i, k)).count (i, j) = l.count j := by
  induction l with
  | nil => rfl
  | cons a l ih => simp [List.count_cons, ih]

theorem count_having (items : List (List τ)) (i j : Nat) (t : τ) :
    (having items i t).count j = if j < i ∧ has items j t = true then 1 else 0 := by
  unfold having
  have hnd : ((List.range i).filter fun j => has items j t).Nodup := List.nodup_range.filter _
  by_cases h : j < i ∧ has items j t = true
  · rw [if_pos h]
    exact List.count_eq_one_of_mem hnd (by simp [h.1, h.2])
  · rw [if_neg h]
    apply List.count_eq_zero_of_not_mem
    simpa using h

theorem count_events_self (ord : List τ → List τ) (hord : ∀ l, (ord l).Perm l) (items : List (List τ)) (i j : Nat)
    (A B : List τ) (hA : items[i]? = some A) (hB : items[j]? = some B) (hj : j < i) :
    (events ord items i).count (i, j) = (A.toFinset ∩ B.toFinset).card := by
  unfold events
  rw [hA]
  simp only [List.count_flatMap]
  have h1 : ∀ t, (List.count (i, j) ∘ fun t => (having items i t).map fun j => (i, j)) t =
      if t ∈ B then 1 else 0 := by
    intro t
    simp only [Function.comp, count_map_pair, count_having, hj, true_and, has, hB, decide_eq_true_eq]
  rw [List.map_congr_left fun t _ => h1 t]
  have h2 : ∀ l : List τ, (l.map fun t => if t ∈ B then 1 else 0).sum = (l.filter fun t => t ∈ B).length := by
    intro l
    induction l with
    | nil => rfl
    | cons a l ih =>
        rw [List.map_cons, List.sum_cons, ih, List.filter_cons]
        by_cases h : a ∈ B
        · simp [h]; omega
        · simp [h]
  rw [h2, ((hord _).filter _).length_eq]
  have h3 : (A.toFinset ∩ B.toFinset) = ((dedup A).filter fun t => t ∈ B).toFinset := by
    ext t
    simp [mem_dedup]
  rw [h3, List.toFinset_card_of_nodup ((nodup_dedup A).filter _)]

theorem mem_events_fst {ord : List τ → List τ} {items : List (List τ)} {i k j : Nat}
    (h : (i, j) ∈ events ord items k) : i = k ∧ j < i ∧ i < items.length := by
  unfold events at h
  split at h
  · simp at h
  · next item hk =>
      obtain ⟨hk', _⟩ := List.getElem?_eq_some_iff.mp hk
      simp only [List.mem_flatMap, List.mem_map, Prod.mk.injEq] at h
      obtain ⟨t, _, j', hj', rfl, rfl⟩ := h
      simp [having] at hj'
      exact ⟨rfl, hj'.1, hk'⟩

theorem count_events (ord : List τ → List τ) (hord : ∀ l, (ord l).Perm l) (items : List (List τ)) (i j : Nat)
    (A B : List τ) (hA : items[i]? = some A) (hB : items[j]? = some B) (hj : j < i) :
    ((List.range items.length).flatMap (events ord items)).count (i, j) = (A.toFinset ∩ B.toFinset).card := by
  obtain ⟨hi, _⟩ := List.getElem?_eq_some_iff.mp hA
  rw [← count_events_self ord hord items i j A B hA hB hj]
  obtain ⟨l1, l2, h⟩ := List.append_of_mem (List.mem_range.mpr hi)
  have hnd : (l1 ++ i :: l2).Nodup := by rw [← h]; exact List.nodup_range
  rw [h, List.flatMap_append, List.flatMap_cons, List.count_append, List.count_append]
  have h0 : ∀ l : List Nat, i ∉ l → (l.flatMap (events ord items)).count (i, j) = 0 := by
    intro l hl
    apply List.count_eq_zero_of_not_mem
    rw [List.mem_flatMap]
    rintro ⟨k, hk, hm⟩
    have := (mem_events_fst hm).1
    subst this
    exact hl hk
  rw [List.nodup_append, List.nodup_cons] at hnd
  rw [h0 l1 (fun hl => hnd.2.2 i hl i (by simp) rfl), h0 l2 hnd.2.1.1]
  omega

/-- What the index holds: for `j < i`, the number of common tokens when there are some. -/
theorem index_spec (ord : List τ → List τ) (hord : ∀ l, (ord l).Perm l) (items : List (List τ)) :
    let d := (indexLoop ord 0 items ([], [])).2
    d.keys.Nodup ∧ (∀ i c, d.get? i = some c → c.keys.Nodup) ∧
    ∀ i j I, countAt d i j = some I ↔ ∃ A B, items[i]? = some A ∧ items[j]? = some B ∧ j < i ∧
      I = (A.toFinset ∩ B.toFinset).card ∧ 0 < I := by
  intro d
  have hc := counts_index ord hord items
  refine ⟨hc.nodup, hc.nodup', ?_⟩
  intro i j I
  rw [hc.count i j]
  constructor
  · intro h
    split at h
    · next hm =>
        simp only [Option.some.injEq] at h
        have hm' := hm
        rw [List.mem_flatMap] at hm'
        obtain ⟨k, _, hk⟩ := hm'
        obtain ⟨rfl, hj, hi⟩ := mem_events_fst hk
        refine ⟨items[i], items[j], List.getElem?_eq_getElem hi, List.getElem?_eq_getElem (by omega), hj, ?_, ?_⟩
        · rw [← h]
          exact count_events ord hord items i j _ _ (List.getElem?_eq_getElem hi)
            (List.getElem?_eq_getElem (by omega)) hj
        · rw [← h]; exact List.count_pos_iff.mpr hm
    · cases h
  · rintro ⟨A, B, hA, hB, hj, rfl, hpos⟩
    have h := count_events ord hord items i j A B hA hB hj
    rw [if_pos (List.count_pos_iff.mp (by omega)), h]

/-! ### The pairs -/

theorem neighborLoop_spec (metric : Metric) (sizes : List Nat) (radius : Rat) (i : Nat) (c : Dict Nat Nat)
    (h : ∀ j I, (j, I) ∈ c → ∃ si sj, sizes[i]? = some si ∧ sizes[j]? = some sj ∧ denominator metric si sj I ≠ 0) :
    ∃ ps, neighborLoop metric sizes radius i c = .ok ps ∧ ps.Sublist (c.keys.map fun j => (i, j)) ∧
      ∀ p, p ∈ ps ↔ ∃ j I si sj, (j, I) ∈ c ∧ sizes[i]? = some si ∧ sizes[j]? = some sj ∧ p = (i, j) ∧
        radius ≤ (I : Rat) / (denominator metric si sj I : Rat) := by
  induction c with
  | nil => exact ⟨[], rfl, by simp, by simp⟩
  | cons e c ih =>
      obtain ⟨j, I⟩ := e
      obtain ⟨ps, h1, h2, h3⟩ := ih fun j I hm => h j I (by simp [hm])
      obtain ⟨si, sj, hsi, hsj, hne⟩ := h j I (by simp)
      have hdef : neighborLoop metric sizes radius i ((j, I) :: c) =
          .ok (if (I : Rat) / (denominator metric si sj I : Rat) ≥ radius then (i, j) :: ps else ps) := by
        simp only [neighborLoop, hsi, hsj, h1, divide, hne, Option.elim, bind, Except.bind, if_false]
      refine ⟨_, hdef, ?_, ?_⟩
      · split
        · exact h2.cons_cons _
        · exact h2.cons _
      · intro p
        constructor
        · intro hp
          have : p ∈ ps ∨ (p = (i, j) ∧ radius ≤ (I : Rat) / (denominator metric si sj I : Rat)) := by
            split at hp
            · next hq =>
                rcases List.mem_cons.mp hp with hp | hp
                · exact Or.inr ⟨hp, hq⟩
                · exact Or.inl hp
            · exact Or.inl hp
          rcases this with hp | ⟨hp, hq⟩
          · obtain ⟨j', I', si', sj', hm, h4⟩ := (h3 p).mp hp
            exact ⟨j', I', si', sj', by simp [hm], h4⟩
          · exact ⟨j, I, si, sj, by simp, hsi, hsj, hp, hq⟩
        · rintro ⟨j', I', si', sj', hm, hsi', hsj', rfl, hq⟩
          simp only [List.mem_cons, Prod.mk.injEq] at hm
          rcases hm with ⟨rfl, rfl⟩ | hm
          · rw [hsi] at hsi'; cases hsi'
            rw [hsj] at hsj'; cases hsj'
            rw [if_pos hq]; simp
          · have := (h3 (i, j')).mpr ⟨j', I', si', sj', hm, hsi', hsj', rfl, hq⟩
            split
            · simp [this]
            · exact this

theorem clusteringLoop_spec (metric : Metric) (sizes : List Nat) (radius : Rat) (d : Dict Nat (Dict Nat Nat))
    (hd : d.keys.Nodup) (hd' : ∀ i c, (i, c) ∈ d → c.keys.Nodup)
    (h : ∀ i c, (i, c) ∈ d → ∀ j I, (j, I) ∈ c →
      ∃ si sj, sizes[i]? = some si ∧ sizes[j]? = some sj ∧ denominator metric si sj I ≠ 0) :
    ∃ ps, clusteringLoop metric sizes radius d = .ok ps ∧ ps.Nodup ∧ (∀ p ∈ ps, p.1 ∈ d.keys) ∧
      ∀ i j, (i, j) ∈ ps ↔ ∃ c I si sj, (i, c) ∈ d ∧ (j, I) ∈ c ∧ sizes[i]? = some si ∧ sizes[j]? = some sj ∧
        radius ≤ (I : Rat) / (denominator metric si sj I : Rat) := by
  induction d with
  | nil => exact ⟨[], rfl, by simp, by simp, by simp⟩
  | cons e d ih =>
      obtain ⟨i, c⟩ := e
      simp only [Dict.keys, List.map_cons, List.nodup_cons] at hd
      obtain ⟨qs, h4, h5, hkeys, h6⟩ := ih hd.2 (fun i c hm => hd' i c (by simp [hm])) fun i c hm => h i c (by simp [hm])
      obtain ⟨ps, h1, h2, h3⟩ := neighborLoop_spec metric sizes radius i c (h i c (by simp))
      refine ⟨ps ++ qs, by simp [clusteringLoop, h1, h4, bind, Except.bind], ?_, ?_, ?_⟩
      · rw [List.nodup_append]
        refine ⟨?_, h5, ?_⟩
        · refine List.Nodup.sublist h2 ?_
          exact List.Nodup.map (fun a b hab => (Prod.mk.inj hab).2) (hd' i c (by simp))
        · rintro p hp q hq rfl
          have h7 := hkeys p hq
          obtain ⟨j', _, _, _, _, _, _, rfl, _⟩ := (h3 p).mp hp
          exact hd.1 h7
      · intro p hp
        rcases List.mem_append.mp hp with hp | hp
        · obtain ⟨j', _, _, _, _, _, _, rfl, _⟩ := (h3 p).mp hp
          simp [Dict.keys]
        · have := hkeys p hp
          simp only [Dict.keys, List.map_cons, List.mem_cons] at this ⊢
          exact Or.inr this
      · intro i' j'
        rw [List.mem_append, h3, h6]
        constructor
        · rintro (⟨j, I, si, sj, hm, hsi, hsj, he, hq⟩ | ⟨c', I, si, sj, hm, h7⟩)
          · cases he
            exact ⟨c, I, si, sj, by simp, hm, hsi, hsj, hq⟩
          · exact ⟨c', I, si, sj, by simp [hm], h7⟩
        · rintro ⟨c', I, si, sj, hm, hj, hsi, hsj, hq⟩
          rcases List.mem_cons.mp hm with he | hm
          · cases he
            exact Or.inl ⟨j', I, si, sj, hj, hsi, hsj, rfl, hq⟩
          · exact Or.inr ⟨c', I, si, sj, hm, hj, hsi, hsj, hq⟩

end Fog.IntersectionIndex
