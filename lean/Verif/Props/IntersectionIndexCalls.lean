import Verif.Model.IntersectionIndexCalls
import Verif.Props.IntersectionIndex
import Mathlib.Algebra.BigOperators.Intervals
import Mathlib.Algebra.BigOperators.Ring.Finset
import Mathlib.Data.Nat.Choose.Basic

/-!
# How many increments and quotients intersection_index makes (C151)
-/

namespace Fog.Props

open Fog.ClusteringUtils Fog.IntersectionIndex Fog.Spec

variable {τ : Type _} [DecidableEq τ]

theorem shingleIncrements_foldl (i : Nat) (S : List τ) : ∀ s : State τ,
    (S.foldl (shingleStep i) s).2 = (shingleIncrements i s S).foldl (fun d e => increment e.1 d e.2) s.2 := by
  induction S with
  | nil => intro s; rfl
  | cons t S ih =>
      intro s
      rw [List.foldl_cons, ih, shingleIncrements, List.foldl_append, List.foldl_map]
      rfl

/-- C151. The counters are those made by the increments which are listed, in this order. -/
theorem increments_same (ord : List τ → List τ) (items : List (List τ)) : ∀ (i : Nat) (s : State τ),
    (indexLoop ord i items s).2 = (indexIncrements ord i items s).foldl (fun d e => increment e.1 d e.2) s.2 := by
  induction items with
  | nil => intro i s; rfl
  | cons item items ih =>
      intro i s
      rw [indexLoop, ih, indexIncrements, List.foldl_append, ← shingleIncrements_foldl]

theorem shingleIncrements_eq (items : List (List τ)) (i : Nat) (S S0 : List τ) (hS : (S0 ++ S).Nodup) (s : State τ)
    (hb : ∀ t, (s.1.get? t).getD [] = having items i t ++ if t ∈ S0 then [i] else []) :
    shingleIncrements i s S = S.flatMap fun t => (having items i t).map fun j => (i, j) := by
  induction S generalizing S0 s with
  | nil => rfl
  | cons t S ih =>
      have ht : t ∉ S0 := by
        intro h
        rw [List.nodup_append] at hS
        exact hS.2.2 t h t (by simp) rfl
      have hbt : (s.1.get? t).getD [] = having items i t := by rw [hb, if_neg ht, List.append_nil]
      rw [shingleIncrements, List.flatMap_cons, hbt]
      congr 1
      refine ih (S0 ++ [t]) (by simpa using hS) (shingleStep i s t) ?_
      intro u
      unfold shingleStep
      simp only [Dict.get?_set, hbt]
      by_cases hu : t = u
      · subst hu; simp
      · rw [if_neg hu, hb u]; simp [Ne.symm hu]

theorem indexIncrements_eq (ord : List τ → List τ) (hord : ∀ l, (ord l).Perm l) (pre rest : List (List τ)) (s : State τ)
    (hb : ∀ t, (s.1.get? t).getD [] = having (pre ++ rest) pre.length t) :
    indexIncrements ord pre.length rest s = (List.range' pre.length rest.length).flatMap (events ord (pre ++ rest)) := by
  induction rest generalizing pre s with
  | nil => rfl
  | cons item rest ih =>
      rw [indexIncrements]
      have hnd : ([] ++ ord (dedup item)).Nodup := by
        rw [List.nil_append]; exact (hord _).nodup_iff.mpr (nodup_dedup _)
      obtain ⟨h1, _⟩ := shingles_fold (pre ++ item :: rest) pre.length (ord (dedup item)) [] hnd s (by simpa using hb)
      have h2 := shingleIncrements_eq (pre ++ item :: rest) pre.length (ord (dedup item)) [] hnd s (by simpa using hb)
      have hpre : (pre ++ [item]).length = pre.length + 1 := by simp
      have happ : pre ++ [item] ++ rest = pre ++ item :: rest := by simp
      have := ih (pre ++ [item]) ((ord (dedup item)).foldl (shingleStep pre.length) s) (by
        intro t
        rw [h1 t, hpre, happ]
        have hhas : has (pre ++ item :: rest) pre.length t = decide (t ∈ item) := by
          simp [has]
        unfold having
        rw [List.range_succ, List.filter_append]
        congr 1
        simp only [List.nil_append, (hord _).mem_iff, mem_dedup]
        by_cases ht : t ∈ item <;> simp [hhas, ht])
      rw [hpre, happ] at this
      rw [this, h2, List.length_cons, List.range'_succ, List.flatMap_cons]
      congr 1
      simp [events]

theorem increments_events (ord : List τ → List τ) (hord : ∀ l, (ord l).Perm l) (items : List (List τ)) :
    indexIncrements ord 0 items ([], []) = (List.range items.length).flatMap (events ord items) := by
  have h := indexIncrements_eq ord hord [] items ([], []) (by simp [Dict.get?, having])
  simpa [List.range_eq_range'] using h

/-- The number of tokens which the items at two positions share. -/
def shared (items : List (List τ)) (i j : Nat) : Nat := ((items.getD i []).toFinset ∩ (items.getD j []).toFinset).card

theorem length_events (ord : List τ → List τ) (hord : ∀ l, (ord l).Perm l) (items : List (List τ)) (i : Nat) (hi : i < items.length) :
    (events ord items i).length = ∑ j ∈ Finset.range i, shared items i j := by
  unfold events
  rw [List.getElem?_eq_getElem hi]
  simp only [List.length_flatMap, List.length_map]
  rw [← List.sum_toFinset _ ((hord _).nodup_iff.mpr (nodup_dedup _))]
  have hset : (ord (dedup items[i])).toFinset = items[i].toFinset := by
    ext t; simp [(hord _).mem_iff, mem_dedup]
  rw [hset]
  have hlen : ∀ t, (having items i t).length = ∑ j ∈ Finset.range i, if t ∈ items.getD j [] then 1 else 0 := by
    intro t
    unfold having
    rw [← Finset.sum_filter, ← Finset.card_eq_sum_ones, ← List.toFinset_card_of_nodup (List.nodup_range.filter _)]
    congr 1
    ext j
    simp only [List.mem_toFinset, List.mem_filter, List.mem_range, Finset.mem_filter, Finset.mem_range]
    refine and_congr_right fun hj => ?_
    have hj' : j < items.length := by omega
    simp [has, List.getD_eq_getElem?_getD, List.getElem?_eq_getElem hj']
  simp only [hlen]
  rw [Finset.sum_comm]
  refine Finset.sum_congr rfl fun j _ => ?_
  rw [← Finset.sum_filter, ← Finset.card_eq_sum_ones, shared]
  congr 1
  ext t
  simp [List.getD_eq_getElem?_getD, List.getElem?_eq_getElem hi]

/-- C151. A counter is increased once for each two positions and each token that they share. -/
theorem intersection_increments_partial (ord : List τ → List τ) (hord : ∀ l, (ord l).Perm l) (items : List (List τ)) :
    (indexIncrements ord 0 items ([], [])).length = ∑ i ∈ Finset.range items.length, ∑ j ∈ Finset.range i, shared items i j := by
  rw [increments_events ord hord, List.length_flatMap]
  have : ((List.range items.length).map fun i => (events ord items i).length) =
      (List.range items.length).map fun i => ∑ j ∈ Finset.range i, shared items i j :=
    List.map_congr_left fun i hi => length_events ord hord items i (List.mem_range.mp hi)
  rw [this]
  rfl

/-- C151. A quotient is computed once for each two positions which share a token, and for no others. -/
theorem intersection_quotients (ord : List τ → List τ) (hord : ∀ l, (ord l).Perm l) (items : List (List τ)) :
    (quotients (indexLoop ord 0 items ([], [])).2).Nodup ∧
    ∀ i j, (i, j) ∈ quotients (indexLoop ord 0 items ([], [])).2 ↔ j < i ∧ i < items.length ∧ 0 < shared items i j := by
  obtain ⟨h1, h2, h3⟩ := index_spec ord hord items
  generalize (indexLoop ord 0 items ([], [])).2 = d at *
  constructor
  · unfold quotients
    rw [List.nodup_flatMap]
    constructor
    · rintro ⟨i, c⟩ hc
      have := h2 i c (Dict.get?_of_mem h1 hc)
      have e : (c.map fun x => (i, x.1)) = c.keys.map fun j => (i, j) := by
        rw [Dict.keys, List.map_map]; rfl
      dsimp only
      rw [e]
      exact this.map fun a b h => (Prod.mk.inj h).2
    · have hp : d.Pairwise fun a b => a.1 ≠ b.1 := List.pairwise_map.mp h1
      refine hp.imp fun {a b} hab => ?_
      intro q hq hq'
      obtain ⟨_, _, rfl⟩ := List.mem_map.mp hq
      obtain ⟨_, _, e⟩ := List.mem_map.mp hq'
      exact hab (Prod.mk.inj e).1.symm
  · intro i j
    have hmem : (i, j) ∈ quotients d ↔ ∃ I, countAt d i j = some I := by
      unfold quotients countAt
      simp only [List.mem_flatMap, List.mem_map, Prod.mk.injEq]
      constructor
      · rintro ⟨⟨i', c⟩, hc, ⟨j', I⟩, hj, rfl, rfl⟩
        have hg := Dict.get?_of_mem h1 hc
        exact ⟨I, by rw [hg]; exact Dict.get?_of_mem (h2 _ _ hg) hj⟩
      · rintro ⟨I, h⟩
        rcases hc : d.get? i with _ | c
        · rw [hc] at h; simp at h
        · rw [hc] at h
          exact ⟨(i, c), Dict.mem_of_get? hc, (j, I), Dict.mem_of_get? h, rfl, rfl⟩
    rw [hmem]
    simp only [h3]
    constructor
    · rintro ⟨I, A, B, hA, hB, hj, rfl, hI⟩
      refine ⟨hj, (List.getElem?_eq_some_iff.mp hA).1, ?_⟩
      simpa [shared, List.getD_eq_getElem?_getD, hA, hB] using hI
    · rintro ⟨hj, hi, hI⟩
      have hj' : j < items.length := by omega
      refine ⟨_, items[i], items[j], List.getElem?_eq_getElem hi, List.getElem?_eq_getElem hj', hj, rfl, ?_⟩
      simpa [shared, List.getD_eq_getElem?_getD, List.getElem?_eq_getElem hi, List.getElem?_eq_getElem hj'] using hI

/-- C151 is false: when `n` items have the same tokens, of which `m` are different, `m` times `n (n - 1) / 2` increments are made. -/
theorem intersection_increments_many (ord : List τ → List τ) (hord : ∀ l, (ord l).Perm l) (tokens : List τ) (n : Nat) :
    (indexIncrements ord 0 (List.replicate n tokens) ([], [])).length = tokens.toFinset.card * n.choose 2 := by
  rw [intersection_increments_partial ord hord, List.length_replicate]
  have h : ∀ i ∈ Finset.range n, ∑ j ∈ Finset.range i, shared (List.replicate n tokens) i j = i * tokens.toFinset.card := by
    intro i hi
    have hi' := Finset.mem_range.mp hi
    rw [Finset.sum_const_nat (m := tokens.toFinset.card), Finset.card_range]
    intro j hj
    have hj' := Finset.mem_range.mp hj
    have hj'' : j < n := by omega
    simp [shared, List.getD_eq_getElem?_getD, List.getElem?_replicate, hi', hj'']
  rw [Finset.sum_congr rfl h, ← Finset.sum_mul, Finset.sum_range_id, Nat.choose_two_right, Nat.mul_comm]

/-- Three items: the first and the second share two tokens, the others none. -/
example : indexIncrements id 0 [[1, 2, 3], [2, 3, 4], [5]] ([], []) = [(1, 0), (1, 0)] ∧
    quotients (indexLoop id 0 [[1, 2, 3], [2, 3, 4], [5]] ([], [])).2 = [(1, 0)] ∧ shared [[1, 2, 3], [2, 3, 4], [5]] 1 0 = 2 := by
  decide

example : (indexIncrements id 0 (List.replicate 4 [1, 2, 1]) ([], [])).length = 12 := by
  rw [intersection_increments_many id fun _ => List.Perm.refl _]; decide

end Fog.Props
