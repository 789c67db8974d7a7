import Verif.Spec.Lists
import Verif.Model.Blocking
import Verif.Lemmas.Components
import Verif.Lemmas.Dedup

/-!
# Buckets and the pairs they give
-/

namespace Fog.KeyCollision

open Fog.ClusteringUtils Fog.Spec

variable {α κ : Type _} [DecidableEq κ]

/-- The items put under the key `k`. -/
def under (entries : List (κ × α)) (k : κ) : List α := (entries.filter fun e => e.1 = k).map Prod.snd

theorem mem_firsts {l : List κ} {a : κ} : a ∈ firsts l ↔ a ∈ l := by
  induction l with
  | nil => simp [firsts]
  | cons b l ih => simp only [firsts, List.mem_cons, List.mem_filter, ih, decide_eq_true_eq]; grind

theorem nodup_firsts (l : List κ) : (firsts l).Nodup := by
  induction l with
  | nil => simp [firsts]
  | cons b l ih =>
      rw [firsts, List.nodup_cons]
      exact ⟨by simp, ih.filter _⟩

theorem firsts_append_singleton (l : List κ) (a : κ) :
    firsts (l ++ [a]) = if a ∈ l then firsts l else firsts l ++ [a] := by
  induction l with
  | nil => simp [firsts]
  | cons b l ih =>
      rw [List.cons_append, firsts, ih]
      by_cases h : a ∈ l
      · simp [h, firsts]
      · by_cases hb : a = b
        · subst hb; simp [h, firsts, List.filter_append]
        · simp [h, hb, firsts, List.filter_append]

theorem Dict.ext_get? {ν : Type _} {d e : Dict κ ν} (hk : d.keys = e.keys) (hd : d.keys.Nodup)
    (h : ∀ k, d.get? k = e.get? k) : d = e := by
  induction d generalizing e with
  | nil =>
      cases e with
      | nil => rfl
      | cons x e => simp [Dict.keys] at hk
  | cons x d ih =>
      cases e with
      | nil => simp [Dict.keys] at hk
      | cons y e =>
          obtain ⟨k, v⟩ := x
          obtain ⟨k', v'⟩ := y
          simp only [Dict.keys, List.map_cons, List.cons.injEq] at hk
          obtain ⟨rfl, hk⟩ := hk
          simp only [Dict.keys, List.map_cons, List.nodup_cons] at hd
          have h0 := h k
          simp only [Dict.get?, if_true, Option.some.injEq] at h0
          subst h0
          congr 1
          refine ih hk hd.2 fun j => ?_
          have hj := h j
          simp only [Dict.get?] at hj
          by_cases hkj : k = j
          · subst hkj
            rw [(Dict.get?_eq_none_iff d k).mpr hd.1, (Dict.get?_eq_none_iff e k).mpr (by
              unfold Dict.keys; rw [← hk]; exact hd.1)]
          · simpa [hkj] using hj

theorem bucketsOf_snoc (entries : List (κ × α)) (e : κ × α) :
    bucketsOf (entries ++ [e]) = (bucketsOf entries).update e.1 [] fun bucket => bucket ++ [e.2] := by
  simp [bucketsOf]

theorem under_append (l l' : List (κ × α)) (k : κ) : under (l ++ l') k = under l k ++ under l' k := by
  simp [under, List.filter_append]

theorem under_eq_nil {entries : List (κ × α)} {k : κ} (h : k ∉ entries.map Prod.fst) : under entries k = [] := by
  unfold under
  rw [List.map_eq_nil_iff, List.filter_eq_nil_iff]
  intro e he
  simp only [decide_eq_true_eq]
  rintro rfl
  exact h (List.mem_map_of_mem he)

theorem snoc_ind {β : Type _} {P : List β → Prop} (nil : P []) (snoc : ∀ l a, P l → P (l ++ [a])) (l : List β) :
    P l := by
  have : ∀ l : List β, P l.reverse := by
    intro l
    induction l with
    | nil => exact nil
    | cons a l ih => rw [List.reverse_cons]; exact snoc _ _ ih
  have h := this l.reverse
  rwa [List.reverse_reverse] at h

theorem bucketsOf_eq (entries : List (κ × α)) :
    bucketsOf entries = (firsts (entries.map Prod.fst)).map fun k => (k, under entries k) := by
  have main : (bucketsOf entries).keys = firsts (entries.map Prod.fst) ∧
      ∀ k, (bucketsOf entries).get? k = if k ∈ entries.map Prod.fst then some (under entries k) else none := by
    induction entries using snoc_ind with
    | nil => simp [bucketsOf, Dict.keys, firsts, Dict.get?]
    | snoc entries e ih =>
        rw [bucketsOf_snoc, List.map_append, List.map_singleton, firsts_append_singleton]
        constructor
        · rw [Dict.keys_update, ih.1]
          simp only [mem_firsts]
        · intro k
          rw [Dict.get?_update]
          by_cases hk : e.1 = k
          · subst hk
            rw [if_pos rfl, if_pos (by simp), ih.2, under_append]
            congr 1
            by_cases hm : e.1 ∈ entries.map Prod.fst
            · rw [if_pos hm]; simp [under]
            · rw [if_neg hm, under_eq_nil hm]; simp [under]
          · rw [if_neg hk, ih.2, under_append]
            have : under [e] k = [] := by simp [under, hk]
            rw [this, List.append_nil]
            have : k ∈ entries.map Prod.fst ++ [e.1] ↔ k ∈ entries.map Prod.fst := by
              rw [List.mem_append, List.mem_singleton]
              exact ⟨fun h => h.resolve_right fun h => hk h.symm, Or.inl⟩
            simp only [this]
  have hkeys : Dict.keys ((firsts (entries.map Prod.fst)).map fun k => (k, under entries k)) =
      firsts (entries.map Prod.fst) := by
    simp [Dict.keys, Function.comp_def]
  refine Dict.ext_get? (by rw [main.1, hkeys]) (by rw [main.1]; exact nodup_firsts _) ?_
  intro k
  rw [main.2]
  by_cases hm : k ∈ entries.map Prod.fst
  · rw [if_pos hm]
    refine (Dict.get?_of_mem (by rw [hkeys]; exact nodup_firsts _) ?_).symm
    exact List.mem_map.mpr ⟨k, mem_firsts.mpr hm, rfl⟩
  · rw [if_neg hm]
    refine ((Dict.get?_eq_none_iff _ _).mpr ?_).symm
    rw [hkeys, mem_firsts]; exact hm

omit [DecidableEq κ] in
theorem mem_bucketPairs {bucket : List α} {a b : α} : (a, b) ∈ bucketPairs bucket ↔ [a, b].Sublist bucket := by
  induction bucket with
  | nil => simp [bucketPairs]
  | cons x bucket ih =>
      rw [bucketPairs, List.mem_append, ih, List.mem_map]
      constructor
      · rintro (⟨y, hy, h⟩ | h)
        · simp only [Prod.mk.injEq] at h
          obtain ⟨rfl, rfl⟩ := h
          exact (List.singleton_sublist.mpr hy).cons_cons _
        · exact h.cons _
      · intro h
        cases h with
        | cons _ h => exact Or.inr h
        | cons_cons _ h => exact Or.inl ⟨b, List.singleton_sublist.mp h, rfl⟩

theorem sublist_under {entries : List (κ × α)} {k : κ} {a b : α} :
    [a, b].Sublist (under entries k) ↔ [(k, a), (k, b)].Sublist entries := by
  unfold under
  constructor
  · intro h
    obtain ⟨l, hl, he⟩ := List.sublist_map_iff.mp h
    have hl' : ∀ e ∈ l, e.1 = k := by
      intro e he'
      have := (hl.subset he')
      simpa using (List.mem_filter.mp this).2
    match l, he with
    | [x, y], he =>
        simp only [List.map_cons, List.map_nil, List.cons.injEq, and_true] at he
        have hx := hl' x (by simp)
        have hy := hl' y (by simp)
        obtain ⟨x1, x2⟩ := x
        obtain ⟨y1, y2⟩ := y
        simp only at hx hy he
        rw [hx, hy, ← he.1, ← he.2] at hl
        exact hl.trans List.filter_sublist
  · intro h
    have := (h.filter fun e => decide (e.1 = k)).map Prod.snd
    simpa using this

/-- The pairs given by the buckets: two entries with the same key, in the order of the entries. -/
theorem mem_pairs_bucketsOf {entries : List (κ × α)} {a b : α} :
    (a, b) ∈ pairsFromBuckets ((bucketsOf entries).map Prod.snd) ↔ ∃ k, [(k, a), (k, b)].Sublist entries := by
  unfold pairsFromBuckets
  rw [bucketsOf_eq, List.map_map, List.mem_flatMap]
  constructor
  · rintro ⟨bucket, hb, h⟩
    rw [List.mem_map] at hb
    obtain ⟨k, _, rfl⟩ := hb
    exact ⟨k, sublist_under.mp (mem_bucketPairs.mp h)⟩
  · rintro ⟨k, h⟩
    refine ⟨under entries k, List.mem_map.mpr ⟨k, mem_firsts.mpr ?_, rfl⟩, mem_bucketPairs.mpr (sublist_under.mpr h)⟩
    exact List.mem_map.mpr ⟨(k, a), h.subset (by simp), rfl⟩

theorem pair_sublist_append {β : Type _} {x y : β} {l l' : List β} :
    [x, y].Sublist (l ++ l') ↔ [x, y].Sublist l ∨ (x ∈ l ∧ y ∈ l') ∨ [x, y].Sublist l' := by
  rw [List.sublist_append_iff]
  constructor
  · rintro ⟨l1, l2, h, h1, h2⟩
    match l1, h with
    | [], h => simp only [List.nil_append] at h; rw [← h] at h2; exact Or.inr (Or.inr h2)
    | [z], h =>
        simp only [List.cons_append, List.nil_append, List.cons.injEq] at h
        obtain ⟨rfl, rfl⟩ := h
        exact Or.inr (Or.inl ⟨List.singleton_sublist.mp h1, List.singleton_sublist.mp h2⟩)
    | [z, w], h =>
        simp only [List.cons_append, List.nil_append, List.cons.injEq] at h
        obtain ⟨rfl, rfl, _⟩ := h
        exact Or.inl h1
    | z :: w :: v :: l1, h => simp at h
  · rintro (h | ⟨h1, h2⟩ | h)
    · exact ⟨[x, y], [], by simp, h, List.nil_sublist _⟩
    · exact ⟨[x], [y], by simp, List.singleton_sublist.mpr h1, List.singleton_sublist.mpr h2⟩
    · exact ⟨[], [x, y], by simp, List.nil_sublist _, h⟩

theorem pair_sublist_cons {β : Type _} {x y z : β} {l : List β} :
    [x, y].Sublist (z :: l) ↔ (x = z ∧ y ∈ l) ∨ [x, y].Sublist l := by
  constructor
  · intro h
    cases h with
    | cons _ h => exact Or.inr h
    | cons_cons _ h => exact Or.inl ⟨rfl, List.singleton_sublist.mp h⟩
  · rintro (⟨rfl, h⟩ | h)
    · exact (List.singleton_sublist.mpr h).cons_cons _
    · exact h.cons _

/-- Two entries with the same key: two items in order having the key, or one item having the key twice. -/
theorem pair_sublist_entries {ks : α → List κ} {data : List α} {k : κ} {a b : α} :
    [(k, a), (k, b)].Sublist (data.flatMap fun item => (ks item).map fun k => (k, item)) ↔
      ([a, b].Sublist data ∧ k ∈ ks a ∧ k ∈ ks b) ∨ (a = b ∧ a ∈ data ∧ [k, k].Sublist (ks a)) := by
  induction data with
  | nil => simp
  | cons x data ih =>
      rw [List.flatMap_cons, pair_sublist_append, ih, pair_sublist_cons]
      have h1 : [(k, a), (k, b)].Sublist ((ks x).map fun k => (k, x)) ↔ a = x ∧ b = x ∧ [k, k].Sublist (ks x) := by
        constructor
        · intro h
          have ha := h.subset (show (k, a) ∈ [(k, a), (k, b)] by simp)
          have hb := h.subset (show (k, b) ∈ [(k, a), (k, b)] by simp)
          simp only [List.mem_map, Prod.mk.injEq] at ha hb
          obtain ⟨_, _, _, rfl⟩ := ha
          obtain ⟨_, _, _, rfl⟩ := hb
          refine ⟨rfl, rfl, ?_⟩
          have := h.map Prod.fst
          simpa [Function.comp_def] using this
        · rintro ⟨rfl, rfl, h⟩
          exact h.map (fun k => (k, b))
      have h2 : ∀ c y, (k, c) ∈ (ks y).map (fun k => (k, y)) ↔ c = y ∧ k ∈ ks y := by
        intro c y
        simp only [List.mem_map, Prod.mk.injEq]
        constructor
        · rintro ⟨_, h, rfl, rfl⟩; exact ⟨rfl, h⟩
        · rintro ⟨rfl, h⟩; exact ⟨k, h, rfl, rfl⟩
      have h3 : (k, b) ∈ data.flatMap (fun item => (ks item).map fun k => (k, item)) ↔ b ∈ data ∧ k ∈ ks b := by
        rw [List.mem_flatMap]
        constructor
        · rintro ⟨y, hy, h⟩
          obtain ⟨rfl, h⟩ := (h2 b y).mp h
          exact ⟨hy, h⟩
        · rintro ⟨hb, h⟩
          exact ⟨b, hb, (h2 b b).mpr ⟨rfl, h⟩⟩
      rw [h1, h2, h3]
      constructor
      · rintro (⟨rfl, rfl, h⟩ | ⟨⟨rfl, h4⟩, h5, h6⟩ | (⟨h4, h5⟩ | ⟨rfl, h4, h5⟩))
        · exact Or.inr ⟨rfl, by simp, h⟩
        · exact Or.inl ⟨Or.inl ⟨rfl, h5⟩, h4, h6⟩
        · exact Or.inl ⟨Or.inr h4, h5⟩
        · exact Or.inr ⟨rfl, by simp [h4], h5⟩
      · rintro (⟨⟨rfl, h4⟩ | h4, h5, h6⟩ | ⟨rfl, h4, h5⟩)
        · exact Or.inr (Or.inl ⟨⟨rfl, h5⟩, h4, h6⟩)
        · exact Or.inr (Or.inr (Or.inl ⟨h4, h5, h6⟩))
        · rcases List.mem_cons.mp h4 with rfl | h4
          · exact Or.inl ⟨rfl, rfl, h5⟩
          · exact Or.inr (Or.inr (Or.inr ⟨rfl, h4, h5⟩))

theorem keysEntries_eq (truthy : κ → Bool) (keys : α → Option (List κ)) (data : List α) :
    keysEntries truthy keys data =
      data.flatMap fun item => (((keys item).getD []).filter truthy).map fun k => (k, item) := by
  unfold keysEntries
  congr 1
  funext item
  cases keys item with
  | none => rfl
  | some ks =>
      simp only [Option.getD_some]
      induction ks with
      | nil => rfl
      | cons k ks ih =>
          rw [List.flatMap_cons, ih, List.filter_cons]
          split <;> rfl

end Fog.KeyCollision

namespace Fog.ClusteringUtils

open Fog.Spec

variable {α : Type _}

/-- Isolated nodes do not count when lone items are too small. -/
theorem _root_.Fog.Spec.IsComponents.nodes {R : α → α → Prop} {N M : α → Prop} {ok : Nat → Prop} {cs : List (List α)}
    (h : IsComponents R N ok cs) (hNM : ∀ a, N a → M a) (hM : ∀ a, M a → ¬ N a → ∀ b, ¬ R a b)
    (hok : ∀ n, ok n → 2 ≤ n) : IsComponents R M ok cs := by
  refine ⟨?_, ?_, h.disjoint⟩
  · intro c hc
    obtain ⟨h1, a, h2, h3⟩ := h.sound c hc
    exact ⟨h1, a, hNM a h2, h3⟩
  · intro a ha l hl hsl
    by_cases hN : N a
    · exact h.complete a hN l hl hsl
    · exfalso
      have hno := hM a ha hN
      have hall : ∀ x ∈ l, x = a := by
        intro x hx
        cases (hl.2 x).mp hx with
        | refl => rfl
        | step h1 _ => exact absurd h1 (hno _)
      have h2 := hok _ hsl
      match l, h2 with
      | x :: y :: l, _ =>
          have h3 := hall x (by simp)
          have h4 := hall y (by simp)
          have := hl.1
          rw [h3, h4] at this
          simp at this

/-- The graph of the pairs filtered out of pairs with themselves has the same components of size two or more. -/
theorem clusters_of_relation [DecidableEq α] {ord : α → List α → List α} (hord : ∀ a l, (ord a l).Perm l)
    (pairs : List (α × α)) (R : α → α → Prop) (hR : ∀ a b, Linked pairs a b ↔ R a b) (min : Nat) (max : Option Nat)
    (fuzzy : Bool) :
    ∃ cs, clustersFromPairs ord pairs min max .connectedComponents fuzzy = .ok cs ∧
      IsComponents R (fun a => ∃ b, R a b) (SizeBetween min max) cs := by
  obtain ⟨cs, h1, h2⟩ := clustersFromPairs_components (fun a l _ => (hord a l).mem_iff) pairs min max fuzzy
  refine ⟨cs, h1, h2.congr ?_ ?_ fun _ => Iff.rfl⟩
  · intro a b
    exact ⟨Connected.mono fun a b h => (hR a b).mp h, Connected.mono fun a b h => (hR a b).mpr h⟩
  · intro a
    exact exists_congr fun b => hR a b

end Fog.ClusteringUtils

namespace Fog.KeyCollision

theorem pair_sublist_of_mem {β : Type _} {a b : β} {l : List β} (ha : a ∈ l) (hb : b ∈ l) (h : a ≠ b) :
    [a, b].Sublist l ∨ [b, a].Sublist l := by
  obtain ⟨l1, l2, rfl⟩ := List.append_of_mem ha
  simp only [List.mem_append, List.mem_cons] at hb
  rcases hb with hb | hb | hb
  · exact Or.inr (pair_sublist_append.mpr (Or.inr (Or.inl ⟨hb, by simp⟩)))
  · exact absurd hb.symm h
  · exact Or.inl (pair_sublist_append.mpr (Or.inr (Or.inr (pair_sublist_cons.mpr (Or.inl ⟨rfl, hb⟩)))))

end Fog.KeyCollision
