import Verif.Lemmas.Laesa
import Verif.Lemmas.Faults
import Verif.Lemmas.Buckets
import Mathlib.Algebra.Order.Field.Rat
import Mathlib.Algebra.Order.Ring.Abs
import Mathlib.Data.List.Dedup
import Mathlib.Tactic.NormNum

/-!
# Properties of laesa (C79, C80)
-/

namespace Fog.Props

open Fog.ClusteringUtils Fog.Laesa Fog.Spec

variable {α K : Type _} [Field K] [LinearOrder K]

/-! ### C79 -/

/-- What `laesa` does once the number of pivots is known. -/
theorem laesa_some [DecidableEq α] {start : Nat} {ord : List Nat → List Nat} (hord : ∀ l, (ord l).Perm l)
    {gord : α → List α → List α} {data : List α} {distance : α → α → K} {radius : K} {pivots : Option Nat} {min : Nat}
    {max : Option Nat} {mode : Mode} {cs : List (List α)}
    (h : laesa start ord gord data distance radius pivots min max mode = .ok cs) :
    ∃ p D, pivotSelection start ord data (pivots.getD (Nat.clog 2 data.length)) distance = .ok (p, D) ∧
      p.length = pivots.getD (Nat.clog 2 data.length) ∧
      clustersFromPairs gord (clustering distance radius data p.length p D) min max mode false = .ok cs := by
  have key : ∀ m : Nat, (pivotSelection start ord data m distance >>= fun (p, D) =>
      clustersFromPairs gord (clustering distance radius data m p D) min max mode false) = .ok cs →
      ∃ p D, pivotSelection start ord data m distance = .ok (p, D) ∧ p.length = m ∧
        clustersFromPairs gord (clustering distance radius data p.length p D) min max mode false = .ok cs := by
    intro m hm
    match hp : pivotSelection start ord data m distance with
    | .error e => simp [hp, bind, Except.bind] at hm
    | .ok (p, D) =>
        have hl := (pivotSelection_ok hord hp).1
        refine ⟨p, D, rfl, hl, ?_⟩
        rw [hl]
        simpa [hp, bind, Except.bind] using hm
  unfold laesa at h
  match pivots with
  | some m => exact key m h
  | none =>
      by_cases h0 : data.length = 0
      · simp [h0, bind, Except.bind] at h
      · simp only [h0, if_false] at h
        exact key _ h

/-- C79: exactly which pairs `laesa` finds: the clusters are the components of "two items of the data, the one before the
other, at a distance of at most `radius`, which no pivot tells apart by more than the distance from the first item to its
nearest pivot". -/
theorem laesa_components_partial [DecidableEq α] (start : Nat) (ord : List Nat → List Nat) (hord : ∀ l, (ord l).Perm l)
    (gord : α → List α → List α) (hgord : ∀ a l, (gord a l).Perm l) (data : List α) (distance : α → α → K) (radius : K)
    (pivots : Option Nat) (min : Nat) (max : Option Nat) (cs : List (List α))
    (h : laesa start ord gord data distance radius pivots min max .connectedComponents = .ok cs) :
    ∃ p D, pivotSelection start ord data (pivots.getD (Nat.clog 2 data.length)) distance = .ok (p, D) ∧
      let Found := fun a b => ∃ i k : Nat, i < k ∧ data[i]? = some a ∧ data[k]? = some b ∧ distance a b ≤ radius ∧
        ∀ x y, IsPivot data p x → IsPivot data p y → |distance x a - distance x b| ≤ distance y a
      IsComponents (fun a b => Found a b ∨ Found b a) (fun a => ∃ b, Found a b ∨ Found b a) (SizeBetween min max) cs := by
  obtain ⟨p, D, hp, _, hc⟩ := laesa_some hord h
  refine ⟨p, D, hp, ?_⟩
  have hD := (pivotSelection_ok hord hp).2
  obtain ⟨cs', h1, h2⟩ := clusters_of_relation hgord (clustering distance radius data p.length p D) _
    (fun a b => by unfold Linked; rw [mem_clustering hD, mem_clustering hD]) min max false
  rw [hc] at h1
  obtain rfl := Except.ok.inj h1
  exact h2

/-- C79: the clusters of `laesa` are never too large: their items are linked by pairs of items of the data at a distance of at
most `radius`. -/
theorem laesa_sound [DecidableEq α] (start : Nat) (ord : List Nat → List Nat) (hord : ∀ l, (ord l).Perm l)
    (gord : α → List α → List α) (hgord : ∀ a l, (gord a l).Perm l) (data : List α) (distance : α → α → K)
    (hs : ∀ a b, distance a b = distance b a) (radius : K)
    (pivots : Option Nat) (min : Nat) (max : Option Nat) (cs : List (List α))
    (h : laesa start ord gord data distance radius pivots min max .connectedComponents = .ok cs) :
    ∀ c ∈ cs, SizeBetween min max c.length ∧ c.Nodup ∧ ∃ a ∈ data, ∀ x ∈ c, Connected (fun a b => a ∈ data ∧ b ∈ data ∧ distance a b ≤ radius) a x := by
  obtain ⟨p, D, _, hcs⟩ := laesa_components_partial start ord hord gord hgord data distance radius pivots min max cs h
  intro c hc
  obtain ⟨h1, a, ⟨b, hb⟩, h2, h3⟩ := hcs.sound c hc
  have hmem : ∀ {i : Nat} {x : α}, data[i]? = some x → x ∈ data := fun h => List.mem_of_getElem? h
  refine ⟨h1, h2, a, ?_, ?_⟩
  · rcases hb with ⟨i, k, _, hi, hk, _⟩ | ⟨i, k, _, hi, hk, _⟩
    · exact hmem hi
    · exact hmem hk
  · intro x hx
    have := (h3 x).1 hx
    clear hb h3 hx
    induction this with
    | refl => exact .refl _
    | step hr _ ih =>
        refine .step ?_ ih
        rcases hr with ⟨i, k, _, hi, hk, hd, _⟩ | ⟨i, k, _, hi, hk, hd, _⟩
        · exact ⟨hmem hi, hmem hk, hd⟩
        · exact ⟨hmem hk, hmem hi, hs _ _ ▸ hd⟩

/-- C79: two close items are in the same cluster (if it has an accepted size) as soon as the first one is at least as far from
all pivots as from the second one. -/
theorem laesa_complete_partial [IsStrictOrderedRing K] [DecidableEq α] (start : Nat) (ord : List Nat → List Nat)
    (hord : ∀ l, (ord l).Perm l) (gord : α → List α → List α) (hgord : ∀ a l, (gord a l).Perm l) (data : List α)
    (distance : α → α → K) (hd : IsPseudoMetric distance) (radius : K) (pivots : Option Nat) (min : Nat)
    (cs : List (List α)) (h : laesa start ord gord data distance radius pivots min none .connectedComponents = .ok cs)
    (hmin : min ≤ 2) (i k : Nat) (hik : i < k) (a b : α) (ha : data[i]? = some a) (hb : data[k]? = some b) (hab : a ≠ b)
    (hr : distance a b ≤ radius) :
    ∃ p D, pivotSelection start ord data (pivots.getD (Nat.clog 2 data.length)) distance = .ok (p, D) ∧
      ((∀ x, IsPivot data p x → distance a b ≤ distance x a) → ∃ c ∈ cs, a ∈ c ∧ b ∈ c) := by
  obtain ⟨p, D, hp, hcs⟩ := laesa_components_partial start ord hord gord hgord data distance radius pivots min none cs h
  refine ⟨p, D, hp, fun hpiv => ?_⟩
  obtain ⟨Found, hF⟩ : ∃ Found : α → α → Prop, Found = fun a b => ∃ i k : Nat, i < k ∧ data[i]? = some a ∧
    data[k]? = some b ∧ distance a b ≤ radius ∧
    ∀ x y, IsPivot data p x → IsPivot data p y → |distance x a - distance x b| ≤ distance y a := ⟨_, rfl⟩
  replace hcs : IsComponents (fun a b => Found a b ∨ Found b a) (fun a => ∃ b, Found a b ∨ Found b a)
      (SizeBetween min none) cs := by subst hF; exact hcs
  have hin : ∀ x y, Found x y → x ∈ data ∧ y ∈ data := by
    subst hF
    rintro x y ⟨i, k, _, hi, hk, _⟩
    exact ⟨List.mem_of_getElem? hi, List.mem_of_getElem? hk⟩
  have hab' : Found a b := by
    subst hF
    refine ⟨i, k, hik, ha, hb, hr, ?_⟩
    intro x y hx hy
    refine le_trans ?_ (hpiv y hy)
    rw [abs_le]
    have h1 := hd.triangle x a b
    have h2 := hd.triangle x b a
    have h3 := hd.symm a b
    constructor <;> linarith
  clear hF
  have hsymm : ∀ x y, Found x y ∨ Found y x → Found y x ∨ Found x y := fun x y h => h.symm
  classical
  have hl : IsComponentOf (fun a b => Found a b ∨ Found b a) a
      (data.dedup.filter fun x => Connected (fun a b => Found a b ∨ Found b a) a x) := by
    refine ⟨(List.nodup_dedup _).filter _, ?_⟩
    intro x
    rw [List.mem_filter]
    simp only [List.mem_dedup, decide_eq_true_eq, and_iff_right_iff_imp]
    intro hc
    have hain := (hin _ _ hab').1
    clear hab' ha hab hr hpiv
    induction hc with
    | refl => exact hain
    | step hr _ ih => exact ih (hr.elim (fun h => (hin _ _ h).2) fun h => (hin _ _ h).1)
  have hbl : Connected (fun a b => Found a b ∨ Found b a) a b := .step (Or.inl hab') (.refl _)
  obtain ⟨c, hc, hac⟩ := hcs.complete a ⟨b, Or.inl hab'⟩ _ hl ⟨by
    have : [a, b] ⊆ data.dedup.filter fun x => Connected (fun a b => Found a b ∨ Found b a) a x := by
      intro x hx
      simp only [List.mem_cons, List.not_mem_nil, or_false] at hx
      rcases hx with rfl | rfl
      · exact (hl.2 _).2 (.refl _)
      · exact (hl.2 _).2 hbl
    have := (List.subperm_of_subset (by simp [hab]) this).length_le
    simp only [List.length_cons, List.length_nil] at this
    omega, by simp⟩
  obtain ⟨_, a', _, _, hc'⟩ := hcs.sound c hc
  exact ⟨c, hc, hac, (hc' b).2 (((hc' a).1 hac).trans hbl)⟩

/-- C79: the pivots lose their neighbours: when `a` is a pivot, no pair of `a` and a later item at a positive distance is
found. -/
theorem laesa_pivot_finds_nothing [IsStrictOrderedRing K] (start : Nat) (ord : List Nat → List Nat)
    (hord : ∀ l, (ord l).Perm l) (data : List α) (distance : α → α → K) (hd : IsMetric distance) (radius : K) (pivots : Nat)
    (p : List Nat) (D : List (List K)) (h : pivotSelection start ord data pivots distance = .ok (p, D)) (a b : α)
    (ha : IsPivot data p a) (hab : a ≠ b) : (a, b) ∉ clustering distance radius data pivots p D := by
  obtain ⟨hl, hD⟩ := pivotSelection_ok hord h
  rw [← hl, mem_clustering hD]
  rintro ⟨i, k, _, _, _, _, hall⟩
  have := hall a a ha ha
  rw [hd.self, zero_sub, abs_neg] at this
  have h2 := hd.pos a b hab
  exact absurd (le_abs_self (distance a b)) (not_le.2 (lt_of_le_of_lt this h2))

theorem laesa_eval [DecidableEq α] {start : Nat} {ord : List Nat → List Nat} {gord : α → List α → List α} {data : List α}
    {distance : α → α → K} {radius : K} {min : Nat} {max : Option Nat} {mode : Mode} {m : Nat} {p : List Nat}
    {D : List (List K)} {pairs : List (α × α)} (h0 : data.length ≠ 0) (hm : Nat.clog 2 data.length = m)
    (h1 : pivotSelection start ord data m distance = .ok (p, D)) (h2 : clustering distance radius data m p D = pairs) :
    laesa start ord gord data distance radius none min max mode = clustersFromPairs gord pairs min max mode false := by
  unfold laesa
  simp only [h0, if_false, pure, Except.pure, bind, Except.bind, hm, h1, h2]

/-- C79 is false of the code in general: of two items at distance 1, `laesa` with radius 1 makes a cluster or not according to
what the random generator draws. -/
theorem laesa_loses_pairs :
    laesa 1 id (fun _ l => l) [0, 1] (fun a b : Rat => |a - b|) 1 none 2 none .connectedComponents = .ok [] ∧
    laesa 0 id (fun _ l => l) [0, 1] (fun a b : Rat => |a - b|) 1 none 2 none .connectedComponents = .ok [[0, 1]] := by
  constructor
  · rw [laesa_eval (m := 1) (p := [0]) (D := [[0, 1]]) (pairs := []) (by simp) (by decide) (by decide +kernel)
      (by decide +kernel)]
    simp [clustersFromPairs, makeGraph, components]
  · rw [laesa_eval (m := 1) (p := [1]) (D := [[1, 0]]) (pairs := [(0, 1)]) (by simp) (by decide) (by decide +kernel)
      (by decide +kernel)]
    simp [clustersFromPairs, makeGraph, addPair, Dict.update, Dict.set, Dict.get?, ClusteringUtils.add, components,
      search, iterate, sizeOk, bind, Except.bind]

/-- The absolute difference of rationals is a metric. -/
theorem rat_metric : IsMetric (fun a b : Rat => |a - b|) where
  self := by simp
  symm := abs_sub_comm
  triangle := abs_sub_le
  pos := fun a b h => abs_pos.2 (sub_ne_zero.2 h)

/-- Of five numbers, with three pivots (6, 0 and 5), the pair of 1 and 2 is found; the pair of 5 and 6 is not. -/
example : laesa 0 id (fun _ l => l) [0, 1, 2, 5, 6] (fun a b : Rat => |a - b|) 1 none 2 none .connectedComponents =
    .ok [[1, 2]] := by
  rw [laesa_eval (m := 3) (p := [4, 0, 3]) (D := [[6, 5, 4, 1, 0], [0, 1, 2, 5, 6], [5, 4, 3, 0, 1]]) (pairs := [(1, 2)])
    (by simp) (by decide) (by decide +kernel) (by decide +kernel)]
  simp [clustersFromPairs, makeGraph, addPair, Dict.update, Dict.set, Dict.get?, ClusteringUtils.add, components,
    search, iterate, sizeOk, bind, Except.bind]

/-! ### C80 -/

/-- C80: when two items differ, with at most as many pivots as items, the pivots are chosen greedily: each
maximises, among the items not yet chosen, the sum of the distances to the previous pivots and to the item drawn first; no
exception is raised. -/
theorem pivot_selection_greedy_partial [IsStrictOrderedRing K] (start : Nat) (ord : List Nat → List Nat)
    (hord : ∀ l, (ord l).Perm l) (data : List α) (hdiff : ∃ x ∈ data, ∃ y ∈ data, x ≠ y) (hstart : start < data.length)
    (distance : α → α → K) (hd : IsMetric distance) (pivots : Nat) (hp : pivots ≤ data.length) (w : Nat → Nat → K)
    (hw : ∀ (u j : Nat) (x y : α), data[u]? = some x → data[j]? = some y → w u j = distance x y) :
    ∃ p D, pivotSelection start ord data pivots distance = .ok (p, D) ∧ p.Nodup ∧ p.length = pivots ∧
      (∃ bs, p.Perm bs ∧ Greedy w data.length [start] [] bs) ∧
      List.Forall₂ (fun b row => ∃ x, data[b]? = some x ∧ row = data.map (distance x)) p D := by
  obtain ⟨bs, h1, h2, h3, h4⟩ := findPivots_greedy hd hdiff w hw pivots [] [] (List.replicate data.length 0) start
    (by simp) hstart (by simp) (by simp) (by simp) (by simpa using hp) (Or.inl ⟨rfl, rfl⟩)
    (by intro j hj _; simp [List.getD_eq_getElem?_getD, hj])
  simp only [List.nil_append] at h1 h3 h4
  have hlt : ∀ (bs used taken : List Nat), Greedy w data.length used taken bs → ∀ b ∈ bs, b < data.length := by
    intro bs
    induction bs with
    | nil => simp
    | cons b bs ih =>
        rintro used taken ⟨⟨h, _⟩, h'⟩ c hc
        rcases List.mem_cons.1 hc with rfl | hc
        · exact h
        · exact ih _ _ h' c hc
  have hperm := hord bs
  have hlen : (ord bs).length = pivots := hperm.length_eq.trans h2
  obtain ⟨D, hD⟩ : ∃ D, (List.range pivots).mapM (fun i => (match (ord bs)[i]? with
        | none => .error .indexError
        | some b => match data[b]? with
          | none => .error .indexError
          | some pivot => .ok (data.map (distance pivot)) : Py (List K))) = .ok D := by
    have : ∀ l : List Nat, (∀ i ∈ l, i < pivots) → ∃ D, l.mapM (fun i => (match (ord bs)[i]? with
        | none => .error .indexError
        | some b => match data[b]? with
          | none => .error .indexError
          | some pivot => .ok (data.map (distance pivot)) : Py (List K))) = .ok D := by
      intro l
      induction l with
      | nil => intro _; exact ⟨[], rfl⟩
      | cons i l ih =>
          intro hi
          obtain ⟨D, hD⟩ := ih fun j hj => hi j (by simp [hj])
          have hi' : i < (ord bs).length := by rw [hlen]; exact hi i (by simp)
          have hb : (ord bs)[i] < data.length := hlt bs _ _ h4 _ (hperm.mem_iff.1 (List.getElem_mem hi'))
          refine ⟨data.map (distance data[(ord bs)[i]]) :: D, ?_⟩
          rw [List.mapM_cons, hD]
          simp [List.getElem?_eq_getElem hi', List.getElem?_eq_getElem hb, bind, Except.bind, pure, Except.pure]
    exact this _ (by simp)
  refine ⟨ord bs, D, ?_, hperm.nodup_iff.2 h3, hlen, ⟨bs, hperm, by simpa using h4⟩, (mapM_rows pivots D hlen.le hD).2⟩
  have e : pivotSelection start ord data pivots distance = ((List.range pivots).mapM (fun i => (match (ord bs)[i]? with
        | none => .error .indexError
        | some b => match data[b]? with
          | none => .error .indexError
          | some pivot => .ok (data.map (distance pivot)) : Py (List K))) >>= fun D => pure (ord bs, D)) := by
    unfold pivotSelection
    rw [if_neg (by omega), h1]
    rfl
  rw [e, hD]
  rfl

/-- What is always true of the pivots found: they are different positions of items. -/
theorem findPivots_total (distance : α → α → K) (data : List α) (turns : Nat) :
    ∀ (p : List Nat) (A : List K) (b : Nat), A.length = data.length → b < data.length → p.Nodup → (∀ t ∈ p, t < data.length) →
      ∃ q, findPivots distance data turns p A b = .ok q ∧ q.Nodup ∧ ∀ t ∈ q, t < data.length := by
  induction turns with
  | zero => intro p A b _ _ h1 h2; exact ⟨p, rfl, h1, h2⟩
  | succ turns ih =>
      intro p A b hA hb h1 h2
      rw [findPivots, List.getElem?_eq_getElem hb]
      simp only
      obtain ⟨hl, _, hbest⟩ := selTurn_spec distance p data[b] data 0 A (b, 0) hA
      have hlt : (selTurn distance p data[b] 0 data A (b, 0)).2.1 < data.length := by
        rcases hbest with ⟨h, _⟩ | ⟨i, hi, _, h, _⟩
        · rw [h]; exact hb
        · rw [h]; simpa using hi
      refine ih _ _ _ hl hlt ?_ ?_
      · unfold setAdd
        split
        · exact h1
        · rw [List.nodup_append]; simp [h1]; grind
      · intro t ht
        unfold setAdd at ht
        split at ht
        · exact h2 t ht
        · rcases List.mem_append.1 ht with ht | ht
          · exact h2 t ht
          · rw [List.mem_singleton.1 ht]; exact hlt

/-- On equal items, no pivot but the first is ever found. -/
theorem findPivots_equal (distance : α → α → K) (hd : ∀ a, distance a a = 0) (data : List α)
    (heq : ∀ x ∈ data, ∀ y ∈ data, x = y) (turns : Nat) :
    ∀ (p : List Nat) (A : List K) (b : Nat), A.length = data.length → b < data.length →
      (∀ j : Nat, j < data.length → A.getD j 0 = 0) → (p = [] ∨ p = [b]) →
      ∀ q, findPivots distance data turns p A b = .ok q → q.length ≤ 1 := by
  induction turns with
  | zero =>
      intro p A b _ _ _ hp q hq
      injection hq with hq
      subst hq
      rcases hp with rfl | rfl <;> simp
  | succ turns ih =>
      intro p A b hA hb h0 hp q hq
      rw [findPivots, List.getElem?_eq_getElem hb] at hq
      simp only at hq
      obtain ⟨hl, hval, hbest⟩ := selTurn_spec distance p data[b] data 0 A (b, 0) hA
      have hz : ∀ j : Nat, j < data.length → (selTurn distance p data[b] 0 data A (b, 0)).1.getD j 0 = 0 := by
        intro j hj
        rw [hval j data[j] (List.getElem?_eq_getElem hj), h0 j hj,
          heq data[b] (List.getElem_mem hb) data[j] (List.getElem_mem hj), hd]
        simp
      have hb' : (selTurn distance p data[b] 0 data A (b, 0)).2.1 = b := by
        rcases hbest with ⟨h, _⟩ | ⟨i, hi, _, _, h5, _⟩
        · rw [h]
        · rw [hz i hi] at h5
          exact absurd h5 (lt_irrefl _)
      rw [hb'] at hq
      refine ih _ _ _ hl hb hz (Or.inr ?_) q hq
      rcases hp with rfl | rfl <;> simp [setAdd]

/-- `pivot_selection` does not raise exactly when there are enough items, and two of them differ or one pivot is enough. -/
theorem pivotSelection_total_iff [IsStrictOrderedRing K] (start : Nat) (ord : List Nat → List Nat)
    (hord : ∀ l, (ord l).Perm l) (data : List α) (hstart : start < data.length)
    (distance : α → α → K) (hd : IsMetric distance) (pivots : Nat) :
    (∃ r, pivotSelection start ord data pivots distance = .ok r) ↔
      pivots ≤ data.length ∧ (pivots ≤ 1 ∨ ∃ x ∈ data, ∃ y ∈ data, x ≠ y) := by
  have hrep : (List.replicate data.length (0 : K)).length = data.length := by simp
  obtain ⟨q, hq, hnd, hlt⟩ := findPivots_total distance data pivots [] (List.replicate data.length 0) start hrep hstart (by simp)
    (by simp)
  have hn0 : data.length ≠ 0 := by omega
  constructor
  · rintro ⟨⟨p, D⟩, h⟩
    have hl := (pivotSelection_ok hord h).1
    have hpq : p.Perm q := by
      unfold pivotSelection at h
      rw [if_neg hn0, hq] at h
      simp only [bind, Except.bind] at h
      split at h
      · simp at h
      · simp only [pure, Except.pure, Except.ok.injEq, Prod.mk.injEq] at h
        rw [← h.1]
        exact hord q
    have hle : q.length ≤ data.length := by
      have := (List.subperm_of_subset hnd (fun t ht => List.mem_range.2 (hlt t ht))).length_le
      simpa using this
    refine ⟨by rw [← hl, hpq.length_eq]; exact hle, ?_⟩
    by_cases hdiff : ∃ x ∈ data, ∃ y ∈ data, x ≠ y
    · exact Or.inr hdiff
    · left
      have heq : ∀ x ∈ data, ∀ y ∈ data, x = y := by
        intro x hx y hy
        by_contra h
        exact hdiff ⟨x, hx, y, hy, h⟩
      rw [← hl, hpq.length_eq]
      exact findPivots_equal distance hd.self data heq pivots [] _ start hrep hstart
        (by intro j hj; simp [List.getD_eq_getElem?_getD, hj]) (Or.inl rfl) q hq
  · rintro ⟨hle, h⟩
    rcases h with h | hdiff
    · have hcases : pivots = 0 ∨ pivots = 1 := by omega
      rcases hcases with rfl | rfl
      · refine ⟨(ord q, []), ?_⟩
        unfold pivotSelection
        rw [if_neg hn0, hq]
        rfl
      · have hql : q.length = 1 := by
          rw [findPivots, List.getElem?_eq_getElem hstart] at hq
          simp only [findPivots, setAdd] at hq
          injection hq with hq
          rw [← hq]
          simp
        have hol : (ord q).length = 1 := (hord q).length_eq.trans hql
        obtain ⟨b, hb⟩ := List.length_eq_one_iff.1 hol
        have hbl : b < data.length := hlt b ((hord q).mem_iff.1 (by rw [hb]; simp))
        refine ⟨(ord q, [data.map (distance data[b])]), ?_⟩
        unfold pivotSelection
        rw [if_neg hn0, hq]
        simp [bind, Except.bind, hb, List.getElem?_eq_getElem hbl, pure, Except.pure, List.range_succ]
    · have hdef : ∃ x, x ∈ data := ⟨_, List.getElem_mem hstart⟩
      obtain ⟨x0, _⟩ := hdef
      obtain ⟨p, D, h, _⟩ := pivot_selection_greedy_partial start ord hord data hdiff hstart distance hd pivots hle
        (fun u j => distance (data.getD u x0) (data.getD j x0))
        (by intro u j x y hx hy; simp [List.getD_eq_getElem?_getD, hx, hy])
      exact ⟨_, h⟩

theorem pivotSelection_error {start : Nat} {ord : List Nat → List Nat} {data : List α} (hstart : start < data.length)
    {distance : α → α → K} {pivots : Nat} {e : PyErr} (h : pivotSelection start ord data pivots distance = .error e) :
    e = .indexError := by
  obtain ⟨q, hq, _, _⟩ := findPivots_total distance data pivots [] (List.replicate data.length 0) start (by simp) hstart (by simp)
    (by simp)
  unfold pivotSelection at h
  rw [if_neg (by omega), hq] at h
  simp only [bind, Except.bind] at h
  split at h
  · next e' he' =>
      injection h with h
      subst h
      obtain ⟨_, i, _, _, _, hi⟩ := (mapM_error_iff _ _ _).mp he'
      repeat' split at hi
      all_goals first
        | (injection hi with hi; exact hi.symm)
        | cases hi
  · simp [pure, Except.pure] at h

/-- C80: exactly when `laesa` raises, with a metric: on no data (`ValueError`); when there are more pivots than items, or at least two
pivots and only equal items (`IndexError`); when the mode is unknown (`TypeError`). -/
theorem laesa_raises_iff [IsStrictOrderedRing K] [DecidableEq α] (start : Nat) (ord : List Nat → List Nat)
    (hord : ∀ l, (ord l).Perm l) (gord : α → List α → List α) (hgord : ∀ a l, (gord a l).Perm l) (data : List α)
    (hstart : data ≠ [] → start < data.length) (distance : α → α → K) (hd : IsMetric distance) (radius : K)
    (pivots : Option Nat) (min : Nat) (max : Option Nat) (mode : Mode) (e : PyErr) :
    let m := pivots.getD (Nat.clog 2 data.length)
    let Few := data.length < m ∨ (2 ≤ m ∧ ∀ x ∈ data, ∀ y ∈ data, x = y)
    laesa start ord gord data distance radius pivots min max mode = .error e ↔
      (data = [] ∧ e = .valueError) ∨ (data ≠ [] ∧ Few ∧ e = .indexError) ∨
      (data ≠ [] ∧ ¬ Few ∧ mode = .unknown ∧ e = .typeError) := by
  intro m Few
  by_cases h0 : data = []
  · subst h0
    have hl : laesa start ord gord ([] : List α) distance radius pivots min max mode = .error .valueError := by
      cases pivots <;> rfl
    rw [hl]
    simp [eq_comm]
  · have hs := hstart h0
    have hn0 : data.length ≠ 0 := by omega
    have hl : laesa start ord gord data distance radius pivots min max mode =
        (pivotSelection start ord data m distance >>= fun (p, D) =>
          clustersFromPairs gord (clustering distance radius data m p D) min max mode false) := by
      unfold laesa
      cases hp : pivots with
      | none => simp only [hn0, if_false, m, hp]; rfl
      | some k => simp only [m, hp]; rfl
    have hfew : Few ↔ ¬ ∃ r, pivotSelection start ord data m distance = .ok r := by
      rw [pivotSelection_total_iff start ord hord data hs distance hd m]
      simp only [Few]
      constructor
      · rintro (h | ⟨h, heq⟩) ⟨h1, h2⟩
        · omega
        · rcases h2 with h2 | ⟨x, hx, y, hy, hxy⟩
          · omega
          · exact hxy (heq x hx y hy)
      · intro h
        by_cases h1 : data.length < m
        · exact Or.inl h1
        · right
          constructor
          · by_contra h2
            exact h ⟨by omega, Or.inl (by omega)⟩
          · intro x hx y hy
            by_contra hxy
            exact h ⟨by omega, Or.inr ⟨x, hx, y, hy, hxy⟩⟩
    rw [hl]
    match hp : pivotSelection start ord data m distance with
    | .error e' =>
        have hf : Few := hfew.2 (by rintro ⟨r, hr⟩; rw [hp] at hr; cases hr)
        have he' := pivotSelection_error hs hp
        subst he'
        simp [h0, hf, bind, Except.bind, eq_comm]
    | .ok (p, D) =>
        have hf : ¬ Few := fun h => hfew.1 h ⟨_, hp⟩
        simp only [h0, hf, bind, Except.bind, false_and, and_false, false_or, not_false_eq_true, true_and, ne_eq]
        cases mode with
        | unknown => simp [clustersFromPairs, eq_comm]
        | fuzzyClusters => simp [clustersFromPairs]
        | connectedComponents =>
            obtain ⟨cs, hcs, _⟩ := clusters_of_relation hgord (clustering distance radius data m p D) _ (fun _ _ => Iff.rfl) min max false
            rw [hcs]
            simp

/-- With the default number of pivots, this only happens on no data, or on three or more equal items. -/
theorem laesa_default_raises_iff [IsStrictOrderedRing K] [DecidableEq α] (start : Nat) (ord : List Nat → List Nat)
    (hord : ∀ l, (ord l).Perm l) (gord : α → List α → List α) (hgord : ∀ a l, (gord a l).Perm l) (data : List α)
    (hstart : data ≠ [] → start < data.length) (distance : α → α → K) (hd : IsMetric distance) (radius : K)
    (min : Nat) (max : Option Nat) :
    (∃ e, laesa start ord gord data distance radius none min max .connectedComponents = .error e) ↔
      data = [] ∨ (3 ≤ data.length ∧ ∀ x ∈ data, ∀ y ∈ data, x = y) := by
  have key := laesa_raises_iff start ord hord gord hgord data hstart distance hd radius none min max .connectedComponents
  simp only [Option.getD_none] at key
  have hclog : ∀ n : Nat, ¬ n < Nat.clog 2 n := by
    intro n
    have h1 : n ≤ 2 ^ n := (Nat.lt_two_pow_self).le
    have := (Nat.clog_le_iff_le_pow (by norm_num)).2 h1
    omega
  have hclog2 : ∀ n : Nat, 2 ≤ Nat.clog 2 n ↔ 3 ≤ n := by
    intro n
    have h1 : Nat.clog 2 n ≤ 1 ↔ n ≤ 2 ^ 1 := Nat.clog_le_iff_le_pow (by norm_num)
    omega
  constructor
  · rintro ⟨e, he⟩
    rcases (key e).1 he with ⟨h, _⟩ | ⟨_, h, _⟩ | ⟨_, _, h, _⟩
    · exact Or.inl h
    · rcases h with h | ⟨h, h'⟩
      · exact absurd h (hclog _)
      · exact Or.inr ⟨(hclog2 _).1 h, h'⟩
    · cases h
  · rintro (h | ⟨h, h'⟩)
    · exact ⟨_, (key .valueError).2 (Or.inl ⟨h, rfl⟩)⟩
    · refine ⟨_, (key .indexError).2 (Or.inr (Or.inl ⟨?_, Or.inr ⟨(hclog2 _).2 h, h'⟩, rfl⟩))⟩
      rintro rfl
      simp at h

/-- C80 is false of the code in general: with three equal items the second pivot cannot be found, and `laesa` raises. -/
theorem laesa_raises_on_equal_items (radius : Rat) :
    laesa 0 id (fun _ l => l) [7, 7, 7] (fun a b : Rat => |a - b|) radius none 2 none .connectedComponents =
      .error .indexError := by
  have h : pivotSelection 0 id [7, 7, 7] 2 (fun a b : Rat => |a - b|) = .error .indexError := by decide +kernel
  unfold laesa
  simp only [List.length_cons, List.length_nil, show Nat.clog 2 (0 + 1 + 1 + 1) = 2 by decide, h, bind, Except.bind, pure,
    Except.pure]
  rfl

/-- More pivots than items. -/
example (radius : Rat) : laesa 1 id (fun _ l => l) [5, 7] (fun a b : Rat => |a - b|) radius (some 3) 2 none .connectedComponents =
    .error .indexError :=
  (laesa_raises_iff 1 id (fun _ => .refl _) (fun _ l => l) (fun _ _ => .refl _) [5, 7] (by simp) _ rat_metric radius (some 3) 2 none
    .connectedComponents .indexError).2 (Or.inr (Or.inl ⟨by simp, Or.inl (by simp), rfl⟩))

/-- Four different numbers: the first drawn is 0; 9 is the farthest, then 0, then 8. -/
example : ∃ D, pivotSelection 0 id [0, 8, 1, 9] 3 (fun a b : Rat => |a - b|) = .ok ([3, 0, 1], D) ∧
    Greedy (fun u j => |([0, 8, 1, 9] : List Rat).getD u 0 - ([0, 8, 1, 9] : List Rat).getD j 0|) 4 [0] [] [3, 0, 1] := by
  refine ⟨[[9, 1, 8, 0], [0, 8, 1, 9], [8, 0, 7, 1]], by decide +kernel, ?_⟩
  simp only [Greedy]
  decide +kernel

end Fog.Props
