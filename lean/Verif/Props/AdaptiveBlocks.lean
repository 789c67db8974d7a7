import Verif.Props.SortedNeighborhood
import Verif.Spec.Adaptive
import Mathlib.Data.Nat.Find

/-!
# C24: which blocks the adaptive sorted neighborhood method makes, and when it raises
-/

namespace Fog.Props

open Fog.ClusteringUtils Fog.SortedNeighborhood Fog.Spec Fog.Pairwise

variable {α : Type _} {similarity : α → α → Bool} {S : List α} {window : Nat}

theorem compareAt_true {i j : Nat} : compareAt similarity S i j = .ok true ↔ SimilarAt similarity S i j := by
  unfold compareAt SimilarAt
  cases hi : S[i]? with
  | none => simp
  | some a =>
      cases hj : S[j]? with
      | none => simp
      | some b => simp

theorem compareAt_false {i j : Nat} (hi : i < S.length) (hj : j < S.length) :
    compareAt similarity S i j = .ok false ↔ ¬ SimilarAt similarity S i j := by
  rw [← compareAt_true]
  obtain ⟨b, hb⟩ := compareAt_ok (similarity := similarity) hi hj
  rw [hb]
  cases b <;> simp

theorem compareAt_error {i j : Nat} (hj : S.length ≤ j) : compareAt similarity S i j = .error .indexError := by
  unfold compareAt
  rw [List.getElem?_eq_none hj]
  cases S[i]? <;> rfl

theorem similarAt_lt {i j : Nat} (h : SimilarAt similarity S i j) : i < S.length ∧ j < S.length := by
  obtain ⟨a, b, ha, hb, _⟩ := h
  exact ⟨(List.getElem?_eq_some_iff.mp ha).1, (List.getElem?_eq_some_iff.mp hb).1⟩

theorem reach_succ (window first k : Nat) :
    reach window first (k + 2) = reach window first (k + 1) + (reach window first (k + 1) - first + 1) - 1 := by
  simp only [reach, Nat.pow_succ]
  rw [← Nat.mul_assoc]
  generalize (window - 1) * 2 ^ k = x
  omega

theorem reach_lt (hw : 2 ≤ window) (first k : Nat) : reach window first k < reach window first (k + 1) := by
  cases k with
  | zero => simp only [reach, Nat.pow_zero]; omega
  | succ k =>
      simp only [reach, Nat.pow_succ]
      rw [← Nat.mul_assoc]
      have : 0 < (window - 1) * 2 ^ k := Nat.mul_pos (by omega) (Nat.two_pow_pos k)
      omega

/-- The enlargement. -/
theorem enlarge_exact (hw : 2 ≤ window) (first : Nat) (fuel : Nat) : ∀ k, Grows similarity S window first k →
    reach window first k < S.length → S.length + 1 ≤ reach window first (k + 1) + fuel → 0 < fuel →
    (∃ m, k ≤ m ∧ Grows similarity S window first m ∧ S.length ≤ reach window first (m + 1) ∧
      enlarge similarity S first fuel (reach window first k) (reach window first (k + 1)) = some (.error .indexError)) ∨
    ∃ m, k ≤ m ∧ Grows similarity S window first m ∧ reach window first (m + 1) < S.length ∧
      ¬ SimilarAt similarity S (reach window first m) (reach window first (m + 1)) ∧
      enlarge similarity S first fuel (reach window first k) (reach window first (k + 1)) = some (.ok (reach window first (m + 1))) := by
  induction fuel with
  | zero => intro k _ _ _ h; omega
  | succ fuel ih =>
      intro k hg hk hfuel _
      unfold enlarge
      by_cases hlt : reach window first (k + 1) < S.length
      · by_cases hs : SimilarAt similarity S (reach window first k) (reach window first (k + 1))
        · rw [compareAt_true.mpr hs]
          simp only
          rw [← reach_succ]
          have hg' : Grows similarity S window first (k + 1) := by
            intro i hi
            by_cases h : i = k
            · rw [h]; exact hs
            · exact hg i (by omega)
          have := reach_lt hw first (k + 1)
          rcases ih (k + 1) hg' hlt (by omega) (by omega) with ⟨m, h1, h2⟩ | ⟨m, h1, h2⟩
          · exact Or.inl ⟨m, by omega, h2⟩
          · exact Or.inr ⟨m, by omega, h2⟩
        · rw [(compareAt_false hk hlt).mpr hs]
          exact Or.inr ⟨k, Nat.le_refl _, hg, hlt, hs, rfl⟩
      · rw [compareAt_error (by omega)]
        exact Or.inl ⟨k, Nat.le_refl _, hg, by omega, rfl⟩

/-- The retrenchment. -/
theorem retrench_exact (hw : 2 ≤ window) (first stop : Nat) (w last : Nat) (hstop : stop < S.length) (hl : last ≤ stop)
    (h : last + 1 = first + w) (hw' : window ≤ w) (hafter : ∀ q, last < q → q ≤ stop → ¬ SimilarAt similarity S (q - 1) q) :
    ∃ l, retrench similarity S window w last = .ok l ∧ ShrinksTo similarity S window first stop l := by
  induction w generalizing last with
  | zero => omega
  | succ w ih =>
      unfold retrench
      by_cases hgt : w + 1 > window
      · rw [if_pos hgt]
        by_cases hs : SimilarAt similarity S (last - 1) last
        · rw [compareAt_true.mpr hs]
          exact ⟨last, rfl, by omega, hl, Or.inr hs, hafter⟩
        · rw [(compareAt_false (by omega) (by omega)).mpr hs]
          simp only
          apply ih (last - 1) (by omega) (by omega) (by omega)
          intro q hq hq'
          by_cases e : q = last
          · rw [e]; exact hs
          · exact hafter q (by omega) hq'
      · rw [if_neg hgt]
        exact ⟨last, rfl, by omega, hl, Or.inl (by omega), hafter⟩

theorem snmLoop_exact (hw : 2 ≤ window) (fuel first : Nat) (hfuel : S.length < first + fuel) (h0 : 0 < fuel) :
    ∃ r, BlocksFrom similarity S window first r ∧
      snmLoop similarity S window fuel first = some (match r with | some blocks => .ok blocks | none => .error .indexError) := by
  induction fuel generalizing first with
  | zero => omega
  | succ fuel ih =>
      unfold snmLoop
      simp only
      have hr : reach window first 1 = first + (window - 1) := by simp [reach]
      by_cases hlt : first + (window - 1) < S.length
      · rw [if_pos hlt]
        have hen := enlarge_exact (similarity := similarity) (S := S) hw first (fuel + 1) 0 (by intro i hi; omega) (by show first < _; omega)
          (by rw [hr]; omega) (by omega)
        rw [hr] at hen
        change (∃ m, _ ∧ _ ∧ _ ∧ enlarge similarity S first (fuel + 1) first _ = _) ∨ (∃ m, _ ∧ _ ∧ _ ∧ _ ∧ enlarge similarity S first (fuel + 1) first _ = _)
          at hen
        rcases hen with ⟨m, _, h1, h2, h3⟩ | ⟨m, _, h1, h2, h3, h4⟩
        · rw [h3]
          cases m with
          | zero => rw [hr] at h2; omega
          | succ m => exact ⟨none, .beyond m h1 h2, rfl⟩
        · rw [h4]
          have hge : first + (window - 1) ≤ reach window first (m + 1) := by
            simp only [reach]
            have : (window - 1) * 1 ≤ (window - 1) * 2 ^ m := Nat.mul_le_mul_left _ (Nat.two_pow_pos m)
            omega
          obtain ⟨l, h5, h6⟩ := retrench_exact (similarity := similarity) (S := S) hw first (reach window first (m + 1))
            (reach window first (m + 1) - first + 1) (reach window first (m + 1)) h2 (Nat.le_refl _) (by omega) (by omega)
            (fun q hq hq' => by omega)
          simp only [h5]
          have := h6.lower
          have := h6.upper
          obtain ⟨r, h7, h8⟩ := ih (l + 1) (by omega) (by omega)
          rw [h8]
          refine ⟨_, .block m l r h1 h2 h3 h6 h7, ?_⟩
          cases r <;> rfl
      · rw [if_neg hlt]
        by_cases hf : first < S.length
        · rw [if_pos hf]
          exact ⟨_, .rest hf (by omega), rfl⟩
        · rw [if_neg hf]
          exact ⟨_, .done (by omega), rfl⟩

theorem reach_mono (hw : 2 ≤ window) (first : Nat) {k m : Nat} (h : k ≤ m) : reach window first k ≤ reach window first m := by
  induction m with
  | zero => exact Nat.le_of_eq (by rw [Nat.le_zero.mp h])
  | succ m ih =>
      by_cases e : k = m + 1
      · exact Nat.le_of_eq (by rw [e])
      · exact Nat.le_of_lt (Nat.lt_of_le_of_lt (ih (by omega)) (reach_lt hw first m))

/-- The blocks are determined. -/
theorem blocksFrom_unique (hw : 2 ≤ window) {first : Nat} {r r' : Option (List (Nat × Nat))}
    (h : BlocksFrom similarity S window first r) (h' : BlocksFrom similarity S window first r') : r = r' := by
  have e1 : ∀ first, reach window first 1 = first + (window - 1) := by simp [reach]
  induction h generalizing r' with
  | @done first hd =>
      cases h' with
      | done => rfl
      | rest h1 h2 => omega
      | beyond k h1 h2 =>
          have := (similarAt_lt (h1 0 (by omega))).1
          simp only [reach] at this; omega
      | block k last r h1 h2 h3 h4 h5 =>
          have := reach_mono hw first (k := 0) (m := k + 1) (by omega)
          simp only [reach] at this h2; omega
  | @rest first h1 h2 =>
      cases h' with
      | done h => omega
      | rest _ _ => rfl
      | beyond k h3 h4 =>
          have := (similarAt_lt (h3 0 (by omega))).2
          rw [e1] at this; omega
      | block k last r _ h4 =>
          have := reach_mono hw first (k := 1) (m := k + 1) (by omega)
          rw [e1] at this; omega
  | @beyond first k h1 h2 =>
      cases h' with
      | done h =>
          have := (similarAt_lt (h1 0 (by omega))).1
          simp only [reach] at this; omega
      | rest _ h =>
          have := (similarAt_lt (h1 0 (by omega))).2
          rw [e1] at this; omega
      | beyond _ _ _ => rfl
      | block m last r h3 h4 h5 _ _ =>
          exfalso
          by_cases hm : m < k + 1
          · exact h5 (h1 m hm)
          · have := reach_mono hw first (k := k + 2) (m := m + 1) (by omega)
            omega
  | @block first k last r h1 h2 h3 h4 h5 ih =>
      generalize hr : r' = r'' at h'
      cases h' with
      | done h =>
          have := reach_mono hw first (k := 0) (m := k + 1) (by omega)
          simp only [reach] at this h2; omega
      | rest _ h =>
          have := reach_mono hw first (k := 1) (m := k + 1) (by omega)
          rw [e1] at this; omega
      | beyond m h6 h7 =>
          exfalso
          by_cases hm : k < m + 1
          · exact h3 (h6 k hm)
          · have := reach_mono hw first (k := m + 2) (m := k + 1) (by omega)
            omega
      | block m last' r' h6 h7 h8 h9 h10 =>
          have hmk : m = k := by
            rcases Nat.lt_trichotomy m k with h | h | h
            · exact absurd (h1 m h) h8
            · exact h
            · exact absurd (h6 k h) h3
          subst hmk
          have hl : last = last' := by
            rcases Nat.lt_trichotomy last last' with h | h | h
            · rcases h9.here with e | e
              · have := h4.lower; omega
              · exact absurd e (h4.after last' h h9.upper)
            · exact h
            · rcases h4.here with e | e
              · have := h9.lower; omega
              · exact absurd e (h9.after last h h4.upper)
          subst hl
          rw [ih h10]

/-- **C24**, exactly: with a window of at least two, the blocks are those of `BlocksFrom`, and an `IndexError` is raised exactly when it has
none, that is when a window which grows has an end beyond the items. -/
theorem adaptive_blocks_exact (hw : 2 ≤ window) {fuel : Nat} (hfuel : S.length < fuel) :
    (∀ blocks, fullAASNM similarity S window fuel = some (.ok blocks) ↔ BlocksFrom similarity S window 0 (some blocks)) ∧
    (∀ e, fullAASNM similarity S window fuel = some (.error e) ↔ e = .indexError ∧ BlocksFrom similarity S window 0 none) := by
  obtain ⟨r, h1, h2⟩ := snmLoop_exact (similarity := similarity) (S := S) hw fuel 0 (by omega) (by omega)
  unfold fullAASNM
  rw [h2]
  constructor
  · intro blocks
    constructor
    · intro h
      cases r with
      | none => cases h
      | some b => injection h with h; injection h with h; rw [← h]; exact h1
    · intro h
      rw [blocksFrom_unique hw h1 h]
  · intro e
    constructor
    · intro h
      cases r with
      | none => injection h with h; injection h with h; exact ⟨h.symm, h1⟩
      | some b => injection h with h; cases h
    · rintro ⟨rfl, h⟩
      rw [blocksFrom_unique hw h1 h]

/-- When all items are similar, as duplicates are, and there are enough for a window, it always raises. -/
theorem adaptive_raises_on_duplicates (hw : 2 ≤ window) {fuel : Nat} (hfuel : S.length < fuel) (hS : window ≤ S.length)
    (hsim : ∀ a ∈ S, ∀ b ∈ S, similarity a b = true) : fullAASNM similarity S window fuel = some (.error .indexError) := by
  rw [(adaptive_blocks_exact hw hfuel).2]
  refine ⟨rfl, ?_⟩
  have key : ∀ k, reach window 0 k < S.length → Grows similarity S window 0 k := by
    intro k hk i hi
    have h1 := reach_mono hw 0 (k := i) (m := k) (by omega)
    have h2 := reach_mono hw 0 (k := i + 1) (m := k) (by omega)
    have g1 := List.getElem?_eq_getElem (l := S) (i := reach window 0 i) (by omega)
    have g2 := List.getElem?_eq_getElem (l := S) (i := reach window 0 (i + 1)) (by omega)
    exact ⟨_, _, g1, g2, hsim _ (List.getElem_mem _) _ (List.getElem_mem _)⟩
  have far : ∀ k, k ≤ reach window 0 k := by
    intro k
    induction k with
    | zero => exact Nat.zero_le _
    | succ k ih => have := reach_lt hw 0 k; omega
  have hex : ∃ k, S.length ≤ reach window 0 k := ⟨S.length, far _⟩
  obtain ⟨k, hk, hmin⟩ : ∃ k, S.length ≤ reach window 0 k ∧ ∀ m < k, ¬ S.length ≤ reach window 0 m := by
    classical
    exact ⟨Nat.find hex, Nat.find_spec hex, fun m hm => Nat.find_min hex hm⟩
  match k, hk, hmin with
  | 0, hk, _ => simp only [reach] at hk; omega
  | 1, hk, _ => simp [reach] at hk; omega
  | k + 2, hk, hmin => exact .beyond k (key (k + 1) (by have := hmin (k + 1) (by omega); omega)) hk

theorem adaptivePairs_error {fuel : Nat} {p : (α → α → Bool) × List α} : ∀ {ps : List ((α → α → Bool) × List α)},
    (∀ q ∈ ps, ∃ x, fullAASNM similarity (pySorted q.2 q.1) window fuel = some x ∧ ∀ e, x = .error e → e = .indexError) → p ∈ ps →
    fullAASNM similarity (pySorted p.2 p.1) window fuel = some (.error .indexError) →
    adaptivePairs similarity window fuel ps = some (.error .indexError) := by
  intro ps
  induction ps with
  | nil => intro _ h; simp at h
  | cons q ps ih =>
      intro hall hp hx
      obtain ⟨x, hx1, hx2⟩ := hall q (by simp)
      unfold adaptivePairs
      simp only [hx1]
      cases x with
      | error e => rw [hx2 e rfl]
      | ok blocks =>
          simp only
          rcases List.mem_cons.mp hp with rfl | hp
          · rw [hx1] at hx; injection hx with hx; cases hx
          · rw [ih (fun q hq => hall q (by simp [hq])) hp hx]

theorem adaptivePairs_ok {fuel : Nat} (f : (α → α → Bool) × List α → List (Nat × Nat)) : ∀ {ps : List ((α → α → Bool) × List α)},
    (∀ q ∈ ps, fullAASNM similarity (pySorted q.2 q.1) window fuel = some (.ok (f q))) →
    adaptivePairs similarity window fuel ps =
      some (.ok (ps.flatMap fun q => (f q).flatMap fun b => blockPairs similarity (pySorted q.2 q.1) b.1 b.2)) := by
  intro ps
  induction ps with
  | nil => intro _; rfl
  | cons q ps ih =>
      intro hall
      unfold adaptivePairs
      simp only [hall q (by simp), ih (fun q hq => hall q (by simp [hq])), List.flatMap_cons]

/-- **C24**, exactly, when the data is not an iterator: with a window of at least two, whatever the keys, an `IndexError` is raised exactly when
it is for one of them; otherwise the clusters are the components of the similar items of a same block, for some key. -/
theorem adaptive_clusters_exact [DecidableEq α] (ord : α → List α → List α) (hord : ∀ a l, (ord a l).Perm l)
    (data : List α) (keys : Keys α) (similarity : α → α → Bool) (window min : Nat) (max : Option Nat) (fuel : Nat)
    (hw : 2 ≤ window) (hfuel : data.length < fuel) :
    ((∃ le ∈ keys.multipass, BlocksFrom similarity (pySorted data le) window 0 none) →
      adaptiveSortedNeighborhood ord false data keys similarity window min max .connectedComponents fuel = some (.error .indexError)) ∧
    ∀ blocks : (α → α → Bool) → List (Nat × Nat),
      (∀ le ∈ keys.multipass, BlocksFrom similarity (pySorted data le) window 0 (some (blocks le))) →
      ∃ cs, adaptiveSortedNeighborhood ord false data keys similarity window min max .connectedComponents fuel = some (.ok cs) ∧
        IsComponents
          (fun a b => ∃ le ∈ keys.multipass, InBlock similarity (blocks le) (pySorted data le) a b ∨ InBlock similarity (blocks le) (pySorted data le) b a)
          (fun a => ∃ b, ∃ le ∈ keys.multipass, InBlock similarity (blocks le) (pySorted data le) a b ∨
            InBlock similarity (blocks le) (pySorted data le) b a) (SizeBetween min max) cs := by
  have hlen : ∀ le, (pySorted data le).length < fuel := fun le => by
    have : (pySorted data le).length = data.length := List.length_mergeSort _
    omega
  have hp : ∀ (les : List (α → α → Bool)), passes false data les = les.map fun k => (k, data) := by
    intro les
    cases les <;> simp [passes]
  constructor
  · rintro ⟨le, hle, h⟩
    unfold adaptiveSortedNeighborhood
    rw [adaptivePairs_error (p := (le, data)) ?_ ?_ ?_]
    · intro q hq
      rw [hp] at hq
      obtain ⟨k, _, rfl⟩ := List.mem_map.mp hq
      rcases adaptive_blocks_partial similarity (pySorted data k) window fuel hw (hlen k) with h | ⟨b, h, _⟩
      · exact ⟨_, h, by intro e he; injection he with he; exact he.symm⟩
      · exact ⟨_, h, by intro e he; cases he⟩
    · rw [hp]; exact List.mem_map.mpr ⟨le, hle, rfl⟩
    · exact ((adaptive_blocks_exact hw (hlen le)).2 _).mpr ⟨rfl, h⟩
  · intro blocks hb
    have hok := adaptivePairs_ok (similarity := similarity) (window := window) (fuel := fuel) (fun q => blocks q.1)
      (ps := passes false data keys.multipass) (by
        intro q hq
        rw [hp] at hq
        obtain ⟨k, hk, rfl⟩ := List.mem_map.mp hq
        exact ((adaptive_blocks_exact hw (hlen k)).1 _).mpr (hb k hk))
    obtain ⟨cs, hcs, hcomp⟩ := clusters_of_relation hord (fuzzy := keys.several)
      (pairs := (passes false data keys.multipass).flatMap fun q => (blocks q.1).flatMap fun b => blockPairs similarity (pySorted q.2 q.1) b.1 b.2)
      (R := fun a b => ∃ le ∈ keys.multipass, InBlock similarity (blocks le) (pySorted data le) a b ∨
        InBlock similarity (blocks le) (pySorted data le) b a)
      (by
        intro a b
        unfold Linked InBlock
        rw [hp]
        simp only [List.mem_flatMap, mem_blockPairs, List.mem_map]
        constructor
        · rintro (⟨q, ⟨le, hle, rfl⟩, h⟩ | ⟨q, ⟨le, hle, rfl⟩, h⟩)
          · exact ⟨le, hle, Or.inl h⟩
          · exact ⟨le, hle, Or.inr h⟩
        · rintro ⟨le, hle, h | h⟩
          · exact Or.inl ⟨_, ⟨le, hle, rfl⟩, h⟩
          · exact Or.inr ⟨_, ⟨le, hle, rfl⟩, h⟩) min max
    refine ⟨cs, ?_, hcomp⟩
    unfold adaptiveSortedNeighborhood
    rw [hok]
    simp only [hcs]

/-- When the data is an iterator, only the first key counts, for both methods. -/
theorem sorted_neighborhood_iterator [DecidableEq α] (ord : α → List α → List α) (data : List α) (le : α → α → Bool)
    (les : List (α → α → Bool)) (similarity : α → α → Bool) (window min : Nat) (max : Option Nat) (mode : Mode) :
    sortedNeighborhood ord true data (.keys (le :: les)) similarity window min max mode =
      sortedNeighborhood ord true data (.keys [le]) similarity window min max mode ∧
    ∀ fuel, 2 ≤ window → data.length < fuel →
      adaptiveSortedNeighborhood ord true data (.keys (le :: les)) similarity window min max mode fuel =
        adaptiveSortedNeighborhood ord true data (.keys [le]) similarity window min max mode fuel := by
  constructor
  · unfold sortedNeighborhood
    congr 1
    have : ∀ les : List (α → α → Bool), (les.flatMap fun k => windowPairs similarity window (pySorted [] k)) = [] := by
      intro les
      rw [List.flatMap_eq_nil_iff]
      intro k _
      simp [pySorted, windowPairs]
    simp only [snmPairs, Keys.multipass, passes, if_true, List.flatMap_cons, List.flatMap_map, List.map_nil, List.flatMap_nil, this]
  · intro fuel hw hfuel
    obtain ⟨fuel, rfl⟩ : ∃ n, fuel = n + 1 := ⟨fuel - 1, by omega⟩
    have : ∀ les : List (α → α → Bool), adaptivePairs similarity window (fuel + 1) (les.map fun k => (k, [])) = some (.ok []) := by
      intro les
      rw [adaptivePairs_ok (fun _ => [])]
      · simp
      · intro q hq
        obtain ⟨k, _, rfl⟩ := List.mem_map.mp hq
        simp only [fullAASNM, snmLoop, pySorted, List.mergeSort_nil, List.length_nil, Nat.not_lt_zero, if_false]
    have h2 := this []
    simp only [List.map_nil] at h2
    unfold adaptiveSortedNeighborhood
    simp only [Keys.multipass, passes, if_true, List.map_nil]
    rw [adaptivePairs, adaptivePairs, this, h2]
    rfl

-- Three equal items at the end are beyond a window of two; followed by two others, they are a block.
example : fullAASNM (fun a b : Nat => decide (a = b)) [3, 1, 1, 1] 2 5 = some (.error .indexError) := by rfl
example : fullAASNM (fun a b : Nat => decide (a = b)) [1, 1, 1, 2, 3, 4] 2 7 = some (.ok [(0, 2), (3, 4), (5, 5)]) := by rfl

example : BlocksFrom (fun a b : Nat => decide (a = b)) [1, 1, 1, 2, 3, 4] 2 0 (some [(0, 2), (3, 4), (5, 5)]) :=
  ((adaptive_blocks_exact (by decide) (fuel := 7) (by decide)).1 _).mp rfl

example : fullAASNM (fun a b : Nat => decide (a = b)) (List.replicate 12 7) 10 13 = some (.error .indexError) :=
  adaptive_raises_on_duplicates (by decide) (by decide) (by decide) (by decide)

-- Two keys, the second of which has the blocks above.
example : ∃ cs, adaptiveSortedNeighborhood (fun _ l => l) false [1, 1, 1, 2, 3, 4] (.keys [fun _ _ => true, fun _ _ => true])
    (fun a b : Nat => decide (a = b)) 2 2 none .connectedComponents 7 = some (.ok cs) := by
  have hs : pySorted [1, 1, 1, 2, 3, 4] (fun _ _ => true) = [1, 1, 1, 2, 3, 4] := List.mergeSort_of_pairwise (by simp)
  obtain ⟨cs, h, _⟩ := (adaptive_clusters_exact (fun _ l => l) (fun _ _ => .refl _) [1, 1, 1, 2, 3, 4] (.keys [fun _ _ => true, fun _ _ => true])
    (fun a b : Nat => decide (a = b)) 2 2 none 7 (by decide) (by decide)).2 (fun _ => [(0, 2), (3, 4), (5, 5)]) (by
      intro le hle
      have : le = fun _ _ => true := by simpa [Keys.multipass] using hle
      rw [this, hs]
      exact ((adaptive_blocks_exact (by decide) (fuel := 7) (by decide)).1 _).mp rfl)
  exact ⟨cs, h⟩

end Fog.Props
