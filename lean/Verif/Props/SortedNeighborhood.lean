import Verif.Model.SortedNeighborhood
import Verif.Lemmas.Buckets
import Verif.Lemmas.Pairwise

/-!
# Properties of the sorted neighborhood methods (C23, C24)
-/

namespace Fog.Props

open Fog.ClusteringUtils Fog.SortedNeighborhood Fog.Spec Fog.Pairwise

variable {α : Type _}

/-! ### C23 -/

/-- Similar items whose positions in `S` differ by less than `window`, the first one given first to the similarity. -/
def InWindow (similarity : α → α → Bool) (window : Nat) (S : List α) (a b : α) : Prop :=
  ∃ i j, i < j ∧ j < i + window ∧ S[i]? = some a ∧ S[j]? = some b ∧ similarity a b = true

theorem mem_windowPairs (similarity : α → α → Bool) (window : Nat) (S : List α) (a b : α) :
    (a, b) ∈ windowPairs similarity window S ↔ InWindow similarity window S a b := by
  unfold windowPairs InWindow
  simp only [List.mem_flatMap, List.mem_filterMap, List.mem_range, mem_pyRange]
  constructor
  · rintro ⟨i, hi, j, ⟨hij, hj⟩, h⟩
    split at h
    · next A B hA hB =>
        split at h
        · next hs => cases h; exact ⟨i, j, by omega, by omega, hA, hB, hs⟩
        · cases h
    · cases h
  · rintro ⟨i, j, h1, h2, hA, hB, hs⟩
    obtain ⟨hi, _⟩ := List.getElem?_eq_some_iff.mp hA
    obtain ⟨hj, _⟩ := List.getElem?_eq_some_iff.mp hB
    refine ⟨i, hi, j, by omega, ?_⟩
    rw [hA, hB]; simp [hs]

/-- The sorted data holds the items of the data, and is sorted when the comparison is a total preorder. -/
theorem sorted_is_sorted (data : List α) (le : α → α → Bool) (htrans : ∀ a b c, le a b = true → le b c = true → le a c = true)
    (htotal : ∀ a b, (le a b || le b a) = true) :
    (pySorted data le).Perm data ∧ (pySorted data le).Pairwise (fun a b => le a b = true) :=
  ⟨List.mergeSort_perm _ _, List.pairwise_mergeSort htrans htotal data⟩

variable [DecidableEq α]

/-- C23, one key: also when the data is an iterator. -/
theorem sorted_neighborhood_one_key (ord : α → List α → List α) (hord : ∀ a l, (ord a l).Perm l) (oneShot : Bool)
    (data : List α) (le : α → α → Bool) (similarity : α → α → Bool) (window min : Nat) (max : Option Nat) :
    ∃ cs, sortedNeighborhood ord oneShot data (.key le) similarity window min max .connectedComponents = .ok cs ∧
      IsComponents
        (fun a b => InWindow similarity window (pySorted data le) a b ∨ InWindow similarity window (pySorted data le) b a)
        (fun a => ∃ b, InWindow similarity window (pySorted data le) a b ∨
          InWindow similarity window (pySorted data le) b a) (SizeBetween min max) cs := by
  unfold sortedNeighborhood
  refine clusters_of_relation hord _ _ ?_ min max _
  intro a b
  unfold Linked
  simp [snmPairs, Keys.multipass, passes, mem_windowPairs]

/-- C23 is false with several keys when the data is an iterator: only the first key counts. -/
theorem sorted_neighborhood_one_shot :
    snmPairs true [1, 3, 2] (.keys [fun a b => decide (a ≤ b), fun a b => decide (a % 2 ≤ b % 2)])
      (fun a b => decide (a + b = 4)) 2 = [] ∧
    snmPairs false [1, 3, 2] (.keys [fun a b => decide (a ≤ b), fun a b => decide (a % 2 ≤ b % 2)])
      (fun a b => decide (a + b = 4)) 2 = [(1, 3)] := by
  constructor <;>
  simp [snmPairs, passes, pySorted, Keys.multipass, windowPairs, List.mergeSort, List.MergeSort.Internal.splitInTwo, List.range_succ, pyRange, List.merge]

theorem sorted_neighborhood_linked (data : List α) (les : List (α → α → Bool)) (similarity : α → α → Bool) (window : Nat) (a b : α) :
    Linked (snmPairs false data (.keys les) similarity window) a b ↔ ∃ le ∈ les, InWindow similarity window (pySorted data le) a b ∨
      InWindow similarity window (pySorted data le) b a := by
  have hp : ∀ (les : List (α → α → Bool)), passes false data les = les.map fun k => (k, data) := by
    intro les
    cases les <;> simp [passes]
  unfold Linked
  simp only [snmPairs, Keys.multipass, hp, List.mem_flatMap, List.mem_map]
  constructor
  · rintro (⟨p, ⟨le, hle, rfl⟩, h⟩ | ⟨p, ⟨le, hle, rfl⟩, h⟩)
    · exact ⟨le, hle, Or.inl ((mem_windowPairs ..).mp h)⟩
    · exact ⟨le, hle, Or.inr ((mem_windowPairs ..).mp h)⟩
  · rintro ⟨le, hle, h | h⟩
    · exact Or.inl ⟨_, ⟨le, hle, rfl⟩, (mem_windowPairs ..).mpr h⟩
    · exact Or.inr ⟨_, ⟨le, hle, rfl⟩, (mem_windowPairs ..).mpr h⟩

/-- C23, several keys, when the data is not an iterator. -/
theorem sorted_neighborhood_several_keys_partial (ord : α → List α → List α) (hord : ∀ a l, (ord a l).Perm l)
    (data : List α) (les : List (α → α → Bool)) (similarity : α → α → Bool) (window min : Nat) (max : Option Nat) :
    ∃ cs, sortedNeighborhood ord false data (.keys les) similarity window min max .connectedComponents = .ok cs ∧
      IsComponents
        (fun a b => ∃ le ∈ les, InWindow similarity window (pySorted data le) a b ∨
          InWindow similarity window (pySorted data le) b a)
        (fun a => ∃ b, ∃ le ∈ les, InWindow similarity window (pySorted data le) a b ∨
          InWindow similarity window (pySorted data le) b a) (SizeBetween min max) cs := by
  unfold sortedNeighborhood
  exact clusters_of_relation hord _ _ (sorted_neighborhood_linked data les similarity window) min max _

/-- A window of two sees neighbours but not items two places apart. -/
example : InWindow (fun a b : Nat => decide (b ≤ a + 5)) 2 [1, 3, 4] 1 3 ∧
    ¬ InWindow (fun a b : Nat => decide (b ≤ a + 5)) 2 [1, 3, 4] 1 4 := by
  constructor
  · exact ⟨0, 1, by omega, by omega, rfl, rfl, by decide⟩
  · rintro ⟨i, j, h1, h2, h3, h4, _⟩
    have hi : i = 0 := by
      match i, h3 with
      | 0, _ => rfl
      | 1, h3 => simp at h3
      | 2, h3 => simp at h3
      | i + 3, h3 => simp at h3
    subst hi
    have : j = 1 := by omega
    subst this
    simp at h4

/-! ### C24 -/

omit [DecidableEq α] in
theorem compareAt_ok {similarity : α → α → Bool} {S : List α} {i j : Nat} (hi : i < S.length) (hj : j < S.length) :
    ∃ b, compareAt similarity S i j = .ok b := by
  unfold compareAt
  rw [List.getElem?_eq_getElem hi, List.getElem?_eq_getElem hj]
  exact ⟨_, rfl⟩

omit [DecidableEq α] in
theorem compareAt_err {similarity : α → α → Bool} {S : List α} {i j : Nat} {e : PyErr}
    (h : compareAt similarity S i j = .error e) : e = .indexError := by
  unfold compareAt at h
  split at h <;> cases h; rfl

omit [DecidableEq α] in
theorem compareAt_lt {similarity : α → α → Bool} {S : List α} {i j : Nat} {b : Bool}
    (h : compareAt similarity S i j = .ok b) : j < S.length := by
  unfold compareAt at h
  split at h
  · next hB => exact (List.getElem?_eq_some_iff.mp hB).1
  · cases h

omit [DecidableEq α] in
theorem enlarge_spec (similarity : α → α → Bool) (S : List α) (f fuel first last : Nat) (hf : f < last)
    (hfuel : S.length + 1 ≤ last + fuel) (h0 : 0 < fuel) :
    enlarge similarity S f fuel first last = some (.error .indexError) ∨
    ∃ l, enlarge similarity S f fuel first last = some (.ok l) ∧ last ≤ l ∧ l < S.length := by
  induction fuel generalizing first last with
  | zero => omega
  | succ fuel ih =>
      unfold enlarge
      split
      · next e he => left; rw [compareAt_err he]
      · next he => exact Or.inr ⟨last, rfl, Nat.le_refl _, compareAt_lt he⟩
      · next he =>
          have hlt := compareAt_lt he
          rcases ih last (last + (last - f + 1) - 1) (by omega) (by omega) (by omega) with h | ⟨l, h1, h2, h3⟩
          · exact Or.inl h
          · exact Or.inr ⟨l, h1, by omega, h3⟩

omit [DecidableEq α] in
theorem retrench_spec (similarity : α → α → Bool) (S : List α) (window : Nat) (hw : 1 ≤ window) (w last f : Nat)
    (hlast : last < S.length) (h : last + 1 = f + w) (hw' : window ≤ w) :
    ∃ l, retrench similarity S window w last = .ok l ∧ l ≤ last ∧ f + window ≤ l + 1 := by
  induction w generalizing last with
  | zero => omega
  | succ w ih =>
      unfold retrench
      split
      · next hgt =>
          obtain ⟨b, hb⟩ := compareAt_ok (similarity := similarity) (S := S) (i := last - 1) (j := last) (by omega) hlast
          rw [hb]
          cases b with
          | true => exact ⟨last, rfl, Nat.le_refl _, by omega⟩
          | false =>
              obtain ⟨l, h1, h2, h3⟩ := ih (last - 1) (by omega) (by omega) (by omega)
              exact ⟨l, h1, by omega, h3⟩
      · exact ⟨last, rfl, Nat.le_refl _, by omega⟩

omit [DecidableEq α] in
theorem snmLoop_spec (similarity : α → α → Bool) (S : List α) (window : Nat) (hw : 2 ≤ window) (fuel first : Nat)
    (hf : first ≤ S.length) (hfuel : S.length < first + fuel) :
    snmLoop similarity S window fuel first = some (.error .indexError) ∨
    ∃ blocks, snmLoop similarity S window fuel first = some (.ok blocks) ∧ (∀ b ∈ blocks, b.1 ≤ b.2) ∧
      (blocks.flatMap fun b => List.range' b.1 (b.2 + 1 - b.1)) = List.range' first (S.length - first) := by
  induction fuel generalizing first with
  | zero => omega
  | succ fuel ih =>
      unfold snmLoop
      simp only
      split
      · next hlt =>
          rcases enlarge_spec similarity S first (fuel + 1) first (first + (window - 1)) (by omega) (by omega) (by omega)
            with h | ⟨l, h1, h2, h3⟩
          · left; rw [h]
          · rw [h1]
            obtain ⟨l', h4, h5, h6⟩ := retrench_spec similarity S window (by omega) (l - first + 1) l first h3 (by omega)
              (by omega)
            simp only [h4]
            rcases ih (l' + 1) (by omega) (by omega) with h | ⟨blocks, h7, h8, h9⟩
            · left; rw [h]
            · right
              rw [h7]
              refine ⟨_, rfl, ?_, ?_⟩
              · intro b hb
                rcases List.mem_cons.mp hb with rfl | hb
                · show first ≤ l'; omega
                · exact h8 b hb
              · rw [List.flatMap_cons, h9]
                simp only
                have := List.range'_append_1 (s := first) (m := l' + 1 - first) (n := S.length - (l' + 1))
                rw [show first + (l' + 1 - first) = l' + 1 by omega] at this
                rw [this]
                congr 1; omega
      · next hlt =>
          right
          split
          · next hlt' =>
              refine ⟨_, rfl, by simp; omega, ?_⟩
              simp
              congr 1; omega
          · refine ⟨_, rfl, by simp, ?_⟩
            simp; omega

/-- C24 is false: it raises on two similar items with a window of two. -/
theorem adaptive_sorted_neighborhood_raises :
    fullAASNM (fun _ _ : Nat => true) [1, 1] 2 10 = some (.error .indexError) := by rfl

omit [DecidableEq α] in
/-- C24 is false: with a window of one, when the first item is similar to itself, it never stops. -/
theorem adaptive_sorted_neighborhood_diverges (similarity : α → α → Bool) (a : α) (S : List α)
    (h : similarity a a = true) (fuel : Nat) : fullAASNM similarity (a :: S) 1 fuel = none := by
  have hen : ∀ fuel, enlarge similarity (a :: S) 0 fuel 0 0 = none := by
    intro fuel
    induction fuel with
    | zero => rfl
    | succ fuel ih =>
        unfold enlarge
        simp [compareAt, h, ih]
  cases fuel with
  | zero => rfl
  | succ fuel =>
      unfold fullAASNM snmLoop
      simp [hen]

omit [DecidableEq α] in
/-- C24, what holds: with a window of at least two it stops, after at most as many steps as there are items, and either
raises an `IndexError` or gives blocks which, put end to end, are all positions in order. -/
theorem adaptive_blocks_partial (similarity : α → α → Bool) (S : List α) (window fuel : Nat) (hw : 2 ≤ window)
    (hfuel : S.length < fuel) :
    fullAASNM similarity S window fuel = some (.error .indexError) ∨
    ∃ blocks, fullAASNM similarity S window fuel = some (.ok blocks) ∧ (∀ b ∈ blocks, b.1 ≤ b.2) ∧
      (blocks.flatMap fun b => List.range' b.1 (b.2 + 1 - b.1)) = List.range S.length := by
  have := snmLoop_spec similarity S window hw fuel 0 (by omega) (by omega)
  rw [List.range_eq_range']
  exact this

/-- Similar items of a same block. -/
def InBlock (similarity : α → α → Bool) (blocks : List (Nat × Nat)) (S : List α) (a b : α) : Prop :=
  ∃ block ∈ blocks, ∃ i j, block.1 ≤ i ∧ i < j ∧ j ≤ block.2 ∧ S[i]? = some a ∧ S[j]? = some b ∧ similarity a b = true

omit [DecidableEq α] in
theorem mem_blockPairs (similarity : α → α → Bool) (S : List α) (start stop : Nat) (a b : α) :
    (a, b) ∈ blockPairs similarity S start stop ↔
      ∃ i j, start ≤ i ∧ i < j ∧ j ≤ stop ∧ S[i]? = some a ∧ S[j]? = some b ∧ similarity a b = true := by
  unfold blockPairs
  simp only [List.mem_flatMap, List.mem_filterMap, mem_pyRange]
  constructor
  · rintro ⟨i, hi, j, ⟨hij, hj⟩, h⟩
    split at h
    · next A B hA hB =>
        split at h
        · next hs => cases h; exact ⟨i, j, by omega, by omega, by omega, hA, hB, hs⟩
        · cases h
    · cases h
  · rintro ⟨i, j, h0, h1, h2, hA, hB, hs⟩
    refine ⟨i, by omega, j, by omega, ?_⟩
    rw [hA, hB]; simp [hs]

/-- C24, what holds of the clusters: with a window of at least two and one key, `adaptive_sorted_neighborhood` either raises
an `IndexError` or gives the components of the similar items of a same block, for blocks which put end to end are all
positions of the sorted data. -/
theorem adaptive_clusters_partial (ord : α → List α → List α) (hord : ∀ a l, (ord a l).Perm l) (oneShot : Bool)
    (data : List α) (le : α → α → Bool) (similarity : α → α → Bool) (window min : Nat) (max : Option Nat) (fuel : Nat)
    (hw : 2 ≤ window) (hfuel : data.length < fuel) :
    adaptiveSortedNeighborhood ord oneShot data (.key le) similarity window min max .connectedComponents fuel =
      some (.error .indexError) ∨
    ∃ cs, adaptiveSortedNeighborhood ord oneShot data (.key le) similarity window min max .connectedComponents fuel =
      some (.ok cs) ∧
      ∃ blocks : List (Nat × Nat), (∀ b ∈ blocks, b.1 ≤ b.2) ∧
        (blocks.flatMap fun b => List.range' b.1 (b.2 + 1 - b.1)) = List.range data.length ∧
        IsComponents
          (fun a b => InBlock similarity blocks (pySorted data le) a b ∨ InBlock similarity blocks (pySorted data le) b a)
          (fun a => ∃ b, InBlock similarity blocks (pySorted data le) a b ∨
            InBlock similarity blocks (pySorted data le) b a) (SizeBetween min max) cs := by
  have hlen : (pySorted data le).length = data.length := List.length_mergeSort _
  rcases adaptive_blocks_partial similarity (pySorted data le) window fuel hw (by omega) with h | ⟨blocks, h1, h2, h3⟩
  · left
    simp only [adaptiveSortedNeighborhood, Keys.multipass, passes, adaptivePairs, h]
  · right
    obtain ⟨cs, hcs, hcomp⟩ := clusters_of_relation hord (fuzzy := (Keys.key le).several)
      (pairs := blocks.flatMap fun b => blockPairs similarity (pySorted data le) b.1 b.2)
      (R := fun a b => InBlock similarity blocks (pySorted data le) a b ∨ InBlock similarity blocks (pySorted data le) b a)
      (by
        intro a b
        unfold Linked InBlock
        simp only [List.mem_flatMap, mem_blockPairs]) min max
    refine ⟨cs, ?_, blocks, h2, by rw [h3, hlen], hcomp⟩
    simp only [adaptiveSortedNeighborhood, Keys.multipass, passes, adaptivePairs, h1, List.map_nil, List.append_nil]
    rw [hcs]

/-- Blocks after an enlargement and a retrenchment. -/
example : fullAASNM (fun a b : Nat => decide (a = b)) [1, 1, 1, 2, 3, 4, 5] 2 8 =
    some (.ok [(0, 2), (3, 4), (5, 6)]) := by rfl

end Fog.Props
