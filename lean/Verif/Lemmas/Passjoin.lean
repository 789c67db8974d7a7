import Verif.Model.Passjoin
import Verif.Spec.Lists
import Verif.Lemmas.AlignPath
import Verif.Lemmas.Dict
import Verif.Lemmas.Buckets

/-!
# Lemmas about passjoin
-/

namespace Fog.Spec

open Fog.KeyCollision

variable {α : Type _}

theorem TwoItems.symm {l : List α} {a b : α} (h : TwoItems l a b) : TwoItems l b a := Or.symm h

theorem twoItems_cons {x : α} {l : List α} {a b : α} :
    TwoItems (x :: l) a b ↔ (a = x ∧ b ∈ l) ∨ (b = x ∧ a ∈ l) ∨ TwoItems l a b := by
  unfold TwoItems
  rw [pair_sublist_cons, pair_sublist_cons]
  grind

theorem TwoItems.of_perm {l l' : List α} (h : l.Perm l') {a b : α} (ht : TwoItems l a b) : TwoItems l' a b := by
  induction h with
  | nil => exact ht
  | cons x h ih =>
      rw [twoItems_cons] at ht ⊢
      rw [← h.mem_iff, ← h.mem_iff]
      rcases ht with h | h | h
      · exact Or.inl h
      · exact Or.inr (Or.inl h)
      · exact Or.inr (Or.inr (ih h))
  | swap x y l =>
      simp only [twoItems_cons, List.mem_cons] at ht ⊢
      grind
  | trans _ _ ih1 ih2 => exact ih2 (ih1 ht)

end Fog.Spec

namespace Fog.Passjoin

open Fog.Spec Fog.KeyCollision

variable {α : Type _} [DecidableEq α]

/-! ### The partition -/

/-- Start of the segment `i`. -/
def segStart (k l i : Nat) : Nat := i * (l / (k + 1)) + (i - (k + 1 - l % (k + 1)))

theorem large_eq (k l : Nat) : l - l / (k + 1) * (k + 1) = l % (k + 1) := by
  have h := Nat.div_add_mod l (k + 1)
  have : l / (k + 1) * (k + 1) = (k + 1) * (l / (k + 1)) := Nat.mul_comm _ _
  omega

theorem partition_eq (k l : Nat) :
    partition k l = (List.range (k + 1)).map fun i => (i, segStart k l i, segStart k l (i + 1) - segStart k l i) := by
  have hlt : l % (k + 1) < k + 1 := Nat.mod_lt _ (by omega)
  unfold partition
  simp only [large_eq]
  generalize ha : l / (k + 1) = a
  generalize hL : l % (k + 1) = L at *
  conv => rhs; rw [show k + 1 = (k + 1 - L) + L by omega, List.range_add, List.map_append, List.map_map]
  congr 1
  · apply List.map_congr_left
    intro i hi
    rw [List.mem_range] at hi
    simp only [segStart, ha, hL]
    rw [show i - (k + 1 - L) = 0 by omega, show i + 1 - (k + 1 - L) = 0 by omega, Nat.add_mul]
    simp
  · apply List.map_congr_left
    intro j hj
    rw [List.mem_range] at hj
    simp only [segStart, ha, hL, Function.comp]
    rw [show k + 1 - L + j - (k + 1 - L) = j by omega, show k + 1 - L + j + 1 - (k + 1 - L) = j + 1 by omega]
    simp only [Nat.add_mul, Nat.mul_add]
    have h1 : (k + 1 - L - 1) * a + a = (k + 1 - L) * a := by
      conv => rhs; rw [show k + 1 - L = (k + 1 - L - 1) + 1 by omega, Nat.add_mul, Nat.one_mul]
    refine Prod.ext (by omega) (Prod.ext ?_ ?_)
    · show (k + 1 - L - 1) * a + a + (j * a + j * 1) = (k + 1 - L) * a + j * a + j
      omega
    · show a + 1 = (k + 1 - L) * a + j * a + 1 * a + (j + 1) - ((k + 1 - L) * a + j * a + j)
      omega

theorem segStart_zero (k l : Nat) : segStart k l 0 = 0 := by simp [segStart]

theorem segStart_succ (k l i : Nat) : segStart k l (i + 1) =
    segStart k l i + l / (k + 1) + if k + 1 - l % (k + 1) ≤ i then 1 else 0 := by
  unfold segStart
  rw [Nat.add_mul, Nat.one_mul]
  split <;> omega

theorem segStart_mono {k l i j : Nat} (h : i ≤ j) : segStart k l i ≤ segStart k l j := by
  induction j with
  | zero => rw [Nat.le_zero.mp h]; exact Nat.le_refl _
  | succ j ih =>
      rcases Nat.lt_or_ge j i with h' | h'
      · rw [show i = j + 1 by omega]; exact Nat.le_refl _
      · have := ih h'
        rw [segStart_succ, Nat.add_assoc]; exact Nat.le_trans this (Nat.le_add_right _ _)

theorem segStart_last (k l : Nat) : segStart k l (k + 1) = l := by
  unfold segStart
  have h := Nat.div_add_mod l (k + 1)
  have hlt : l % (k + 1) < k + 1 := Nat.mod_lt _ (by omega)
  omega

theorem segments_eq (k : Nat) (s : List α) :
    segments k s = (List.range (k + 1)).map fun i =>
      (i, slice s (segStart k s.length i) (segStart k s.length (i + 1))) := by
  unfold segments
  rw [partition_eq, List.map_map]
  apply List.map_congr_left
  intro i _
  have := segStart_mono (k := k) (l := s.length) (show i ≤ i + 1 by omega)
  simp only [Function.comp]
  rw [show segStart k s.length i + (segStart k s.length (i + 1) - segStart k s.length i) =
    segStart k s.length (i + 1) by omega]

omit [DecidableEq α] in
theorem flatten_slices (s : List α) (P : Nat → Nat) (h0 : P 0 = 0) (hm : ∀ i, P i ≤ P (i + 1)) (n : Nat) :
    ((List.range n).map fun i => slice s (P i) (P (i + 1))).flatten = s.take (P n) := by
  induction n with
  | zero => simp [h0]
  | succ n ih =>
      rw [List.range_succ, List.map_append, List.flatten_append, ih]
      have : s.take (P n) = (s.take (P (n + 1))).take (P n) := by
        rw [List.take_take, Nat.min_eq_left (hm n)]
      rw [this]
      simp [slice]

/-! ### Substrings -/

theorem mem_skipRepeats {current : Option (List α)} {l : List (List α)} {x : List α} :
    (x ∈ skipRepeats current l ∨ some x = current) ↔ (x ∈ l ∨ some x = current) := by
  induction l generalizing current with
  | nil => simp [skipRepeats]
  | cons y l ih =>
      unfold skipRepeats
      split
      · next h =>
          rw [ih, List.mem_cons]
          constructor
          · rintro (h | h)
            · exact Or.inl (Or.inr h)
            · exact Or.inr h
          · rintro ((rfl | h') | h')
            · exact Or.inr h
            · exact Or.inl h'
            · exact Or.inr h'
      · have := ih (current := some y)
        simp only [Option.some.injEq] at this
        simp only [List.mem_cons]
        constructor
        · rintro ((h | h) | h)
          · exact Or.inl (Or.inl h)
          · rcases this.mp (Or.inl h) with h | h
            · exact Or.inl (Or.inr h)
            · exact Or.inl (Or.inl h)
          · exact Or.inr h
        · rintro ((h | h) | h)
          · exact Or.inl (Or.inl h)
          · rcases this.mpr (Or.inl h) with h | h
            · exact Or.inl (Or.inr h)
            · exact Or.inl (Or.inl h)
          · exact Or.inr h

theorem mem_intRange {a b x : Int} : x ∈ intRange a b ↔ a ≤ x ∧ x < b := by
  unfold intRange
  rw [List.mem_map]
  constructor
  · rintro ⟨n, hn, rfl⟩
    rw [List.mem_range] at hn
    omega
  · rintro ⟨h1, h2⟩
    exact ⟨(x - a).toNat, by rw [List.mem_range]; omega, by omega⟩

theorem mem_substrings {k : Nat} {A : List α} {l i pi li : Nat} {x : List α} :
    x ∈ multiMatchAwareSubstrings k A l i pi li ↔
      ∃ j : Nat, (pi : Int) - i ≤ j ∧ (pi : Int) + (A.length - l) - (k - i) ≤ j ∧ (j : Int) ≤ pi + i ∧
        (j : Int) ≤ pi + (A.length - l) + (k - i) ∧ (j : Int) ≤ (A.length : Int) - li ∧ x = slice A j (j + li) := by
  unfold multiMatchAwareSubstrings multiMatchAwareInterval
  simp only
  have h := mem_skipRepeats (current := none) (x := x) (l := (intRange
    (max (max 0 ((pi : Int) - i)) ((pi : Int) + (A.length - l) - (k - i)))
    (min (min ((pi : Int) + i) ((pi : Int) + (A.length - l) + (k - i))) ((A.length : Int) - li) + 1)).map
      fun j => slice A j.toNat (j.toNat + li))
  simp only [reduceCtorEq, or_false] at h
  rw [h, List.mem_map]
  simp only [mem_intRange]
  constructor
  · rintro ⟨j, ⟨h1, h2⟩, rfl⟩
    refine ⟨j.toNat, ?_⟩
    have : (j.toNat : Int) = j := by omega
    rw [this]
    refine ⟨?_, ?_, ?_, ?_, ?_, rfl⟩ <;> omega
  · rintro ⟨j, h1, h2, h3, h4, h5, rfl⟩
    exact ⟨j, by omega, by simp⟩

/-! ### The index -/

/-- What is under a length and a segment. -/
def lookup (L : Index α) (l : Nat) (key : Nat × List α) : List (List α) :=
  ((L.get? l).bind fun Ll => Ll.get? key).getD []

theorem get?_foldl_update (keys : List (Nat × List α)) (A : List α) (d : Dict (Nat × List α) (List (List α)))
    (key : Nat × List α) (B : List α) :
    B ∈ ((keys.foldl (fun Ll key => Ll.update key [] fun bucket => bucket ++ [A]) d).get? key).getD [] ↔
      B ∈ (d.get? key).getD [] ∨ (B = A ∧ key ∈ keys) := by
  induction keys generalizing d with
  | nil => simp
  | cons x keys ih =>
      rw [List.foldl_cons, ih, Dict.get?_update]
      by_cases h : x = key
      · subst h
        simp only [if_true, Option.getD_some, List.mem_append, List.mem_singleton, List.mem_cons, true_or, and_true]
        grind
      · simp only [h, if_false, List.mem_cons, Ne.symm h, false_or]

/-- `L` is the index of the strings `prev`. -/
def Indexes (k : Nat) (prev : List (List α)) (L : Index α) : Prop :=
  ∀ l key B, B ∈ lookup L l key ↔ B ∈ prev ∧ B.length = l ∧ key ∈ segments k B

theorem indexes_nil (k : Nat) : Indexes (α := α) k [] [] := by
  intro l key B
  simp [lookup, Dict.get?]

theorem indexes_snoc {k : Nat} {prev : List (List α)} {L : Index α} (h : Indexes k prev L) (A : List α) :
    Indexes k (prev ++ [A]) (indexString k L A) := by
  intro l key B
  have h1 := h l key B
  simp only [lookup] at h1 ⊢
  unfold indexString
  rw [Dict.get?_update]
  by_cases hl : A.length = l
  · simp only [hl, if_true, Option.bind_some]
    rw [get?_foldl_update]
    have h2 : B ∈ ((((L.get? l).getD []).get? key).getD []) ↔ B ∈ prev ∧ B.length = l ∧ key ∈ segments k B := by
      rw [← h1]
      cases hLl : L.get? l with
      | none => simp [Dict.get?]
      | some Ll => simp
    rw [h2, List.mem_append, List.mem_singleton]
    constructor
    · rintro (⟨h3, h4, h5⟩ | ⟨rfl, h4⟩)
      · exact ⟨Or.inl h3, h4, h5⟩
      · exact ⟨Or.inr rfl, hl, h4⟩
    · rintro ⟨h3 | rfl, h4, h5⟩
      · exact Or.inl ⟨h3, h4, h5⟩
      · exact Or.inr ⟨rfl, h5⟩
  · simp only [hl, if_false]
    rw [h1, List.mem_append, List.mem_singleton]
    constructor
    · rintro ⟨h3, h4⟩; exact ⟨Or.inl h3, h4⟩
    · rintro ⟨h3 | rfl, h4, h5⟩
      · exact ⟨h3, h4, h5⟩
      · exact absurd h4 hl

/-- The strings `A` and `B` are found to match, `B` being indexed. -/
def Matches (k : Nat) (distance : List α → List α → Nat) (sort : Bool) (A B : List α) : Prop :=
  (if sort then A.length else A.length - k) ≤ B.length ∧ B.length < A.length + k + 1 ∧
  (∃ i start length, (i, start, length) ∈ partition k B.length ∧
    ∃ substring ∈ multiMatchAwareSubstrings k A B.length i start length, (i, substring) ∈ segments k B) ∧
  ((A.length ≤ k ∧ B.length ≤ k) ∨ distance A B ≤ k)

theorem mem_matchString {k : Nat} {distance : List α → List α → Nat} {sort : Bool} {prev : List (List α)} {L : Index α}
    (h : Indexes k prev L) {A X B : List α} :
    (X, B) ∈ matchString k distance sort L A ↔ X = A ∧ B ∈ prev ∧ Matches k distance sort A B := by
  unfold matchString Matches
  simp only [List.mem_flatMap]
  have hr : ∀ l, l ∈ pyRange (if sort = true then A.length else A.length - k) (A.length + k + 1) ↔
      (if sort then A.length else A.length - k) ≤ l ∧ l < A.length + k + 1 := by
    intro l
    unfold pyRange
    rw [List.mem_range'_1]
    split <;> omega
  constructor
  · rintro ⟨l, hl, hm⟩
    rw [hr] at hl
    split at hm
    · simp at hm
    · next Ll hLl =>
        rw [List.mem_flatMap] at hm
        obtain ⟨⟨i, start, length⟩, hp, hm⟩ := hm
        simp only [List.mem_flatMap] at hm
        obtain ⟨sub, hsub, hm⟩ := hm
        split at hm
        · simp at hm
        · next candidates hc =>
            rw [List.mem_filterMap] at hm
            obtain ⟨B', hB', hm⟩ := hm
            split at hm
            · next hcond =>
                cases hm
                have hB := (h l (i, sub) B).mp (by simp [lookup, hLl, hc, hB'])
                obtain ⟨h1, rfl, h3⟩ := hB
                exact ⟨rfl, h1, hl.1, hl.2, ⟨i, start, length, hp, sub, hsub, h3⟩, hcond⟩
            · cases hm
  · rintro ⟨rfl, hB, h1, h2, ⟨i, start, length, hp, sub, hsub, hseg⟩, hcond⟩
    refine ⟨B.length, (hr _).mpr ⟨h1, h2⟩, ?_⟩
    have hm := (h B.length (i, sub) B).mpr ⟨hB, rfl, hseg⟩
    simp only [lookup] at hm
    cases hLl : L.get? B.length with
    | none => simp [hLl] at hm
    | some Ll =>
        simp only [hLl, Option.bind_some] at hm
        cases hc : Ll.get? (i, sub) with
        | none => simp [hc] at hm
        | some candidates =>
            simp only [hc, Option.getD_some] at hm
            simp only [List.mem_flatMap]
            refine ⟨(i, start, length), hp, ?_⟩
            simp only [List.mem_flatMap]
            refine ⟨sub, hsub, ?_⟩
            rw [hc]
            simp only [List.mem_filterMap]
            exact ⟨B, hm, by rw [if_pos hcond]⟩

theorem mem_clustering {k : Nat} {distance : List α → List α → Nat} {sort : Bool} {prev data : List (List α)}
    {L : Index α} (h : Indexes k prev L) {A B : List α} :
    (A, B) ∈ clustering k distance sort L data ↔
      ((B ∈ prev ∧ A ∈ data) ∨ [B, A].Sublist data) ∧ Matches k distance sort A B := by
  induction data generalizing prev L with
  | nil => simp [clustering]
  | cons x data ih =>
      unfold clustering
      rw [List.mem_append, mem_matchString h, ih (indexes_snoc h x), pair_sublist_cons]
      simp only [List.mem_append, List.mem_cons, List.mem_singleton]
      grind

/-! ### The substrings are enough -/

theorem matches_segments {k : Nat} {A B : List α} {m : Nat} (hm : m ≤ k) (h : Align B A m) :
    ∃ i start length, (i, start, length) ∈ partition k B.length ∧
      ∃ substring ∈ multiMatchAwareSubstrings k A B.length i start length, (i, substring) ∈ segments k B := by
  obtain ⟨f, E, p⟩ := h.path
  have hP : ∀ i, i ≤ k + 1 → segStart k B.length i ≤ B.length := by
    intro i hi
    have := segStart_mono (k := k) (l := B.length) hi
    rwa [segStart_last] at this
  -- the first segment before the end of which there are not too many edits
  have hex : ∃ i, i ≤ k ∧ E (segStart k B.length (i + 1)) ≤ i ∧
      ∀ j, j < i → j < E (segStart k B.length (j + 1)) := by
    have aux : ∀ n, (∃ i, i ≤ n ∧ E (segStart k B.length (i + 1)) ≤ i ∧
        ∀ j, j < i → j < E (segStart k B.length (j + 1))) ∨ ∀ j, j ≤ n → j < E (segStart k B.length (j + 1)) := by
      intro n
      induction n with
      | zero =>
          by_cases h : E (segStart k B.length 1) ≤ 0
          · exact Or.inl ⟨0, Nat.le_refl _, h, by omega⟩
          · right
            intro j hj
            rw [Nat.le_zero.mp hj]
            show 0 < E (segStart k B.length 1)
            omega
      | succ n ih =>
          rcases ih with ⟨i, h1, h2⟩ | ih
          · exact Or.inl ⟨i, by omega, h2⟩
          · by_cases h : E (segStart k B.length (n + 1 + 1)) ≤ n + 1
            · exact Or.inl ⟨n + 1, Nat.le_refl _, h, fun j hj => ih j (by omega)⟩
            · right
              intro j hj
              rcases Nat.lt_or_ge n j with h' | h'
              · rw [show j = n + 1 by omega]; omega
              · exact ih j h'
    rcases aux k with h | h
    · exact h
    · have h1 := h k (Nat.le_refl _)
      rw [segStart_last] at h1
      have := p.total
      omega
  obtain ⟨i, hik, hi1, hi2⟩ := hex
  have hmono := segStart_mono (k := k) (l := B.length) (show i ≤ i + 1 by omega)
  have hle := hP (i + 1) (by omega)
  have hstep := p.step _ _ hmono hle
  have hEi : i ≤ E (segStart k B.length i) := by
    cases i with
    | zero => omega
    | succ i => exact hi2 i (by omega)
  have hsame := p.same _ _ hmono hle (by omega)
  have h0 := p.step 0 (segStart k B.length i) (by omega) (by omega)
  have hl := p.step (segStart k B.length i) B.length (by omega) (Nat.le_refl _)
  have hl' := p.step (segStart k B.length (i + 1)) B.length hle (Nat.le_refl _)
  have hstart := p.start
  have htotal := p.total
  have hstop := p.stop
  have hstop' := p.stop_le
  refine ⟨i, segStart k B.length i, segStart k B.length (i + 1) - segStart k B.length i, ?_,
    slice B (segStart k B.length i) (segStart k B.length (i + 1)), ?_, ?_⟩
  · rw [partition_eq, List.mem_map]
    exact ⟨i, by rw [List.mem_range]; omega, rfl⟩
  · rw [mem_substrings]
    refine ⟨f (segStart k B.length i), ?_, ?_, ?_, ?_, ?_, ?_⟩
    · omega
    · omega
    · omega
    · omega
    · omega
    · rw [hsame]
      congr 1
      omega
  · rw [segments_eq, List.mem_map]
    exact ⟨i, by rw [List.mem_range]; omega, rfl⟩

theorem matches_iff {k : Nat} {distance : List α → List α → Nat} (hd : ∀ a b, distance a b = lev a b) {sort : Bool}
    {A B : List α} (hs : sort = true → A.length ≤ B.length) : Matches k distance sort A B ↔ lev A B ≤ k := by
  unfold Matches
  rw [hd]
  constructor
  · rintro ⟨_, _, _, h | h⟩
    · have := lev_le_max A B
      omega
    · exact h
  · intro h
    have hl := lev_length_le A B
    refine ⟨?_, by omega, matches_segments h (align_lev A B).symm, Or.inr h⟩
    split
    · next hs' => exact hs hs'
    · omega

end Fog.Passjoin
