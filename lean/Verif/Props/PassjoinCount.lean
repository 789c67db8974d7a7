import Verif.Lemmas.Passjoin
import Mathlib.Algebra.BigOperators.Group.List.Basic
import Mathlib.Data.List.Nodup
import Mathlib.Tactic.Ring
import Mathlib.Tactic.Linarith

/-!
# How many substrings passjoin selects (C83)
-/

namespace Fog.Props

open Fog.Passjoin

variable {α : Type} [DecidableEq α]

/-- Width of the interval of a segment, when the string is long. -/
def width (k d i : Int) : Int := min i (d + k - i) - max (-i) (d - k + i) + 1

theorem width_neg (k d i : Int) : width k (-d) i = width k d i := by unfold width; omega

theorem width_pos {k d i : Int} (h0 : 0 ≤ i) (hi : i ≤ k) (hd : d ≤ k) (hd' : -k ≤ d) : 0 < width k d i := by
  unfold width; omega

theorem sum_width_step (k : Nat) (d : Int) (hd : d ≤ k) (hd' : -k ≤ d) :
    ((List.range (k + 3)).map fun i : Nat => width ((k + 2 : Nat) : Int) d i).sum =
      ((List.range (k + 1)).map fun i : Nat => width k d i).sum + (2 * k + 4) := by
  have h : ∀ n : Nat, n ≤ k + 1 → ((List.range n).map fun i : Nat => width ((k + 2 : Nat) : Int) d ((i + 1 : Nat) : Int)).sum =
      ((List.range n).map fun i : Nat => width k d i).sum + 2 * n := by
    intro n hn
    induction n with
    | zero => simp
    | succ n ih =>
        simp only [List.range_succ, List.map_append, List.sum_append, List.map_cons, List.map_nil, List.sum_cons, List.sum_nil]
        rw [ih (by omega)]
        have : width ((k + 2 : Nat) : Int) d ((n + 1 : Nat) : Int) = width k d n + 2 := by unfold width; omega
        rw [this]; push_cast; ring
  rw [List.range_succ, List.map_append, List.sum_append, List.range_succ_eq_map, List.map_cons, List.map_map]
  have h1 : width ((k + 2 : Nat) : Int) d ((0 : Nat) : Int) = 1 := by unfold width; omega
  have h2 : width ((k + 2 : Nat) : Int) d ((k + 2 : Nat) : Int) = 1 := by unfold width; omega
  have := h (k + 1) (by omega)
  simp only [Function.comp_def, List.map_cons, List.map_nil, List.sum_cons, List.sum_nil, Nat.succ_eq_add_one, h1, h2] at this ⊢
  rw [this]; push_cast; ring

theorem sum_range_const (n : Nat) (f : Nat → Int) (c : Int) (h : ∀ i < n, f i = c) : ((List.range n).map f).sum = n * c := by
  induction n with
  | zero => simp
  | succ n ih =>
      rw [List.range_succ, List.map_append, List.sum_append, ih fun i hi => h i (by omega)]
      simp only [List.map_cons, List.map_nil, List.sum_cons, List.sum_nil, h n (by omega)]
      push_cast; ring

theorem sum_width_nat : ∀ (m d : Nat), ((List.range (d + m + 1)).map fun i : Nat => width ((d + m : Nat) : Int) d i).sum =
    (((d + m : Nat) : Int) ^ 2 - (d : Int) ^ 2) / 2 + (d + m : Nat) + 1
  | 0, d => by
      rw [sum_range_const _ _ 1 fun i hi => by unfold width; omega]
      simp
  | 1, d => by
      rw [List.range_succ, List.map_append, List.sum_append, List.range_succ_eq_map, List.map_cons, List.map_map,
        List.sum_cons, sum_range_const _ _ 2 fun i hi => by unfold width; simp only [Function.comp, Nat.succ_eq_add_one]; omega]
      have h1 : width ((d + 1 : Nat) : Int) d ((0 : Nat) : Int) = 1 := by unfold width; omega
      have h2 : width ((d + 1 : Nat) : Int) d ((d + 1 : Nat) : Int) = 1 := by unfold width; omega
      rw [h1]
      simp only [List.map_cons, List.map_nil, List.sum_cons, List.sum_nil, h2]
      have : ((d + 1 : Nat) : Int) ^ 2 - (d : Int) ^ 2 = 2 * d + 1 := by push_cast; ring
      rw [this]
      push_cast; omega
  | m + 2, d => by
      have h := sum_width_step (d + m) d (by push_cast; omega) (by push_cast; omega)
      have e : d + (m + 2) = d + m + 2 := by omega
      rw [e, h, sum_width_nat m d]
      have : ((d + m + 2 : Nat) : Int) ^ 2 - (d : Int) ^ 2 = (((d + m : Nat) : Int) ^ 2 - (d : Int) ^ 2) + (2 * (d + m : Nat) + 2) * 2 := by
        push_cast; ring
      rw [this, Int.add_mul_ediv_right _ _ (by decide)]
      push_cast; ring

/-- The widths add up to `count_substrings_l`. -/
theorem sum_width {k s l : Nat} (h1 : s ≤ l + k) (h2 : l ≤ s + k) :
    ((List.range (k + 1)).map fun i : Nat => width k ((s : Int) - l) i).sum = countSubstringsL k s l := by
  unfold countSubstringsL
  rcases Nat.le_total l s with h | h
  · obtain ⟨d, rfl⟩ := Nat.exists_eq_add_of_le h
    obtain ⟨m, rfl⟩ := Nat.exists_eq_add_of_le (show d ≤ k by omega)
    have e : ((l + d : Nat) : Int) - l = d := by push_cast; ring
    rw [e, sum_width_nat]; rfl
  · obtain ⟨d, rfl⟩ := Nat.exists_eq_add_of_le h
    obtain ⟨m, rfl⟩ := Nat.exists_eq_add_of_le (show d ≤ k by omega)
    have e : (s : Int) - ((s + d : Nat) : Int) = -d := by push_cast; ring
    simp only [e, width_neg]
    rw [sum_width_nat, Int.natAbs_neg]; rfl

/-- Positions at which a segment is looked for. -/
def positions (k s l i pi li : Nat) : List Int :=
  intRange (multiMatchAwareInterval k ((s : Int) - l) i s pi li).1 ((multiMatchAwareInterval k ((s : Int) - l) i s pi li).2 + 1)

theorem positions_length (k s l i pi li : Nat) (hi : i ≤ k) (h1 : s ≤ l + k) (h2 : l ≤ s + k) :
    ((positions k s l i pi li).length : Int) ≤ width k ((s : Int) - l) i := by
  unfold positions intRange multiMatchAwareInterval width
  simp only [List.length_map, List.length_range]
  omega

theorem positions_length_eq (k s l i pi li : Nat) (hi : i ≤ k) (h1 : s ≤ l + k) (h2 : l ≤ s + k) (hp : i ≤ pi)
    (hl : pi + li + (k - i) ≤ l) :
    ((positions k s l i pi li).length : Int) = width k ((s : Int) - l) i := by
  unfold positions intRange multiMatchAwareInterval width
  simp only [List.length_map, List.length_range]
  omega

theorem skipRepeats_length (l : List (List α)) (current : Option (List α)) : (skipRepeats current l).length ≤ l.length := by
  induction l generalizing current with
  | nil => simp [skipRepeats]
  | cons x l ih =>
      rw [skipRepeats]
      split
      · have := ih current; simp only [List.length_cons]; omega
      · have := ih (some x); simp only [List.length_cons]; omega

theorem skipRepeats_nodup : ∀ (l : List (List α)) (current : Option (List α)), l.Nodup → (∀ x ∈ l, current ≠ some x) →
    skipRepeats current l = l
  | [], _, _, _ => rfl
  | x :: l, current, hn, hc => by
      rw [skipRepeats, if_neg (fun h => hc x (by simp) h.symm)]
      rw [List.nodup_cons] at hn
      rw [skipRepeats_nodup l (some x) hn.2]
      intro y hy e
      injection e with e
      subst e
      exact hn.1 hy

theorem substrings_eq (k : Nat) (A : List α) (l i pi li : Nat) :
    multiMatchAwareSubstrings k A l i pi li =
      skipRepeats none ((positions k A.length l i pi li).map fun j => slice A j.toNat (j.toNat + li)) := rfl

theorem segStart_ge {k l : Nat} (h : k < l) : ∀ i, i ≤ segStart k l i
  | 0 => Nat.zero_le _
  | i + 1 => by
      have := segStart_ge h i
      have h1 : 1 ≤ l / (k + 1) := (Nat.one_le_div_iff (by omega)).mpr h
      rw [segStart_succ]
      omega

theorem segStart_gap {k l : Nat} (h : k < l) {i j : Nat} (hij : i ≤ j) : segStart k l i + (j - i) ≤ segStart k l j := by
  obtain ⟨n, rfl⟩ := Nat.exists_eq_add_of_le hij
  clear hij
  induction n with
  | zero => simp
  | succ n ih =>
      have h1 : 1 ≤ l / (k + 1) := (Nat.one_le_div_iff (by omega)).mpr h
      rw [← Nat.add_assoc, segStart_succ]
      omega

theorem sum_le_sum_range {n : Nat} {f g : Nat → Int} (h : ∀ i < n, f i ≤ g i) :
    ((List.range n).map f).sum ≤ ((List.range n).map g).sum := by
  induction n with
  | zero => simp
  | succ n ih =>
      simp only [List.range_succ, List.map_append, List.sum_append, List.map_cons, List.map_nil, List.sum_cons, List.sum_nil]
      have := ih fun i hi => h i (by omega)
      have := h n (by omega)
      omega

theorem length_flatMap_range {β : Type} (n : Nat) (f : Nat → List β) :
    (((List.range n).flatMap f).length : Int) = ((List.range n).map fun i => ((f i).length : Int)).sum := by
  induction n with
  | zero => simp
  | succ n ih =>
      rw [List.range_succ, List.flatMap_append, List.length_append, List.map_append, List.sum_append]
      push_cast
      rw [ih]; simp

/-- The substrings of `string` looked up among the segments of the strings of length `l` (passjoin.py l. 251-252). -/
def selected (k : Nat) (string : List α) (l : Nat) : List (List α) :=
  (partition k l).flatMap fun (i, start, length) => multiMatchAwareSubstrings k string l i start length

/-- **C83**: `count_substrings_l` bounds the number of substrings selected for the strings of a length. -/
theorem passjoin_substrings_bound (k : Nat) (string : List α) (l : Nat) (h1 : string.length ≤ l + k) (h2 : l ≤ string.length + k) :
    ((selected k string l).length : Int) ≤ countSubstringsL k string.length l := by
  unfold selected
  rw [partition_eq, List.flatMap_map, length_flatMap_range, ← sum_width h1 h2]
  apply sum_le_sum_range
  intro i hi
  simp only
  refine le_trans ?_ (positions_length k string.length l i (segStart k l i) (segStart k l (i + 1) - segStart k l i) (by omega) h1 h2)
  rw [substrings_eq]
  have := skipRepeats_length ((positions k string.length l i (segStart k l i) (segStart k l (i + 1) - segStart k l i)).map
    fun j => slice string j.toNat (j.toNat + (segStart k l (i + 1) - segStart k l i))) none
  rw [List.length_map] at this
  omega

theorem slice_inj {A : List α} (hA : A.Nodup) {i j n : Nat} (hn : 0 < n) (hi : i + n ≤ A.length) (hj : j + n ≤ A.length)
    (h : slice A i (i + n) = slice A j (j + n)) : i = j := by
  have h' := congrArg (fun l => l[0]?) h
  simp only [slice, List.getElem?_drop, List.getElem?_take, Nat.add_zero] at h'
  rw [if_pos (by omega), if_pos (by omega), List.getElem?_eq_getElem (by omega), List.getElem?_eq_getElem (by omega)] at h'
  exact (List.Nodup.getElem_inj_iff hA).mp (Option.some.inj h')

theorem positions_nodup (k s l i pi li : Nat) : (positions k s l i pi li).Nodup := by
  unfold positions intRange
  exact List.Nodup.map (fun a b h => by simpa using h) List.nodup_range

/-- **C83**: on strings without repeated characters, the number of substrings is exactly `count_substrings_l`, provided that segments
are not empty. -/
theorem passjoin_substrings_count (k : Nat) (string : List α) (l : Nat) (h1 : string.length ≤ l + k) (h2 : l ≤ string.length + k)
    (hk : k < l) (hn : string.Nodup) :
    ((selected k string l).length : Int) = countSubstringsL k string.length l := by
  unfold selected
  rw [partition_eq, List.flatMap_map, length_flatMap_range, ← sum_width h1 h2]
  congr 1
  apply List.map_congr_left
  intro i hi
  rw [List.mem_range] at hi
  simp only
  have hg := segStart_gap hk (show i ≤ i + 1 by omega)
  have hg' := segStart_gap hk (show i + 1 ≤ k + 1 by omega)
  rw [segStart_last] at hg'
  have hi' := segStart_ge hk i
  rw [← positions_length_eq k string.length l i (segStart k l i) (segStart k l (i + 1) - segStart k l i) (by omega) h1 h2 hi'
    (by omega)]
  rw [substrings_eq, skipRepeats_nodup _ _ _ (by simp), List.length_map]
  refine List.Nodup.map_on ?_ (positions_nodup _ _ _ _ _ _)
  intro a ha b hb h
  unfold positions multiMatchAwareInterval at ha hb
  rw [mem_intRange] at ha hb
  simp only at ha hb
  have := slice_inj hn (by omega) (by omega) (by omega) h
  omega

/-- The bound is met by "abc" and exceeded by no string; a repeated character makes it strict. -/
example : ((selected 1 ['a', 'b', 'c'] 3).length : Int) = countSubstringsL 1 3 3 ∧ countSubstringsL 1 3 3 = 2 ∧
    (selected 2 ['a', 'b', 'c', 'd', 'e'] 6).length = 4 ∧ countSubstringsL 2 5 6 = 4 ∧
    (selected 2 ['a', 'a', 'a', 'a', 'a'] 6).length = 3 := by decide +kernel

/-- What `clustering` looks up for a string (passjoin.py l. 244-252), if there are strings of all lengths in the index. -/
def lookups (k : Nat) (sort : Bool) (string : List α) : List (List α) :=
  (pyRange (if sort then string.length else string.length - k) (string.length + k + 1)).flatMap (selected k string)

theorem countKeys_eq (k s : Nat) : countKeys k s = ((List.range (k + 1)).map fun i : Nat => countSubstringsL k s ((s + i : Nat) : Int)).sum := by
  have fold : ∀ (l : List Int) (c : Int) (f : Int → Int), l.foldl (fun c x => c + f x) c = c + (l.map f).sum := by
    intro l
    induction l with
    | nil => simp
    | cons x l ih => intro c f; rw [List.foldl_cons, ih]; simp; ring
  unfold countKeys intRange
  rw [fold, List.map_map, show ((s : Int) + 1 - (s - k)).toNat = k + 1 by omega, Int.zero_add]
  rw [← List.sum_reverse, ← List.map_reverse, List.range_eq_range', List.reverse_range', List.map_map, ← List.range_eq_range']
  congr 1
  apply List.map_congr_left
  intro i hi
  rw [List.mem_range] at hi
  simp only [Function.comp, countSubstringsL]
  have : ((s : Int) - (s - k + ((0 + (k + 1) - 1 - i : Nat) : Int))).natAbs = ((s : Int) - ((s + i : Nat) : Int)).natAbs := by omega
  rw [this]

theorem countSubstringsL_nonneg {k s l : Nat} (h1 : s ≤ l + k) (h2 : l ≤ s + k) : 0 ≤ countSubstringsL k s l := by
  rw [← sum_width h1 h2]
  have := sum_le_sum_range (n := k + 1) (f := fun _ => 0) (g := fun i : Nat => width k ((s : Int) - l) i) fun i hi =>
    (width_pos (by omega) (by omega) (by omega) (by omega)).le
  simpa using this

theorem lookups_sorted_length (k : Nat) (string : List α) : ((lookups k true string).length : Int) =
    ((List.range (k + 1)).map fun i => ((selected k string (string.length + i)).length : Int)).sum := by
  unfold lookups pyRange
  rw [if_pos rfl, show string.length + k + 1 - string.length = k + 1 by omega, List.range'_eq_map_range, List.flatMap_map,
    length_flatMap_range]

/-- **C83**: `count_keys` bounds the number of substrings looked up for a string once the strings are sorted. -/
theorem passjoin_lookups_bound (k : Nat) (string : List α) :
    ((lookups k true string).length : Int) ≤ countKeys k string.length := by
  rw [lookups_sorted_length, countKeys_eq]
  apply sum_le_sum_range
  intro i hi
  exact passjoin_substrings_bound k string _ (by omega) (by omega)

/-- **C83**: and this is exactly their number on strings which are longer than the threshold and have no repeated characters. -/
theorem passjoin_lookups_count (k : Nat) (string : List α) (hk : k < string.length) (hn : string.Nodup) :
    ((lookups k true string).length : Int) = countKeys k string.length := by
  rw [lookups_sorted_length, countKeys_eq]
  congr 1
  apply List.map_congr_left
  intro i hi
  rw [List.mem_range] at hi
  exact passjoin_substrings_count k string _ (by omega) (by omega) (by omega) hn

example : (lookups 1 true ['a', 'b', 'c']).length = 4 ∧ countKeys 1 3 = 4 ∧ (lookups 1 true ['a', 'a', 'a']).length = 4 ∧
    (lookups 1 false ['a', 'b', 'c']).length = 6 := by decide +kernel

end Fog.Props
