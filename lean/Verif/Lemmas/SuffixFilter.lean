import Verif.Model.Ppjoin
import Verif.Lemmas.SortedLists

/-! # The suffix filter of ppjoin -/

namespace Fog.Ppjoin

variable {τ : Type _} [LinearOrder τ]

theorem pyGet_nat {l : List τ} {i : Nat} (h : i < l.length) : pyGet l (i : Int) = .ok l[i] := by
  unfold pyGet
  rw [if_pos (by omega), Int.toNat_natCast, List.getElem?_eq_getElem h]

/-- What `bisect_left` returns, in an increasing list. -/
theorem bisectLoop_spec {y : List τ} (token : τ) {hi : Nat} (hhi : hi ≤ y.length) (lo : Nat) :
    ∃ p : Nat, bisectLoop y token lo hi = .ok (p : Int) ∧ lo ≤ p ∧ p ≤ max lo hi ∧
      (Increasing y → ∀ i (_ : i < y.length), lo ≤ i → (i < p → y[i] < token) ∧ (p ≤ i → i < hi → token ≤ y[i])) := by
  induction hn : hi - lo using Nat.strong_induction_on generalizing lo hi with
  | _ n ih =>
    by_cases hlt : lo < hi
    · have hmid : ((lo : Int) + (hi : Int)) / 2 = (((lo + hi) / 2 : Nat) : Int) := by omega
      have hm : (lo + hi) / 2 < y.length := by omega
      rw [bisectLoop, dif_pos (by omega)]
      simp only [hmid, pyGet_nat hm]
      by_cases hv : y[(lo + hi) / 2] < token
      · rw [if_pos hv]
        obtain ⟨p, h1, h2, h3, h4⟩ := ih (hi - ((lo + hi) / 2 + 1)) (by omega) hhi ((lo + hi) / 2 + 1) rfl
        refine ⟨p, by exact_mod_cast h1, by omega, by omega, fun hy i hil hlo => ⟨fun hip => ?_, fun hpi hih => ?_⟩⟩
        · by_cases hc : (lo + hi) / 2 + 1 ≤ i
          · exact (h4 hy i hil hc).1 hip
          · rcases Nat.lt_or_ge i ((lo + hi) / 2) with h5 | h5
            · exact (hy.getElem_lt h5 hm).trans hv
            · have : i = (lo + hi) / 2 := by omega
              subst this; exact hv
        · exact (h4 hy i hil (by omega)).2 hpi hih
      · rw [if_neg hv]
        obtain ⟨p, h1, h2, h3, h4⟩ := ih ((lo + hi) / 2 - lo) (by omega) (hi := (lo + hi) / 2) (by omega) lo rfl
        refine ⟨p, h1, h2, by omega, fun hy i hil hlo => ⟨fun hip => (h4 hy i hil hlo).1 hip, fun hpi hih => ?_⟩⟩
        rcases Nat.lt_or_ge i ((lo + hi) / 2) with h5 | h5
        · exact (h4 hy i hil hlo).2 hpi h5
        · refine (not_lt.mp hv).trans ?_
          rcases Nat.lt_or_ge ((lo + hi) / 2) i with h6 | h6
          · exact (hy.getElem_lt h6 hil).le
          · have : i = (lo + hi) / 2 := by omega
            subst this; exact le_refl _
    · rw [bisectLoop, dif_neg (by omega)]
      exact ⟨lo, rfl, le_refl _, by omega, fun _ i _ _ => ⟨by omega, by omega⟩⟩

/-- The part of a list between two positions. -/
def seg (l : List τ) (i j : Nat) : List τ := (l.take j).drop i

theorem length_seg (l : List τ) {i j : Nat} (hj : j ≤ l.length) : (seg l i j).length = j - i := by
  simp [seg, hj]

theorem mem_seg {l : List τ} {i j : Nat} {a : τ} : a ∈ seg l i j ↔ ∃ n, ∃ h : n < l.length, i ≤ n ∧ n < j ∧ l[n] = a := by
  unfold seg
  constructor
  · intro h
    obtain ⟨n, hn, rfl⟩ := List.getElem_of_mem h
    simp only [List.length_drop, List.length_take] at hn
    exact ⟨i + n, by omega, by omega, by omega, by simp⟩
  · rintro ⟨n, hn, h1, h2, rfl⟩
    rw [List.mem_iff_getElem]
    exact ⟨n - i, by simp; omega, by simp [show i + (n - i) = n by omega]⟩

theorem increasing_seg {l : List τ} (h : Increasing l) (i j : Nat) : Increasing (seg l i j) :=
  h.sublist ((List.drop_sublist _ _).trans (List.take_sublist _ _))

theorem seg_split (l : List τ) {i m j : Nat} (h1 : i ≤ m) (h2 : m ≤ j) : seg l i j = seg l i m ++ seg l m j := by
  unfold seg
  have : l.take m = (l.take j).take m := by rw [List.take_take, min_eq_left h2]
  rw [this]
  generalize l.take j = l'
  rw [List.drop_take]
  conv_lhs => rw [← List.take_append_drop (m - i) (l'.drop i)]
  rw [List.drop_drop, show i + (m - i) = m by omega]

theorem seg_cons {l : List τ} {i j : Nat} (h1 : i < j) (h2 : j ≤ l.length) : seg l i j = l[i]'(by omega) :: seg l (i + 1) j := by
  unfold seg
  rw [List.drop_eq_getElem_cons (by simp; omega)]
  simp

/-- The number of elements in one of the lists and not in the other. -/
def hamming (x y : List τ) : Int := (x.length : Int) + y.length - 2 * common x y

theorem natAbs_le_hamming {x y : List τ} (hx : x.Nodup) : (((x.length : Int) - y.length).natAbs : Int) ≤ hamming x y := by
  have h1 := common_le_left x y
  have h2 := common_le_right y hx
  unfold hamming
  omega

/-- The place of a token. -/
theorem exists_place {y : List τ} (hy : Increasing y) (token : τ) {ys ye : Nat} (h1 : ys ≤ ye) (h2 : ye ≤ y.length) :
    ∃ p, ys ≤ p ∧ p ≤ ye ∧ ∀ i (_ : i < y.length), ys ≤ i → (i < p → y[i] < token) ∧ (p ≤ i → i < ye → token ≤ y[i]) := by
  obtain ⟨p, -, h3, h4, h5⟩ := bisectLoop_spec token h2 ys
  exact ⟨p, h3, by omega, h5 hy⟩

/-- The distance is at least the sum of the distances around a token. -/
theorem hamming_split {x y : List τ} (hx : Increasing x) (hy : Increasing y) {xs m xe ys p ye : Nat} (h1 : xs ≤ m) (h2 : m < xe)
    (h3 : xe ≤ x.length) (h4 : ys ≤ p) (h5 : p ≤ ye) (h6 : ye ≤ y.length)
    (hp : ∀ i (_ : i < y.length), ys ≤ i → (i < p → y[i] < x[m]) ∧ (p ≤ i → i < ye → x[m] ≤ y[i])) :
    (∀ h : p < ye, y[p] = x[m] →
      hamming (seg x xs m) (seg y ys p) + hamming (seg x (m + 1) xe) (seg y (p + 1) ye) ≤ hamming (seg x xs xe) (seg y ys ye)) ∧
    ((∀ h : p < ye, y[p] ≠ x[m]) →
      hamming (seg x xs m) (seg y ys p) + hamming (seg x (m + 1) xe) (seg y p ye) + 1 ≤ hamming (seg x xs xe) (seg y ys ye)) := by
  have hlx := length_seg x (i := xs) h3
  have hly := length_seg y (i := ys) h6
  have hl1 := length_seg x (i := xs) (j := m) (by omega)
  have hl2 := length_seg y (i := ys) (j := p) (by omega)
  have hl3 := length_seg x (i := m + 1) h3
  have hl4 := length_seg y (i := p) h6
  have hl5 := length_seg y (i := p + 1) h6
  have hc : common (seg x xs xe) (seg y ys ye) =
      common (seg x xs m) (seg y ys ye) + ((if x[m] ∈ seg y ys ye then 1 else 0) + common (seg x (m + 1) xe) (seg y ys ye)) := by
    rw [seg_split x h1 h2.le, common_append, seg_cons h2 h3, show x[m] :: seg x (m + 1) xe = [x[m]] ++ seg x (m + 1) xe from rfl,
      common_append]
    congr 2
    by_cases h : x[m] ∈ seg y ys ye <;> simp [common, h]
  have hleft : common (seg x xs m) (seg y ys ye) ≤ common (seg x xs m) (seg y ys p) := by
    apply common_mono_right
    intro a ha hay
    obtain ⟨i, hi, hi1, hi2, rfl⟩ := mem_seg.mp ha
    obtain ⟨j, hj, hj1, hj2, hji⟩ := mem_seg.mp hay
    refine mem_seg.mpr ⟨j, hj, hj1, ?_, hji⟩
    by_contra hc
    have := (hp j hj hj1).2 (by omega) hj2
    rw [hji] at this
    exact absurd (hx.getElem_lt hi2 (by omega)) (not_lt_of_ge this)
  have hright : ∀ j (hj : j < y.length) i (hi : i < x.length), m + 1 ≤ i → ys ≤ j → y[j] = x[i] → p ≤ j ∧ y[j] ≠ x[m] := by
    intro j hj i hi h7 h8 h9
    have hlt := hx.getElem_lt (show m < i by omega) hi
    refine ⟨?_, ?_⟩
    · by_contra hc
      have := (hp j hj h8).1 (by omega)
      rw [h9] at this
      exact absurd this (not_lt_of_gt hlt)
    · rw [h9]; exact ne_of_gt hlt
  constructor
  · intro hpe heq
    have hr : common (seg x (m + 1) xe) (seg y ys ye) ≤ common (seg x (m + 1) xe) (seg y (p + 1) ye) := by
      apply common_mono_right
      intro a ha hay
      obtain ⟨i, hi, hi1, hi2, rfl⟩ := mem_seg.mp ha
      obtain ⟨j, hj, hj1, hj2, hji⟩ := mem_seg.mp hay
      obtain ⟨h7, h8⟩ := hright j hj i hi hi1 hj1 hji
      refine mem_seg.mpr ⟨j, hj, ?_, hj2, hji⟩
      rcases Nat.lt_or_ge p j with h | h
      · exact h
      · have : j = p := by omega
        subst this
        exact absurd heq h8
    unfold hamming
    have : (if x[m] ∈ seg y ys ye then 1 else 0) ≤ 1 := by split <;> omega
    omega
  · intro hne
    have hr : common (seg x (m + 1) xe) (seg y ys ye) ≤ common (seg x (m + 1) xe) (seg y p ye) := by
      apply common_mono_right
      intro a ha hay
      obtain ⟨i, hi, hi1, hi2, rfl⟩ := mem_seg.mp ha
      obtain ⟨j, hj, hj1, hj2, hji⟩ := mem_seg.mp hay
      exact mem_seg.mpr ⟨j, hj, (hright j hj i hi hi1 hj1 hji).1, hj2, hji⟩
    have hnot : x[m] ∉ seg y ys ye := by
      intro hm
      obtain ⟨j, hj, hj1, hj2, hji⟩ := mem_seg.mp hm
      have hpj : p ≤ j := by
        by_contra hc
        have := (hp j hj hj1).1 (by omega)
        rw [hji] at this
        exact lt_irrefl _ this
      rcases Nat.lt_or_ge p j with h | h
      · have h7 := (hp p (by omega) h4).2 (le_refl _) (by omega)
        have h8 := hy.getElem_lt h hj
        rw [hji] at h8
        exact absurd h8 (not_lt_of_ge h7)
      · have : j = p := by omega
        subst this
        exact hne hj2 hji
    rw [if_neg hnot] at hc
    unfold hamming
    omega

/-- The distance between two segments. -/
abbrev segDist (x y : List τ) (xs xe ys ye : Nat) : Int := hamming (seg x xs xe) (seg y ys ye)

theorem segDist_ge {x y : List τ} (hx : Increasing x) {xs xe ys ye : Nat} (h1 : xs ≤ xe) (h2 : xe ≤ x.length) (h3 : ys ≤ ye) (h4 : ye ≤ y.length) :
    ((((xe : Int) - xs) - ((ye : Int) - ys)).natAbs : Int) ≤ segDist x y xs xe ys ye := by
  have := natAbs_le_hamming (y := seg y ys ye) (increasing_seg hx xs xe).nodup
  rw [length_seg x h2, length_seg y h4] at this
  rw [Nat.cast_sub h1, Nat.cast_sub h3] at this
  exact this

/-- Where the token is looked for. -/
structure Window (xs xe ys ye : Nat) (hd left right : Int) : Prop where
  left_lt : left < ye
  right_ge : (ys : Int) ≤ right
  ge : ∀ p u : Int, u = ((xe - xs : Nat) : Int) / 2 - (p - ys) →
    ((u.natAbs : Int) + ((((xe : Int) - xs) - ((ye : Int) - ys) - u).natAbs : Int) ≤ hd → left ≤ p ∧ p ≤ right) ∧
    ((u.natAbs : Int) + ((((xe : Int) - xs) - ((ye : Int) - ys) - 1 - u).natAbs : Int) + 1 ≤ hd → left < p ∧ p ≤ right)

theorem window {xs xe ys ye : Nat} {hd : Int} (h1 : xs < xe) (h2 : ys < ye)
    (hhd : ((((xe : Int) - xs) - ((ye : Int) - ys)).natAbs : Int) ≤ hd ∨
      (0 ≤ hd ∧ ∃ r : Int, hd = ((xe : Int) - xs) + ((ye : Int) - ys) - 2 * r)) {left right : Int}
    (h : (left, right) = if (xe : Int) - xs ≥ (ye : Int) - ys then
          ((ys : Int) + ((xe : Int) - xs) / 2 - ((hd - (((xe : Int) - xs) - ((ye : Int) - ys))) / 2 + (((xe : Int) - xs) - ((ye : Int) - ys))),
            (ys : Int) + ((xe : Int) - xs) / 2 + (hd - (((xe : Int) - xs) - ((ye : Int) - ys))) / 2)
        else
          ((ys : Int) + ((xe : Int) - xs) / 2 - (hd - (((ye : Int) - ys) - ((xe : Int) - xs))) / 2,
            (ys : Int) + ((xe : Int) - xs) / 2 + ((hd - (((ye : Int) - ys) - ((xe : Int) - xs))) / 2 + (((ye : Int) - ys) - ((xe : Int) - xs))))) :
    Window xs xe ys ye hd left right := by
  split at h
  · injection h with h3 h4
    refine ⟨?_, ?_, ?_⟩
    · rcases hhd with hhd | ⟨h0, r, hr⟩ <;> omega
    · rcases hhd with hhd | ⟨h0, r, hr⟩ <;> omega
    · intro p u hu
      constructor <;> intro hle <;> omega
  · injection h with h3 h4
    refine ⟨?_, ?_, ?_⟩
    · rcases hhd with hhd | ⟨h0, r, hr⟩ <;> omega
    · rcases hhd with hhd | ⟨h0, r, hr⟩ <;> omega
    · intro p u hu
      constructor <;> intro hle <;> omega

/-- Where a token is. -/
abbrev Place (y : List τ) (token : τ) (ys ye p : Nat) : Prop :=
  ∀ i (_ : i < y.length), ys ≤ i → (i < p → y[i] < token) ∧ (p ≤ i → i < ye → token ≤ y[i])

/-- What is found when looking for the token in the middle. -/
theorem suffixProbe_spec {x y : List τ} (hx : Increasing x) (hy : Increasing y) {xs xe ys ye : Nat} {hd : Int} (h1 : xs < xe)
    (h2 : xe ≤ x.length) (h3 : ys < ye) (h4 : ye ≤ y.length)
    (hhd : ((((xe : Int) - xs) - ((ye : Int) - ys)).natAbs : Int) ≤ hd ∨
      (0 ≤ hd ∧ ∃ r : Int, hd = ((xe : Int) - xs) + ((ye : Int) - ys) - 2 * r)) (hm : xs + (xe - xs) / 2 < x.length) :
    (suffixProbe x y xs xe ys ye hd = .ok none ∧ hd < segDist x y xs xe ys ye) ∨
    ∃ (p : Nat) (found : Bool), suffixProbe x y xs xe ys ye hd = .ok (some ((p : Int), found)) ∧ ys ≤ p ∧ p ≤ ye ∧
      (found = true → ∃ h : p < ye, y[p] = x[xs + (xe - xs) / 2]) ∧ (found = false → ∀ h : p < ye, y[p] ≠ x[xs + (xe - xs) / 2]) ∧
      (segDist x y xs xe ys ye ≤ hd → Place y x[xs + (xe - xs) / 2] ys ye p) := by
  obtain ⟨left, right, hlr⟩ : ∃ left right, (left, right) = suffixWindow xs xe ys ye hd := ⟨_, _, rfl⟩
  have hW := window h1 h3 hhd (left := left) (right := right) (by rw [hlr]; rfl)
  have hl : (suffixWindow xs xe ys ye hd).1 = left := by rw [← hlr]
  have hr : (suffixWindow xs xe ys ye hd).2 = right := by rw [← hlr]
  have hmid : (xs : Int) + ((xe : Int) - xs) / 2 = ((xs + (xe - xs) / 2 : Nat) : Int) := by omega
  -- where the token is
  obtain ⟨p, hp1, hp2, hp⟩ := exists_place hy x[xs + (xe - xs) / 2] h3.le h4
  have hsplit := hamming_split hx hy (xs := xs) (m := xs + (xe - xs) / 2) (xe := xe) (by omega) (by omega) h2 hp1 hp2 h4 hp
  have hin : segDist x y xs xe ys ye ≤ hd → (left ≤ p ∧ p ≤ right) ∧ ((∀ h : p < ye, y[p] ≠ x[xs + (xe - xs) / 2]) → left < p) := by
    intro hle
    have hA := segDist_ge hx (y := y) (xs := xs) (xe := xs + (xe - xs) / 2) (by omega) (by omega) hp1 (hp2.trans h4)
    have hW' := hW.ge p (((xe - xs : Nat) : Int) / 2 - (p - ys)) rfl
    by_cases hf : ∃ h : p < ye, y[p] = x[xs + (xe - xs) / 2]
    · obtain ⟨hf1, hf2⟩ := hf
      have hB := segDist_ge hx (y := y) (xs := xs + (xe - xs) / 2 + 1) (xe := xe) (by omega) h2 (ys := p + 1) hf1 h4
      have := hsplit.1 hf1 hf2
      refine ⟨hW'.1 ?_, fun h => absurd hf2 (h hf1)⟩
      unfold segDist at hA hB hle
      omega
    · have hf' : ∀ h : p < ye, y[p] ≠ x[xs + (xe - xs) / 2] := fun h he => hf ⟨h, he⟩
      have hB := segDist_ge hx (y := y) (xs := xs + (xe - xs) / 2 + 1) (xe := xe) (by omega) h2 hp2 h4
      have := hsplit.2 hf'
      have h5 := hW'.2 (by
        unfold segDist at hA hB hle
        omega)
      exact ⟨⟨h5.1.le, h5.2⟩, fun _ => h5.1⟩
  -- the ends of the window
  obtain ⟨bl, hbl, hbl'⟩ : ∃ bl : Bool, suffixTest (decide (left ≥ (ys : Int))) y left (fun v => decide (v > x[xs + (xe - xs) / 2])) = .ok bl ∧
      (bl = true → hd < segDist x y xs xe ys ye) := by
    unfold suffixTest
    by_cases hc : left ≥ (ys : Int)
    · obtain ⟨l, rfl⟩ : ∃ l : Nat, left = l := ⟨left.toNat, by omega⟩
      have hlt := hW.left_lt
      have hll : l < y.length := by omega
      rw [if_pos (by simpa using hc), pyGet_nat hll]
      refine ⟨_, rfl, fun hb => ?_⟩
      have hb := of_decide_eq_true hb
      by_contra hn
      obtain ⟨h5, h6⟩ := hin (by omega)
      have hpl : p = l := by
        by_contra hne
        exact absurd ((hp l hll (by omega)).1 (by omega)) (not_lt_of_gt hb)
      subst hpl
      have := h6 fun _ he => absurd he (ne_of_gt hb)
      omega
    · rw [if_neg (by simpa using hc)]
      exact ⟨false, rfl, by simp⟩
  obtain ⟨br, hbr, hbr'⟩ : ∃ br : Bool, suffixTest (decide (right < (ye : Int))) y right (fun v => decide (v < x[xs + (xe - xs) / 2])) = .ok br ∧
      (br = true → hd < segDist x y xs xe ys ye) := by
    unfold suffixTest
    by_cases hc : right < (ye : Int)
    · have hge := hW.right_ge
      obtain ⟨l, rfl⟩ : ∃ l : Nat, right = l := ⟨right.toNat, by omega⟩
      have hll : l < y.length := by omega
      rw [if_pos (by simpa using hc), pyGet_nat hll]
      refine ⟨_, rfl, fun hb => ?_⟩
      have hb := of_decide_eq_true hb
      by_contra hn
      obtain ⟨h5, -⟩ := hin (by omega)
      exact absurd hb (not_lt_of_ge ((hp l hll (by omega)).2 (by omega) (by omega)))
    · rw [if_neg (by simpa using hc)]
      exact ⟨false, rfl, by simp⟩
  unfold suffixProbe
  rw [hl, hr, hmid, pyGet_nat hm]
  simp only
  rw [hbl]
  cases bl with
  | true => exact Or.inl ⟨rfl, hbl' rfl⟩
  | false =>
  simp only
  rw [hbr]
  cases br with
  | true => exact Or.inl ⟨rfl, hbr' rfl⟩
  | false =>
      right
      simp only
      have hlt := hW.left_lt
      have hge := hW.right_ge
      obtain ⟨sl, hsl⟩ : ∃ sl : Nat, (if left ≥ (ys : Int) then left else (ys : Int)) = sl := by
        split
        · exact ⟨left.toNat, by omega⟩
        · exact ⟨ys, rfl⟩
      obtain ⟨sr, hsr⟩ : ∃ sr : Nat, (if right + 1 < (ye : Int) then right + 1 else (ye : Int)) = sr := by
        split
        · exact ⟨(right + 1).toNat, by omega⟩
        · exact ⟨ye, rfl⟩
      rw [hsl, hsr]
      have hsr' : sr ≤ ye := by split at hsr <;> omega
      have hsl' : ys ≤ sl ∧ sl < ye := by split at hsl <;> omega
      obtain ⟨q, hq, hq1, hq2, hq3⟩ := bisectLoop_spec x[xs + (xe - xs) / 2] (hsr'.trans h4) sl
      have hq3 := hq3 hy
      unfold bisectLeft
      rw [if_neg (by omega), hq]
      simp only
      have hqy : q ≤ ye := by omega
      have hplace : segDist x y xs xe ys ye ≤ hd → Place y x[xs + (xe - xs) / 2] ys ye q := by
        intro hle
        obtain ⟨h5, -⟩ := hin hle
        have hsp : sl ≤ p := by split at hsl <;> omega
        have hps : p ≤ sr := by split at hsr <;> omega
        have : q = p := by
          rcases Nat.lt_trichotomy q p with h6 | h6 | h6
          · have h7 := (hq3 (p - 1) (by omega) (by omega)).2 (by omega) (by omega)
            have h8 := (hp (p - 1) (by omega) (by omega)).1 (by omega)
            exact absurd h8 (not_lt_of_ge h7)
          · exact h6
          · have h7 := (hq3 (q - 1) (by omega) (by omega)).1 (by omega)
            have h8 := (hp (q - 1) (by omega) (by omega)).2 (by omega) (by omega)
            exact absurd h7 (not_lt_of_ge h8)
        rw [this]
        exact hp
      by_cases hqe : (q : Int) < (ye : Int)
      · have hql : q < y.length := by omega
        rw [suffixTest, if_pos (by simpa using hqe), pyGet_nat hql]
        refine ⟨q, decide (y[q] = x[xs + (xe - xs) / 2]), rfl, by omega, hqy, fun h => ⟨by omega, of_decide_eq_true h⟩,
          fun h _ => of_decide_eq_false h, hplace⟩
      · rw [suffixTest, if_neg (by simpa using hqe)]
        exact ⟨q, false, rfl, by omega, hqy, by simp, fun _ h => by omega, hplace⟩

/-- The suffix filter raises nothing and, when the distance is not more than `hd`, returns at most the distance. -/
theorem suffixFilter_spec {x y : List τ} (hx : Increasing x) (hy : Increasing y) (d : Nat) : ∀ {xs xe ys ye : Nat} {hd : Int}, xs ≤ xe →
    xe ≤ x.length → ys ≤ ye → ye ≤ y.length →
    (((((xe : Int) - xs) - ((ye : Int) - ys)).natAbs : Int) ≤ hd ∨
      (0 ≤ hd ∧ ∃ r : Int, hd = ((xe : Int) - xs) + ((ye : Int) - ys) - 2 * r)) →
    ∃ r, suffixFilter x y d xs xe ys ye hd = .ok r ∧ (segDist x y xs xe ys ye ≤ hd → r ≤ segDist x y xs xe ys ye) := by
  induction d with
  | zero =>
      intro xs xe ys ye hd h1 h2 h3 h4 hhd
      rw [suffixFilter.eq_def]
      by_cases hempty : (xe : Int) ≤ xs ∨ (ye : Int) ≤ ys
      · rw [if_pos hempty]
        exact ⟨_, rfl, fun _ => segDist_ge hx h1 h2 h3 h4⟩
      rw [if_neg hempty]
      have hm : xs + (xe - xs) / 2 < x.length := by omega
      have hmid : (xs : Int) + ((xe : Int) - xs) / 2 = ((xs + (xe - xs) / 2 : Nat) : Int) := by omega
      rcases suffixProbe_spec hx hy (by omega) h2 (by omega) h4 hhd hm with ⟨hp, hlt⟩ | ⟨p, found, hp, hp1, hp2, hp3, hp4, hp5⟩
      · rw [hp]
        exact ⟨_, rfl, fun h => absurd hlt (not_lt_of_ge h)⟩
      rw [hp]
      have hA := segDist_ge hx (y := y) (xs := xs) (xe := xs + (xe - xs) / 2) (by omega) (by omega) hp1 (hp2.trans h4)
      cases found with
      | true =>
          obtain ⟨hf1, hf2⟩ := hp3 rfl
          have hB := segDist_ge hx (y := y) (xs := xs + (xe - xs) / 2 + 1) (xe := xe) (by omega) h2 (ys := p + 1) hf1 h4
          have hsplit := fun h => (hamming_split hx hy (xs := xs) (m := xs + (xe - xs) / 2) (xe := xe) (by omega) (by omega) h2 hp1 hp2 h4 (hp5 h)).1 hf1 hf2
          simp only [hmid, ite_self]
          refine ⟨_, rfl, fun h => ?_⟩
          have := hsplit h
          unfold segDist at *
          omega
      | false =>
          have hf := hp4 rfl
          have hB := segDist_ge hx (y := y) (xs := xs + (xe - xs) / 2 + 1) (xe := xe) (by omega) h2 (ys := p) hp2 h4
          have hsplit := fun h => (hamming_split hx hy (xs := xs) (m := xs + (xe - xs) / 2) (xe := xe) (by omega) (by omega) h2 hp1 hp2 h4 (hp5 h)).2 hf
          simp only [hmid, ite_self]
          refine ⟨_, rfl, fun h => ?_⟩
          have := hsplit h
          unfold segDist at *
          omega
  | succ d ih =>
      intro xs xe ys ye hd h1 h2 h3 h4 hhd
      rw [suffixFilter.eq_def]
      by_cases hempty : (xe : Int) ≤ xs ∨ (ye : Int) ≤ ys
      · rw [if_pos hempty]
        exact ⟨_, rfl, fun _ => segDist_ge hx h1 h2 h3 h4⟩
      rw [if_neg hempty]
      have hm : xs + (xe - xs) / 2 < x.length := by omega
      have hmid : (xs : Int) + ((xe : Int) - xs) / 2 = ((xs + (xe - xs) / 2 : Nat) : Int) := by omega
      rcases suffixProbe_spec hx hy (by omega) h2 (by omega) h4 hhd hm with ⟨hp, hlt⟩ | ⟨p, found, hp, hp1, hp2, hp3, hp4, hp5⟩
      · rw [hp]
        exact ⟨_, rfl, fun h => absurd hlt (not_lt_of_ge h)⟩
      rw [hp]
      have hA := segDist_ge hx (y := y) (xs := xs) (xe := xs + (xe - xs) / 2) (by omega) (by omega) hp1 (hp2.trans h4)
      cases found with
      | true =>
          obtain ⟨hf1, hf2⟩ := hp3 rfl
          have hB := segDist_ge hx (y := y) (xs := xs + (xe - xs) / 2 + 1) (xe := xe) (by omega) h2 (ys := p + 1) hf1 h4
          have hsplit := fun h => (hamming_split hx hy (xs := xs) (m := xs + (xe - xs) / 2) (xe := xe) (by omega) (by omega) h2 hp1 hp2 h4 (hp5 h)).1 hf1 hf2
          simp only [hmid]
          generalize hbl : (((((xs + (xe - xs) / 2 : Nat) : Int) - xs) - ((p : Int) - ys)).natAbs : Int) = bl at hA ⊢
          generalize hbr : ((((xe : Int) - ((xs + (xe - xs) / 2 : Nat) : Int) - 1) - ((ye : Int) - p - 1)).natAbs : Int) = br at ⊢
          have hB' : br ≤ segDist x y (xs + (xe - xs) / 2 + 1) xe (p + 1) ye := by
            refine le_trans (le_of_eq ?_) hB
            rw [← hbr]
            omega
          by_cases hgt : bl + br > hd
          · rw [if_pos hgt]
            refine ⟨_, rfl, fun h => ?_⟩
            have := hsplit h
            unfold segDist at *
            omega
          rw [if_neg hgt]
          obtain ⟨l, hl, hl'⟩ := ih (xs := xs) (xe := xs + (xe - xs) / 2) (ys := ys) (ye := p) (hd := hd - br) (by omega) (by omega) hp1 (by omega)
            (Or.inl (by omega))
          rw [hl]
          simp only
          by_cases hgt2 : l + br > hd
          · rw [if_pos hgt2]
            refine ⟨_, rfl, fun h => ?_⟩
            have := hsplit h
            have := hl' (by unfold segDist at *; omega)
            unfold segDist at *
            omega
          rw [if_neg hgt2]
          obtain ⟨r, hr, hr'⟩ := ih (xs := xs + (xe - xs) / 2 + 1) (xe := xe) (ys := p + 1) (ye := ye) (hd := hd - l) (by omega) h2 hf1 h4
            (Or.inl (by omega))
          have hr0 : suffixFilter x y d (((xs + (xe - xs) / 2 : Nat) : Int) + 1) xe ((p : Int) + 1) ye (hd - l) = .ok r := by
            rw [← hr]; push_cast; rfl
          rw [hr0]
          refine ⟨_, rfl, fun h => ?_⟩
          have h5 := hsplit h
          have h6 := hl' (by unfold segDist at *; omega)
          have h7 := hr' (by unfold segDist at *; omega)
          unfold segDist at *
          omega
      | false =>
          have hf := hp4 rfl
          have hB := segDist_ge hx (y := y) (xs := xs + (xe - xs) / 2 + 1) (xe := xe) (by omega) h2 (ys := p) hp2 h4
          have hsplit := fun h => (hamming_split hx hy (xs := xs) (m := xs + (xe - xs) / 2) (xe := xe) (by omega) (by omega) h2 hp1 hp2 h4 (hp5 h)).2 hf
          simp only [hmid]
          generalize hbl : (((((xs + (xe - xs) / 2 : Nat) : Int) - xs) - ((p : Int) - ys)).natAbs : Int) = bl at hA ⊢
          generalize hbr : ((((xe : Int) - ((xs + (xe - xs) / 2 : Nat) : Int) - 1) - ((ye : Int) - p)).natAbs : Int) = br at ⊢
          have hB' : br ≤ segDist x y (xs + (xe - xs) / 2 + 1) xe p ye := by
            refine le_trans (le_of_eq ?_) hB
            rw [← hbr]
            omega
          by_cases hgt : bl + br + 1 > hd
          · rw [if_pos hgt]
            refine ⟨_, rfl, fun h => ?_⟩
            have := hsplit h
            unfold segDist at *
            omega
          rw [if_neg hgt]
          obtain ⟨l, hl, hl'⟩ := ih (xs := xs) (xe := xs + (xe - xs) / 2) (ys := ys) (ye := p) (hd := hd - br - 1) (by omega) (by omega) hp1
            (by omega) (Or.inl (by omega))
          rw [hl]
          simp only
          by_cases hgt2 : l + br + 1 > hd
          · rw [if_pos hgt2]
            refine ⟨_, rfl, fun h => ?_⟩
            have := hsplit h
            have := hl' (by unfold segDist at *; omega)
            unfold segDist at *
            omega
          rw [if_neg hgt2]
          obtain ⟨r, hr, hr'⟩ := ih (xs := xs + (xe - xs) / 2 + 1) (xe := xe) (ys := p) (ye := ye) (hd := hd - l - 1) (by omega) h2 hp2 h4
            (Or.inl (by omega))
          have hr0 : suffixFilter x y d (((xs + (xe - xs) / 2 : Nat) : Int) + 1) xe p ye (hd - l - 1) = .ok r := by
            rw [← hr]; push_cast; rfl
          rw [hr0]
          refine ⟨_, rfl, fun h => ?_⟩
          have h5 := hsplit h
          have h6 := hl' (by unfold segDist at *; omega)
          have h7 := hr' (by unfold segDist at *; omega)
          unfold segDist at *
          omega

end Fog.Ppjoin
