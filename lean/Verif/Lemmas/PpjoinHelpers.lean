import Verif.Lemmas.Ppjoin
import Mathlib.Algebra.Order.Floor.Ring
import Mathlib.Tactic.Linarith
import Mathlib.Tactic.Positivity
import Mathlib.Tactic.FieldSimp

/-! # The three metric helpers of ppjoin are lawful -/

namespace Fog.Ppjoin

variable {K : Type _} [Field K] [LinearOrder K] [IsStrictOrderedRing K] [FloorRing K]

theorem epsilon_pos : (0 : K) < epsilon := by unfold epsilon; positivity

theorem epsilon_lt_one : (epsilon : K) < 1 := by
  unfold epsilon
  rw [div_lt_one (by positivity)]
  norm_num

theorem le_pyInt {z : Int} {x : K} (hx : 0 ≤ x) : z ≤ pyInt x ↔ (z : K) ≤ x := by
  unfold pyInt; rw [if_pos hx]; exact Int.le_floor

theorem pyInt_mono {x y : K} (hx : 0 ≤ x) (hxy : x ≤ y) : pyInt x ≤ pyInt y := by
  unfold pyInt; rw [if_pos hx, if_pos (hx.trans hxy)]; exact Int.floor_le_floor hxy

theorem pyInt_le {z : Int} {x : K} (hx : 0 ≤ x) (h : x < (z : K) + 1) : pyInt x ≤ z := by
  unfold pyInt; rw [if_pos hx]
  have h1 : ⌊x⌋ < z + 1 := by rw [Int.floor_lt]; push_cast; exact h
  omega

theorem threshold_lt_index {t : K} (ht : t < 1) {z : Int} (hz : 1 ≤ z) : t < (z : K) :=
  lt_of_lt_of_le ht (by exact_mod_cast hz)

/-- `JaccardHelper` for thresholds between zero and one, and records long enough. -/
theorem jaccard_lawful_between {t : K} (ht : 0 < t) (h1 : t < 1) {L : Nat} (hL : 1 ≤ L) (h0 : epsilon < t * L) (N : Nat) :
    LawfulBetween L N (jaccardHelper t) (fun l1 l2 o => t ≤ (o : K) / ((l1 : K) + l2 - o)) := by
  have he : (0 : K) < epsilon := epsilon_pos
  have ha : 0 ≤ 1 - 2 * t / (1 + t) := by
    rw [sub_nonneg, div_le_one (by linarith)]; linarith
  have hab : 1 - 2 * t / (1 + t) ≤ 1 - t := by
    have : t ≤ 2 * t / (1 + t) := by
      rw [le_div_iff₀ (by linarith)]; nlinarith
    linarith
  have hidx : ∀ l : Nat, 1 ≤ (jaccardHelper t).indexLength l := by
    intro l
    have hl : (0 : K) ≤ (l : K) := Nat.cast_nonneg l
    have := mul_nonneg ha hl
    simp only [jaccardHelper]
    rw [le_pyInt (by linarith)]
    push_cast
    linarith
  refine ⟨?_, fun l _ _ => hidx l, ?_, ?_, ?_, ?_⟩
  · intro l _ _
    exact threshold_lt_index h1 (hidx l)
  · intro l _ _
    have hl : (0 : K) ≤ (l : K) := Nat.cast_nonneg l
    have := mul_nonneg ha hl
    have := mul_le_mul_of_nonneg_right hab hl
    exact pyInt_mono (by linarith) (by linarith)
  · intro l hl1 _
    have hl : (L : K) ≤ (l : K) := by exact_mod_cast hl1
    have hl0 : (0 : K) ≤ (l : K) := Nat.cast_nonneg l
    have h2 : t * L ≤ t * (l : K) := mul_le_mul_of_nonneg_left hl ht.le
    have h3 : 0 ≤ (1 - t) * (l : K) := mul_nonneg (by linarith) (by linarith)
    apply pyInt_le
    · linarith
    · push_cast; linarith
  · intro l l' hl _
    have hl' : (l : K) ≤ (l' : K) := by exact_mod_cast hl
    apply Int.ceil_le_ceil
    have := mul_le_mul_of_nonneg_right hl' ht.le
    linarith
  · intro l1 l2 o ho hl hl2' _ hs
    have hl2 := hL.trans hl2'
    have c1 : (o : K) ≤ (l2 : K) := by exact_mod_cast ho
    have c2 : (l2 : K) ≤ (l1 : K) := by exact_mod_cast hl
    have c3 : (1 : K) ≤ (l2 : K) := by exact_mod_cast hl2
    have hd : 0 < (l1 : K) + l2 - o := by linarith
    rw [le_div_iff₀ hd] at hs
    have p1 : t * (l1 : K) ≤ t * ((l1 : K) + l2 - o) := mul_le_mul_of_nonneg_left (by linarith) ht.le
    have p2 : t * (l2 : K) ≤ t * ((l1 : K) + l2 - o) := mul_le_mul_of_nonneg_left (by linarith) ht.le
    have p3 : 0 < t * (l1 : K) := mul_pos ht (by linarith)
    have hopos : (0 : K) < (o : K) := by linarith
    refine ⟨by exact_mod_cast hopos, ?_, ?_, ?_, ?_, ?_⟩
    · simp only [jaccardHelper]
      rw [Int.ceil_le]; push_cast; linarith
    · simp only [jaccardHelper]
      rw [le_pyInt]
      · push_cast; linarith
      · have : 0 ≤ (1 - t) * (l1 : K) := mul_nonneg (by linarith) (by linarith)
        linarith
    · simp only [jaccardHelper]
      rw [le_pyInt]
      · push_cast; linarith
      · have : 0 ≤ (1 - t) * (l2 : K) := mul_nonneg (by linarith) (by linarith)
        linarith
    · simp only [jaccardHelper]
      rw [Int.ceil_le]
      have : t / (1 + t) * ((l1 : K) + l2) ≤ (o : K) := by
        rw [div_mul_eq_mul_div, div_le_iff₀ (by linarith)]
        linarith
      push_cast; linarith
    · simp only [jaccardHelper]
      have : t ≤ (o : K) / ((l1 : K) + l2 - o) := by rw [le_div_iff₀ hd]; exact hs
      push_cast; linarith

/-- `JaccardHelper` for thresholds above epsilon and below one. -/
theorem jaccard_lawful {t : K} (h0 : epsilon < t) (h1 : t < 1) :
    Lawful (jaccardHelper t) (fun l1 l2 o => t ≤ (o : K) / ((l1 : K) + l2 - o)) :=
  Lawful.of_upTo fun N => jaccard_lawful_between (epsilon_pos.trans h0) h1 le_rfl (by simpa using h0) N

/-- `DiceHelper` for thresholds between zero and one, and records long enough. -/
theorem dice_lawful_between {t : K} (ht : 0 < t) (h1 : t < 1) {L : Nat} (hL : 1 ≤ L) (hu0 : epsilon < t / (2 - t) * L) (N : Nat) :
    LawfulBetween L N (diceHelper t) (fun l1 l2 o => t ≤ 2 * (o : K) / ((l1 : K) + l2)) := by
  have he : (0 : K) < epsilon := epsilon_pos
  have h2t : 0 < 2 - t := by linarith
  have hu : t / (2 - t) ≤ t := by rw [div_le_iff₀ h2t]; nlinarith
  have hq0 : 0 < t / (2 - t) := div_pos ht h2t
  have hidx : ∀ l : Nat, 1 ≤ (diceHelper t).indexLength l := by
    intro l
    have hl : (0 : K) ≤ (l : K) := Nat.cast_nonneg l
    have : 0 ≤ (1 - t) * (l : K) := mul_nonneg (by linarith) hl
    simp only [diceHelper]
    rw [le_pyInt (by linarith)]
    push_cast
    linarith
  refine ⟨?_, fun l _ _ => hidx l, ?_, ?_, ?_, ?_⟩
  · intro l _ _
    exact threshold_lt_index h1 (hidx l)
  · intro l _ _
    have hl : (0 : K) ≤ (l : K) := Nat.cast_nonneg l
    have h2 : 0 ≤ (1 - t) * (l : K) := mul_nonneg (by linarith) hl
    have h3 : (1 - t) * (l : K) ≤ (1 - t / (2 - t)) * (l : K) := mul_le_mul_of_nonneg_right (by linarith) hl
    exact pyInt_mono (by linarith) (by linarith)
  · intro l hl1 _
    have hl : (L : K) ≤ (l : K) := by exact_mod_cast hl1
    have hl0 : (0 : K) ≤ (l : K) := Nat.cast_nonneg l
    have h2 : t / (2 - t) * L ≤ t / (2 - t) * (l : K) := mul_le_mul_of_nonneg_left hl (by linarith)
    have h3 : 0 ≤ (1 - t / (2 - t)) * (l : K) := mul_nonneg (by linarith) (by linarith)
    apply pyInt_le
    · linarith
    · push_cast; linarith
  · intro l l' hl _
    have hl' : (l : K) ≤ (l' : K) := by exact_mod_cast hl
    apply Int.ceil_le_ceil
    have h2 := mul_le_mul_of_nonneg_right hl' ht.le
    have := div_le_div_of_nonneg_right h2 h2t.le
    linarith
  · intro l1 l2 o ho hl hl2' _ hs
    have hl2 := hL.trans hl2'
    have c1 : (o : K) ≤ (l2 : K) := by exact_mod_cast ho
    have c2 : (l2 : K) ≤ (l1 : K) := by exact_mod_cast hl
    have c3 : (1 : K) ≤ (l2 : K) := by exact_mod_cast hl2
    have hd : 0 < (l1 : K) + l2 := by linarith
    have hs' := hs
    rw [le_div_iff₀ hd] at hs
    have p3 : 0 < t * ((l1 : K) + l2) := mul_pos ht hd
    have hopos : (0 : K) < (o : K) := by linarith
    -- o (2 - t) ≥ t l
    have q : ∀ l l' : K, (o : K) ≤ l' → t * (l + l') ≤ 2 * (o : K) → t / (2 - t) * l ≤ o := by
      intro l l' hol hle
      rw [div_mul_eq_mul_div, div_le_iff₀ h2t]
      have := mul_le_mul_of_nonneg_left hol ht.le
      linarith
    have q1 := q l1 l2 c1 hs
    have q2 := q l2 l1 (c1.trans c2) (by linarith)
    have r1 : 0 ≤ (1 - t / (2 - t)) * (l1 : K) := mul_nonneg (by linarith) (by linarith)
    have r2 : 0 ≤ (1 - t / (2 - t)) * (l2 : K) := mul_nonneg (by linarith) (by linarith)
    refine ⟨by exact_mod_cast hopos, ?_, ?_, ?_, ?_, ?_⟩
    · simp only [diceHelper]
      have : (l1 : K) * t / (2 - t) = t / (2 - t) * l1 := by ring
      rw [Int.ceil_le, this]; push_cast; linarith
    · simp only [diceHelper]
      rw [le_pyInt]
      · push_cast; linarith
      · linarith
    · simp only [diceHelper]
      rw [le_pyInt]
      · push_cast; linarith
      · linarith
    · simp only [diceHelper]
      rw [Int.ceil_le]
      push_cast; linarith
    · simp only [diceHelper]
      push_cast; linarith

/-- `DiceHelper` for thresholds above twice epsilon and below one. -/
theorem dice_lawful {t : K} (h0 : 2 * epsilon < t) (h1 : t < 1) :
    Lawful (diceHelper t) (fun l1 l2 o => t ≤ 2 * (o : K) / ((l1 : K) + l2)) := by
  have he : (0 : K) < epsilon := epsilon_pos
  have ht : 0 < t := by linarith
  have hu0 : epsilon < t / (2 - t) := by rw [lt_div_iff₀ (by linarith)]; nlinarith
  exact Lawful.of_upTo fun N => dice_lawful_between ht h1 le_rfl (by simpa using hu0) N

/-- `BinaryCosineHelper` for thresholds between zero and one, and records long enough. -/
theorem binaryCosine_lawful_between {t : ℝ} (h0 : 0 < t) (h1 : t < 1) {L : Nat} (hL : 1 ≤ L) (h0' : epsilon < t * t * L) (N : Nat) :
    LawfulBetween L N (binaryCosineHelper t) (fun l1 l2 o => t ≤ (o : ℝ) / Real.sqrt ((l1 : ℝ) * l2)) := by
  have he : (0 : ℝ) < epsilon := epsilon_pos
  have htt : t * t ≤ t := by nlinarith
  have hidx : ∀ l : Nat, 1 ≤ (binaryCosineHelper t).indexLength l := by
    intro l
    have hl : (0 : ℝ) ≤ (l : ℝ) := Nat.cast_nonneg l
    have : 0 ≤ (1 - t) * (l : ℝ) := mul_nonneg (by linarith) hl
    simp only [binaryCosineHelper]
    rw [le_pyInt (by linarith)]
    push_cast
    linarith
  refine ⟨?_, fun l _ _ => hidx l, ?_, ?_, ?_, ?_⟩
  · intro l _ _
    exact threshold_lt_index h1 (hidx l)
  · intro l _ _
    have hl : (0 : ℝ) ≤ (l : ℝ) := Nat.cast_nonneg l
    have h2 : 0 ≤ (1 - t) * (l : ℝ) := mul_nonneg (by linarith) hl
    have h3 : (1 - t) * (l : ℝ) ≤ (1 - t * t) * (l : ℝ) := mul_le_mul_of_nonneg_right (by linarith) hl
    exact pyInt_mono (by linarith) (by linarith)
  · intro l hl1 _
    have hl : (L : ℝ) ≤ (l : ℝ) := by exact_mod_cast hl1
    have hl0 : (0 : ℝ) ≤ (l : ℝ) := Nat.cast_nonneg l
    have h2 : t * t * L ≤ t * t * (l : ℝ) := mul_le_mul_of_nonneg_left hl (by positivity)
    have h3 : 0 ≤ (1 - t * t) * (l : ℝ) := mul_nonneg (by linarith) (by linarith)
    apply pyInt_le
    · linarith
    · push_cast; linarith
  · intro l l' hl _
    have hl' : (l : ℝ) ≤ (l' : ℝ) := by exact_mod_cast hl
    apply Int.ceil_le_ceil
    have h2 := mul_le_mul_of_nonneg_right hl' h0.le
    have h3 := mul_le_mul_of_nonneg_right h2 h0.le
    linarith
  · intro l1 l2 o ho hl hl2' _ hs
    have hl2 := hL.trans hl2'
    have c1 : (o : ℝ) ≤ (l2 : ℝ) := by exact_mod_cast ho
    have c2 : (l2 : ℝ) ≤ (l1 : ℝ) := by exact_mod_cast hl
    have c3 : (1 : ℝ) ≤ (l2 : ℝ) := by exact_mod_cast hl2
    have hd0 : 0 < (l1 : ℝ) * l2 := mul_pos (by linarith) (by linarith)
    have hd : 0 < Real.sqrt ((l1 : ℝ) * l2) := Real.sqrt_pos.mpr hd0
    have hs' := hs
    rw [le_div_iff₀ hd] at hs
    have hopos : (0 : ℝ) < (o : ℝ) := lt_of_lt_of_le (mul_pos h0 hd) hs
    -- t² l1 l2 ≤ o²
    have hsq : t * t * ((l1 : ℝ) * l2) ≤ o * o := by
      have h2 := mul_self_le_mul_self (mul_pos h0 hd).le hs
      have h3 : Real.sqrt ((l1 : ℝ) * l2) * Real.sqrt ((l1 : ℝ) * l2) = (l1 : ℝ) * l2 := Real.mul_self_sqrt hd0.le
      calc t * t * ((l1 : ℝ) * l2) = t * t * (Real.sqrt ((l1 : ℝ) * l2) * Real.sqrt ((l1 : ℝ) * l2)) := by rw [h3]
        _ = t * Real.sqrt ((l1 : ℝ) * l2) * (t * Real.sqrt ((l1 : ℝ) * l2)) := by ring
        _ ≤ o * o := h2
    have q : ∀ l l' : ℝ, 0 < l' → (o : ℝ) ≤ l' → t * t * (l * l') ≤ o * o → t * t * l ≤ o := by
      intro l l' hl' hol hle
      have h2 : (o : ℝ) * o ≤ o * l' := mul_le_mul_of_nonneg_left hol hopos.le
      have h3 : t * t * l * l' ≤ o * l' := by linarith
      exact le_of_mul_le_mul_right h3 hl'
    have q1 := q l1 l2 (by linarith) c1 hsq
    have q2 := q l2 l1 (by linarith) (c1.trans c2) (by rw [mul_comm (l2 : ℝ)]; exact hsq)
    have r1 : 0 ≤ (1 - t * t) * (l1 : ℝ) := mul_nonneg (by linarith) (by linarith)
    have r2 : 0 ≤ (1 - t * t) * (l2 : ℝ) := mul_nonneg (by linarith) (by linarith)
    refine ⟨by exact_mod_cast hopos, ?_, ?_, ?_, ?_, ?_⟩
    · simp only [binaryCosineHelper]
      have : (l1 : ℝ) * t * t = t * t * l1 := by ring
      rw [Int.ceil_le, this]; push_cast; linarith
    · simp only [binaryCosineHelper]
      rw [le_pyInt]
      · push_cast; linarith
      · linarith
    · simp only [binaryCosineHelper]
      rw [le_pyInt]
      · push_cast; linarith
      · linarith
    · simp only [binaryCosineHelper]
      rw [Int.ceil_le]
      push_cast; linarith
    · simp only [binaryCosineHelper]
      push_cast; linarith

/-- `BinaryCosineHelper` for thresholds whose square is above epsilon and below one. -/
theorem binaryCosine_lawful {t : ℝ} (h0 : 0 < t) (h0' : epsilon < t * t) (h1 : t < 1) :
    Lawful (binaryCosineHelper t) (fun l1 l2 o => t ≤ (o : ℝ) / Real.sqrt ((l1 : ℝ) * l2)) :=
  Lawful.of_upTo fun N => binaryCosine_lawful_between h0 h1 le_rfl (by simpa using h0') N

end Fog.Ppjoin
