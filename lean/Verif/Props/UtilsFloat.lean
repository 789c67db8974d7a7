import Verif.Model.UtilsFloat
import Verif.Lemmas.Binary64Sums
import Mathlib.Algebra.Order.BigOperators.Group.Multiset

/-!
# C130: `OnlineMean` in double precision
-/

namespace Fog.Props

open Fog.Spec
open Fog.Utils (OnlineMean)

variable {fl : ℝ → ℝ}

/-- `m` is the result of `k` additions, removals and merges, after which the values `s` are held. The values are in `P`; `W` is the sum of
the absolute values of all those which were added or removed. -/
inductive Averaged (fl : ℝ → ℝ) (P : ℝ → Prop) : OnlineMean ℝ → Multiset ℝ → Nat → ℝ → Prop
  | new : Averaged fl P OnlineMean.new 0 0 0
  | add {m s k W} (x : ℝ) : P x → Averaged fl P m s k W → Averaged fl P (UtilsFloat.add fl m x) (x ::ₘ s) (k + 1) (W + |x|)
  | subtract {m m' s k W} (x : ℝ) : P x → Averaged fl P m (x ::ₘ s) k W → UtilsFloat.subtract fl m x = .ok m' → Averaged fl P m' s (k + 1) (W + |x|)
  | iadd {m s k W m' s' k' W'} : Averaged fl P m s k W → Averaged fl P m' s' k' W' →
      Averaged fl P (UtilsFloat.iadd fl m m') (s + s') (k + k' + 1) (W + W')
  | plus {m s k W m' s' k' W'} : Averaged fl P m s k W → Averaged fl P m' s' k' W' →
      Averaged fl P (UtilsFloat.plus fl m m') (s + s') (k + k' + 1) (W + W')

theorem averaged_n {P : ℝ → Prop} {m : OnlineMean ℝ} {s : Multiset ℝ} {k : Nat} {W : ℝ} (h : Averaged fl P m s k W) :
    m.n = s.card ∧ |s.sum| ≤ W := by
  induction h with
  | new => simp [OnlineMean.new]
  | add x _ _ ih =>
      refine ⟨by simp [UtilsFloat.add, ih.1], ?_⟩
      rw [Multiset.sum_cons, add_comm]
      exact (abs_add_le _ _).trans (by linarith [ih.2])
  | @subtract m m' s k W x _ _ hm ih =>
      unfold UtilsFloat.subtract at hm
      split at hm
      · simp at hm
      · simp only [Except.ok.injEq] at hm
        subst hm
        refine ⟨by simp [ih.1], ?_⟩
        have := ih.2
        rw [Multiset.sum_cons] at this
        have h' := abs_sub (x + s.sum) x
        rw [add_sub_cancel_left] at h'
        linarith
  | iadd _ _ ih1 ih2 =>
      refine ⟨by simp [UtilsFloat.iadd, ih1.1, ih2.1], ?_⟩
      rw [Multiset.sum_add]
      exact (abs_add_le _ _).trans (by linarith [ih1.2, ih2.2])
  | plus _ _ ih1 ih2 =>
      refine ⟨by simp [UtilsFloat.plus, UtilsFloat.iadd, OnlineMean.new, ih1.1, ih2.1], ?_⟩
      rw [Multiset.sum_add]
      exact (abs_add_le _ _).trans (by linarith [ih1.2, ih2.2])

theorem error_step (hfl : IsRounding fl) {a b a' b' W W' : ℝ} {k k' : Nat} (ha : IsDouble a) (hb : IsDouble b)
    (h1 : |a - a'| ≤ k / 2 ^ 52 * W) (h2 : |b - b'| ≤ k' / 2 ^ 52 * W') (hW : |a'| ≤ W) (hW' : |b'| ≤ W') (hk : k + k' + 1 ≤ 2 ^ 51) :
    |fl (a + b) - (a' + b')| ≤ ((k + k' + 1 : Nat) : ℝ) / 2 ^ 52 * (W + W') := by
  have h3 := hfl.add_error ha hb
  have hW0 : 0 ≤ W := (abs_nonneg _).trans hW
  have hW0' : 0 ≤ W' := (abs_nonneg _).trans hW'
  have h4 : |a + b| ≤ W + W' + (k / 2 ^ 52 * W + k' / 2 ^ 52 * W') := by
    have : a + b = (a' + b') + ((a - a') + (b - b')) := by ring
    rw [this]
    refine (abs_add_le _ _).trans (add_le_add ((abs_add_le _ _).trans (add_le_add hW hW')) ((abs_add_le _ _).trans (add_le_add h1 h2)))
  have h5 : |fl (a + b) - (a' + b')| ≤ |fl (a + b) - (a + b)| + (|a - a'| + |b - b'|) := by
    have : fl (a + b) - (a' + b') = (fl (a + b) - (a + b)) + ((a - a') + (b - b')) := by ring
    rw [this]
    exact (abs_add_le _ _).trans (add_le_add le_rfl (abs_add_le _ _))
  have hk' : (k : ℝ) + k' + 1 ≤ 2 ^ 51 := by exact_mod_cast hk
  push_cast
  have hkn : (0 : ℝ) ≤ k := Nat.cast_nonneg _
  have hkn' : (0 : ℝ) ≤ k' := Nat.cast_nonneg _
  have e1 : (k : ℝ) / 2 ^ 52 * W ≤ W / 2 := by
    have : (k : ℝ) / 2 ^ 52 ≤ 1 / 2 := by
      rw [div_le_iff₀ (by norm_num)]
      linarith
    nlinarith
  have e2 : (k' : ℝ) / 2 ^ 52 * W' ≤ W' / 2 := by
    have : (k' : ℝ) / 2 ^ 52 ≤ 1 / 2 := by
      rw [div_le_iff₀ (by norm_num)]
      linarith
    nlinarith
  have e3 : |a + b| / 2 ^ 53 ≤ (W + W') / 2 ^ 52 := by
    rw [div_le_div_iff₀ (by norm_num) (by norm_num)]
    nlinarith
  have e4 : 0 ≤ (k : ℝ) / 2 ^ 52 * W' := by positivity
  have e5 : 0 ≤ (k' : ℝ) / 2 ^ 52 * W := by positivity
  have e6 : ((k : ℝ) + k' + 1) / 2 ^ 52 * (W + W') =
    k / 2 ^ 52 * W + k' / 2 ^ 52 * W' + k / 2 ^ 52 * W' + k' / 2 ^ 52 * W + (W + W') / 2 ^ 52 := by ring
  rw [e6]
  linarith

theorem averaged_error (hfl : IsRounding fl) {m : OnlineMean ℝ} {s : Multiset ℝ} {k : Nat} {W : ℝ} (h : Averaged fl IsDouble m s k W)
    (hk : k ≤ 2 ^ 51) : IsDouble m.sum ∧ |m.sum - s.sum| ≤ k / 2 ^ 52 * W := by
  have h0 : IsDouble (0 : ℝ) := by simpa using isDouble_nat (n := 0) (by norm_num)
  induction h with
  | new => exact ⟨by simpa [OnlineMean.new] using h0, by simp [OnlineMean.new]⟩
  | add x hx hm ih =>
      refine ⟨hfl.double _, ?_⟩
      obtain ⟨i1, i2⟩ := ih (by omega)
      have := error_step hfl (k' := 0) (W' := |x|) i1 hx i2 (b' := x) (by simp) (averaged_n hm).2 le_rfl (by omega)
      rw [Multiset.sum_cons, add_comm x]
      simpa [UtilsFloat.add] using this
  | subtract x hx hm hs ih =>
      obtain ⟨i1, i2⟩ := ih (by omega)
      unfold UtilsFloat.subtract at hs
      split at hs
      · simp at hs
      · simp only [Except.ok.injEq] at hs
        subst hs
        refine ⟨hfl.double _, ?_⟩
        have := error_step hfl (k' := 0) (W' := |x|) i1 hx.neg i2 (b' := -x) (by simp) (averaged_n hm).2 (by simp) (by omega)
        rw [Multiset.sum_cons] at this
        simpa [sub_eq_add_neg] using this
  | iadd hm hm' ih1 ih2 =>
      obtain ⟨i1, i2⟩ := ih1 (by omega)
      obtain ⟨j1, j2⟩ := ih2 (by omega)
      refine ⟨hfl.double _, ?_⟩
      rw [Multiset.sum_add]
      exact error_step hfl i1 j1 i2 j2 (averaged_n hm).2 (averaged_n hm').2 (by omega)
  | plus hm hm' ih1 ih2 =>
      obtain ⟨i1, i2⟩ := ih1 (by omega)
      obtain ⟨j1, j2⟩ := ih2 (by omega)
      refine ⟨hfl.double _, ?_⟩
      rw [Multiset.sum_add]
      have := error_step hfl i1 j1 i2 j2 (averaged_n hm).2 (averaged_n hm').2 (by omega)
      unfold UtilsFloat.plus UtilsFloat.iadd OnlineMean.new
      simp only [zero_add]
      rwa [hfl.of_double i1]

/-- **C130**: after at most `2 ^ 51` additions, removals and merges of floats, what is given is the mean of the values held, up to an error which
depends on the number of operations and on all the values which were added or removed; it raises when nothing is held. -/
theorem online_mean_float (hfl : IsRounding fl) {m : OnlineMean ℝ} {s : Multiset ℝ} {k : Nat} {W : ℝ} (h : Averaged fl IsDouble m s k W)
    (hk : k ≤ 2 ^ 51) : (s = 0 → UtilsFloat.peek fl m = .error .statisticsError) ∧
    (s ≠ 0 → ∃ v, UtilsFloat.peek fl m = .ok v ∧
      |v - s.sum / s.card| ≤ (k + 1) / 2 ^ 52 * (W / s.card) + (2 : ℝ) ^ (-1075 : ℤ)) := by
  obtain ⟨hn, hW⟩ := averaged_n h
  obtain ⟨_, he⟩ := averaged_error hfl h hk
  unfold UtilsFloat.peek
  rw [hn]
  constructor
  · rintro rfl
    simp
  · intro hs
    have hc : s.card ≠ 0 := fun h => hs (Multiset.card_eq_zero.mp h)
    rw [if_neg hc]
    refine ⟨_, rfl, ?_⟩
    have hc' : (0 : ℝ) < s.card := by exact_mod_cast Nat.pos_of_ne_zero hc
    have hW0 : 0 ≤ W := (abs_nonneg _).trans hW
    have hk' : (k : ℝ) ≤ 2 ^ 51 := by exact_mod_cast hk
    have hk0 : (0 : ℝ) ≤ k := Nat.cast_nonneg _
    have h1 : |m.sum / s.card - s.sum / s.card| ≤ k / 2 ^ 52 * (W / s.card) := by
      rw [← sub_div, abs_div, abs_of_pos hc', ← mul_div_assoc]
      exact div_le_div_of_nonneg_right he hc'.le
    have h2 : |m.sum / s.card| ≤ 2 * (W / s.card) := by
      rw [abs_div, abs_of_pos hc', ← mul_div_assoc]
      refine div_le_div_of_nonneg_right ?_ hc'.le
      have h3 : |m.sum| ≤ |m.sum - s.sum| + |s.sum| := by
        have := abs_add_le (m.sum - s.sum) s.sum
        rwa [sub_add_cancel] at this
      have h4 : (k : ℝ) / 2 ^ 52 * W ≤ 1 * W := mul_le_mul_of_nonneg_right (by rw [div_le_one (by norm_num)]; linarith) hW0
      linarith
    have h3 : |fl (m.sum / s.card) - m.sum / s.card| ≤ W / s.card / 2 ^ 52 + (2 : ℝ) ^ (-1075 : ℤ) := by
      rcases le_or_gt ((2 : ℝ) ^ (-1022 : ℤ)) |m.sum / s.card| with hb | hb
      · have := hfl.relative_abs hb
        have h5 : |m.sum / s.card| / 2 ^ 53 ≤ 2 * (W / s.card) / 2 ^ 53 := div_le_div_of_nonneg_right h2 (by norm_num)
        have h6 : 2 * (W / s.card) / 2 ^ 53 = W / s.card / 2 ^ 52 := by ring
        have := two_zpow_pos (-1075)
        linarith
      · have := hfl.abs_error (x := m.sum / s.card) (k := -1021) le_rfl
          (hb.le.trans (zpow_le_zpow_right₀ (by norm_num) (by norm_num)))
        rw [show (-1021 : ℤ) - 54 = -1075 by norm_num] at this
        have h5 : 0 ≤ W / s.card / 2 ^ 52 := by positivity
        linarith
    have h4 := abs_sub_le (fl (m.sum / s.card)) (m.sum / s.card) (s.sum / s.card)
    have h5 : ((k : ℝ) + 1) / 2 ^ 52 * (W / s.card) = k / 2 ^ 52 * (W / s.card) + W / s.card / 2 ^ 52 := by ring
    rw [h5]
    linarith

theorem int_abs_le {x : ℤ} {W : ℝ} (h : |(x : ℝ)| ≤ W) (hW : W ≤ 2 ^ 53) : |x| ≤ 2 ^ 53 := by
  have : ((|x| : ℤ) : ℝ) ≤ ((2 ^ 53 : ℤ) : ℝ) := by push_cast; linarith
  exact_mod_cast this

theorem averaged_integers (hfl : IsRounding fl) {m : OnlineMean ℝ} {s : Multiset ℝ} {k : Nat} {W : ℝ}
    (h : Averaged fl (fun x => ∃ n : ℤ, x = n) m s k W) (hW : W ≤ 2 ^ 53) : (∃ n : ℤ, s.sum = n) ∧ m.sum = s.sum := by
  have step : ∀ {a b c : ℝ}, (∃ n : ℤ, a = n) → (∃ n : ℤ, b = n) → |a + b| ≤ c → c ≤ 2 ^ 53 → fl (a + b) = a + b := by
    rintro a b c ⟨n, rfl⟩ ⟨l, rfl⟩ h1 h2
    have e : ((n : ℝ) + l) = ((n + l : ℤ) : ℝ) := by push_cast; rfl
    rw [e] at h1 ⊢
    exact hfl.int (int_abs_le h1 h2)
  have nonneg : ∀ {m s k W}, Averaged fl (fun x => ∃ n : ℤ, x = n) m s k W → 0 ≤ W := fun h => (abs_nonneg _).trans (averaged_n h).2
  induction h with
  | new => exact ⟨⟨0, by simp⟩, by simp [OnlineMean.new]⟩
  | add x hx hm ih =>
      obtain ⟨⟨a, ha⟩, i2⟩ := ih (by linarith [abs_nonneg x])
      have hc := (averaged_n (Averaged.add x hx hm)).2
      obtain ⟨n, rfl⟩ := hx
      rw [Multiset.sum_cons, add_comm] at hc ⊢
      refine ⟨⟨a + n, by rw [ha]; push_cast; rfl⟩, ?_⟩
      show fl (_ + _) = _
      rw [i2]
      exact step ⟨a, ha⟩ ⟨n, rfl⟩ hc hW
  | @subtract m m' s k W x hx hm hs ih =>
      obtain ⟨⟨a, ha⟩, i2⟩ := ih (by linarith [abs_nonneg x])
      have hc := (averaged_n (Averaged.subtract x hx hm hs)).2
      obtain ⟨n, rfl⟩ := hx
      rw [Multiset.sum_cons] at ha i2
      unfold UtilsFloat.subtract at hs
      split at hs
      · simp at hs
      · simp only [Except.ok.injEq] at hs
        subst hs
        have e : s.sum = ((a - n : ℤ) : ℝ) := by push_cast; exact eq_sub_of_add_eq' ha
        refine ⟨⟨a - n, e⟩, ?_⟩
        show fl (_ - _) = _
        rw [i2, add_sub_cancel_left, e]
        rw [e] at hc
        exact hfl.int (int_abs_le hc hW)
  | iadd hm hm' ih1 ih2 =>
      have w1 := nonneg hm
      have w2 := nonneg hm'
      obtain ⟨⟨a, ha⟩, i2⟩ := ih1 (by linarith)
      obtain ⟨⟨b, hb⟩, j2⟩ := ih2 (by linarith)
      have hc := (averaged_n (Averaged.iadd hm hm')).2
      rw [Multiset.sum_add] at hc ⊢
      refine ⟨⟨a + b, by rw [ha, hb]; push_cast; rfl⟩, ?_⟩
      show fl (_ + _) = _
      rw [i2, j2]
      exact step ⟨a, ha⟩ ⟨b, hb⟩ hc hW
  | plus hm hm' ih1 ih2 =>
      have w1 := nonneg hm
      have w2 := nonneg hm'
      obtain ⟨⟨a, ha⟩, i2⟩ := ih1 (by linarith)
      obtain ⟨⟨b, hb⟩, j2⟩ := ih2 (by linarith)
      have hc := (averaged_n (Averaged.plus hm hm')).2
      have hc1 := (averaged_n hm).2
      rw [Multiset.sum_add] at hc ⊢
      refine ⟨⟨a + b, by rw [ha, hb]; push_cast; rfl⟩, ?_⟩
      show fl (fl (0 + _) + _) = _
      rw [i2, j2, zero_add]
      rw [ha] at hc1 ⊢
      rw [hfl.int (int_abs_le hc1 (by linarith)), ← ha]
      exact step ⟨a, ha⟩ ⟨b, hb⟩ hc hW

/-- **C130**: with whole numbers which are not too great, the mean is rounded once, whatever the order of the operations. -/
theorem online_mean_float_integers (hfl : IsRounding fl) {m : OnlineMean ℝ} {s : Multiset ℝ} {k : Nat} {W : ℝ}
    (h : Averaged fl (fun x => ∃ n : ℤ, x = n) m s k W) (hW : W ≤ 2 ^ 53) (hs : s ≠ 0) :
    UtilsFloat.peek fl m = .ok (fl (s.sum / s.card)) := by
  obtain ⟨hn, _⟩ := averaged_n h
  have hc : s.card ≠ 0 := fun h => hs (Multiset.card_eq_zero.mp h)
  unfold UtilsFloat.peek
  rw [hn, if_neg hc, (averaged_integers hfl h hW).2]

/-- **C130**: the mean of three times the same float can be another number: it is so for `0.1`. -/
theorem online_mean_float_tenth (hfl : IsRounding fl) : ∃ (x : ℝ) (m : OnlineMean ℝ) (v : ℝ), |x - 1 / 10| ≤ 1 / 2 ^ 57 ∧
    Averaged fl IsDouble m {x, x, x} 3 (3 * |x|) ∧ UtilsFloat.peek fl m = .ok v ∧ v ≠ x := by
  set x : ℝ := ((7205759403792794 : ℤ) : ℝ) * (2 : ℝ) ^ (-56 : ℤ) with hx
  have hd : IsDouble x := isDouble_of_le (by norm_num) (by norm_num)
  have h0 : fl (0 + x) = x := by rw [zero_add, hfl.of_double hd]
  have h2 : fl (x + x) = x + x := by
    refine hfl.of_double ?_
    have : x + x = ((7205759403792794 : ℤ) : ℝ) * (2 : ℝ) ^ (-55 : ℤ) := by
      rw [hx]
      norm_num
    rw [this]
    exact isDouble_of_le (by norm_num) (by norm_num)
  -- three times the number, rounded
  obtain ⟨n, hn⟩ := IsDouble.multiple (k := -2) (hfl.double (x + x + x)) (by
    rw [← hfl.of_double (isDouble_zpow (e := -2) (by norm_num))]
    apply hfl.mono
    rw [hx]
    norm_num)
  rw [show (-2 : ℤ) - 52 = -54 by norm_num] at hn
  have hnear : |fl (x + x + x) - (x + x + x)| ≤ (2 : ℝ) ^ (-55 : ℤ) := by
    have := hfl.abs_error (k := -1) (by norm_num) (x := x + x + x) (by
      rw [hx]
      norm_num)
    rwa [show (-1 : ℤ) - 54 = -55 by norm_num] at this
  have hcases : n = 5404319552844595 ∨ n = 5404319552844596 := by
    rw [hn, hx, abs_le] at hnear
    obtain ⟨l, r⟩ := hnear
    have l' : (5404319552844594 : ℝ) < n := by
      norm_num at l ⊢
      linarith
    have r' : (n : ℝ) < 5404319552844597 := by
      norm_num at r ⊢
      linarith
    have l'' : (5404319552844594 : ℤ) < n := by exact_mod_cast l'
    have r'' : n < (5404319552844597 : ℤ) := by exact_mod_cast r'
    omega
  refine ⟨x, UtilsFloat.add fl (UtilsFloat.add fl (UtilsFloat.add fl OnlineMean.new x) x) x, fl (fl (x + x + x) / 3), ?_, ?_, ?_, ?_⟩
  · rw [hx, abs_le]
    norm_num
  · have := Averaged.add (fl := fl) (P := IsDouble) x hd (.add x hd (.add x hd .new))
    rw [show (0 : ℝ) + |x| + |x| + |x| = 3 * |x| by ring] at this
    exact this
  · simp only [UtilsFloat.peek, UtilsFloat.add, OnlineMean.new, h0, h2]
    norm_num
  · rcases hcases with h | h
    · have := hfl.eq_of_near (x := fl (x + x + x) / 3) (n := 7205759403792793) (k := -56) (by norm_num)
        (by rw [hn, h]; norm_num) (by norm_num) (by rw [hn, h]; norm_num [abs_lt])
      rw [this, hx]
      norm_num
    · have := hfl.eq_of_near (x := fl (x + x + x) / 3) (n := 7205759403792795) (k := -56) (by norm_num)
        (by rw [hn, h]; norm_num) (by norm_num) (by rw [hn, h]; norm_num [abs_lt])
      rw [this, hx]
      norm_num

/-- **C130**: what was removed can have erased what is left: after `1` and `2 ^ 54` are added and `2 ^ 54` is removed, the mean of `1` is `0`. -/
theorem online_mean_float_erased (hfl : IsRounding fl) : ∃ m : OnlineMean ℝ,
    Averaged fl IsDouble m {1} 3 (2 ^ 55 + 1) ∧ UtilsFloat.peek fl m = .ok 0 := by
  have d1 : IsDouble (1 : ℝ) := by simpa using isDouble_nat (n := 1) (by norm_num)
  have d2 : IsDouble ((2 : ℝ) ^ 54) := by
    have := isDouble_zpow (e := 54) (by norm_num)
    exact_mod_cast this
  have h0 : fl (0 + 1) = 1 := by rw [zero_add, hfl.one]
  have h1 : fl (1 + 2 ^ 54) = 2 ^ 54 := by
    have := hfl.eq_of_near (x := 1 + 2 ^ 54) (n := 2 ^ 52) (k := 2) (by norm_num) (by norm_num) (by norm_num) (by norm_num)
    rw [this]
    norm_num
  have h2 : fl ((2 : ℝ) ^ 54 - 2 ^ 54) = 0 := by rw [sub_self, hfl.zero]
  refine ⟨⟨0, 1⟩, ?_, ?_⟩
  · have k := Averaged.add (fl := fl) (P := IsDouble) ((2 : ℝ) ^ 54) d2 (.add 1 d1 .new)
    have := Averaged.subtract (m' := ⟨0, 1⟩) ((2 : ℝ) ^ 54) d2 k (by
      simp only [UtilsFloat.subtract, UtilsFloat.add, OnlineMean.new, h0, h1, h2]
      simp)
    rw [show (0 : ℝ) + |1| + |2 ^ 54| + |2 ^ 54| = 2 ^ 55 + 1 by norm_num] at this
    exact this
  · simp [UtilsFloat.peek, hfl.zero]

-- Three whole numbers, one of which is removed.
example (hfl : IsRounding fl) : ∃ m : OnlineMean ℝ, Averaged fl (fun x => ∃ n : ℤ, x = n) m {2, 1} 4 13 ∧
    UtilsFloat.peek fl m = .ok (fl (3 / 2)) := by
  have k := Averaged.add (fl := fl) (P := fun x => ∃ n : ℤ, x = n) 2 ⟨2, by norm_num⟩ (.add 1 ⟨1, by norm_num⟩ .new)
  have k' := Averaged.add (fl := fl) (P := fun x => ∃ n : ℤ, x = n) 5 ⟨5, by norm_num⟩ k
  obtain ⟨m', hm'⟩ : ∃ m', UtilsFloat.subtract fl (UtilsFloat.add fl (UtilsFloat.add fl (UtilsFloat.add fl OnlineMean.new 1) 2) 5) 5 = .ok m' :=
    ⟨_, by simp [UtilsFloat.subtract, UtilsFloat.add]; rfl⟩
  have k'' := Averaged.subtract 5 ⟨5, by norm_num⟩ k' hm'
  have e : (0 : ℝ) + |1| + |2| + |5| + |5| = 13 := by norm_num
  rw [e] at k''
  refine ⟨m', k'', ?_⟩
  rw [online_mean_float_integers hfl k'' (by norm_num) (by simp)]
  norm_num

end Fog.Props
