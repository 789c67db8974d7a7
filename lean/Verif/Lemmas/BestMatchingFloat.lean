import Verif.Model.BestMatchingFloat
import Verif.Props.BestMatching
import Verif.Lemmas.Binary64
import Mathlib.Data.Rat.Cast.Order
import Mathlib.Data.Real.Archimedean

/-!
# Scores in double precision
-/

namespace Fog.BestMatchingFloat

open Fog.Spec Fog.Utils Fog.BestMatching Fog.Props

variable {fl : ℝ → ℝ}

/-! ### Numbers -/

/-- Half a unit in the last place of one. -/
noncomputable def ulp : ℝ := 1 / 2 ^ 53

theorem ulp_pos : 0 < ulp := by unfold ulp; positivity

theorem ulp_small : ulp ≤ 1 / 1000 := by unfold ulp; norm_num

/-- Rounding is within a factor, for numbers which are not tiny. -/
theorem fl_bounds (hfl : IsRounding fl) {x : ℝ} (h : 1 / 2 ^ 200 ≤ x) : x * (1 - ulp) ≤ fl x ∧ fl x ≤ x * (1 + ulp) := by
  have h1 : (2 : ℝ) ^ (-1022 : ℤ) ≤ 1 / 2 ^ 200 := by
    rw [show (1 : ℝ) / 2 ^ 200 = 2 ^ (-200 : ℤ) by rw [zpow_neg]; norm_cast; rw [one_div]]
    exact zpow_le_zpow_right₀ (by norm_num) (by norm_num)
  have := hfl.relative (h1.trans h)
  rw [abs_le] at this
  unfold ulp
  constructor
  · linarith [this.1]
  · linarith [this.2]

/-- Rounding a number between zero and `k`. -/
theorem fl_near (hfl : IsRounding fl) {x : ℝ} {k : Nat} (hk : 1 ≤ k) (h0 : 0 ≤ x) (h1 : x ≤ k) : |fl x - x| ≤ k * ulp := by
  have hk' : (1 : ℝ) ≤ k := by exact_mod_cast hk
  by_cases h : 1 / 2 ^ 200 ≤ x
  · obtain ⟨a, b⟩ := fl_bounds hfl h
    have : x * ulp ≤ k * ulp := mul_le_mul_of_nonneg_right h1 ulp_pos.le
    rw [abs_le]
    constructor <;> linarith
  · rw [not_le] at h
    have := hfl.nearest x 0 (by simpa using isDouble_nat (n := 0) (by norm_num))
    rw [zero_sub, abs_neg, abs_of_nonneg h0] at this
    have h2 : (1 : ℝ) / 2 ^ 200 ≤ ulp := by unfold ulp; norm_num
    have h3 : 1 * ulp ≤ k * ulp := mul_le_mul_of_nonneg_right hk' ulp_pos.le
    linarith

/-- The F1 score, as it is computed. -/
noncomputable def f1Float (fl : ℝ → ℝ) (p r : ℝ) : ℝ := fl (fl (fl (2 * p) * r) / fl (p + r))

theorem isDouble_two {x : ℝ} (h : IsDouble x) : IsDouble (2 * x) := by
  obtain ⟨m, e, h1, h2, rfl⟩ := h
  refine ⟨m, e + 1, h1, by omega, ?_⟩
  rw [zpow_add_one₀ (by norm_num)]
  ring

/-- The harmonic mean grows with both numbers. -/
theorem harmonic_mono {p q r s : ℝ} (hp : 0 < p) (hr : 0 < r) (h1 : p ≤ q) (h2 : r ≤ s) : 2 * p * r / (p + r) ≤ 2 * q * s / (q + s) := by
  rw [div_le_div_iff₀ (by linarith) (by linarith)]
  have hq : 0 < q := by linarith
  have hs : 0 < s := by linarith
  have a : p * q * r ≤ p * q * s := mul_le_mul_of_nonneg_left h2 (by positivity)
  have b : r * s * p ≤ r * s * q := mul_le_mul_of_nonneg_left h1 (by positivity)
  nlinarith

theorem harmonic_scale {p r c : ℝ} (hp : 0 < p) (hr : 0 < r) (hc : 0 < c) :
    2 * (p * c) * (r * c) / (p * c + r * c) = 2 * p * r / (p + r) * c := by
  have : p + r ≠ 0 := by positivity
  have : p * c + r * c ≠ 0 := by positivity
  field_simp

theorem factors : (1 + ulp) * ((1 + ulp) / (1 - ulp)) * (1 + ulp) ≤ 1 + 5 * ulp ∧
    1 - 5 * ulp ≤ (1 - ulp) * ((1 - ulp) / (1 + ulp)) * (1 - ulp) := by
  have hu := ulp_pos
  have hu' := ulp_small
  have s1 := mul_pos hu hu
  have s2 := mul_pos s1 hu
  have s3 := mul_nonneg hu.le (sub_nonneg.mpr hu')
  have s4 := mul_nonneg s1.le (sub_nonneg.mpr hu')
  constructor
  · have : (1 + ulp) * ((1 + ulp) / (1 - ulp)) * (1 + ulp) = (1 + ulp) ^ 3 / (1 - ulp) := by ring
    rw [this, div_le_iff₀ (by linarith)]
    nlinarith
  · have : (1 - ulp) * ((1 - ulp) / (1 + ulp)) * (1 - ulp) = (1 - ulp) ^ 3 / (1 + ulp) := by ring
    rw [this, le_div_iff₀ (by linarith)]
    nlinarith

set_option maxHeartbeats 1000000 in
/-- The F1 score is right up to five halves of units in the last place. -/
theorem f1Float_bounds (hfl : IsRounding fl) {p r : ℝ} (hp : 1 / 2 ^ 60 ≤ p) (hr : 1 / 2 ^ 60 ≤ r) (hp1 : p ≤ 1) (hr1 : r ≤ 1) :
    2 * p * r / (p + r) * (1 - 5 * ulp) ≤ f1Float fl (fl p) (fl r) ∧ f1Float fl (fl p) (fl r) ≤ 2 * p * r / (p + r) * (1 + 5 * ulp) := by
  have hu := ulp_pos
  have hu' := ulp_small
  have c0 : (1 : ℝ) / 2 ^ 200 ≤ 1 / 2 ^ 60 := by norm_num
  have c1 : (0 : ℝ) < 1 / 2 ^ 60 := by norm_num
  have hp0 : 0 < p := by linarith
  have hr0 : 0 < r := by linarith
  obtain ⟨p1, p2⟩ := fl_bounds hfl (c0.trans hp)
  obtain ⟨r1, r2⟩ := fl_bounds hfl (c0.trans hr)
  have hpl : 1 / 2 ^ 61 ≤ fl p := by
    have : (1 : ℝ) / 2 ^ 61 = 1 / 2 ^ 60 * (1 / 2) := by norm_num
    have h2 : p * (1 / 2) ≤ p * (1 - ulp) := mul_le_mul_of_nonneg_left (by linarith) hp0.le
    linarith
  have hrl : 1 / 2 ^ 61 ≤ fl r := by
    have : (1 : ℝ) / 2 ^ 61 = 1 / 2 ^ 60 * (1 / 2) := by norm_num
    have h2 : r * (1 / 2) ≤ r * (1 - ulp) := mul_le_mul_of_nonneg_left (by linarith) hr0.le
    linarith
  have hpu := hfl.le_one hp1
  have hru := hfl.le_one hr1
  generalize hP : fl p = P at *
  generalize hR : fl r = R at *
  have c2 : (0 : ℝ) < 1 / 2 ^ 61 := by norm_num
  have hP0 : 0 < P := by linarith
  have hR0 : 0 < R := by linarith
  have h2P : fl (2 * P) = 2 * P := hfl.of_double (isDouble_two (hP ▸ hfl.double p))
  have hprod : 1 / 2 ^ 61 * (1 / 2 ^ 61) ≤ P * R := mul_le_mul hpl hrl c2.le hP0.le
  have c3 : (1 : ℝ) / 2 ^ 200 ≤ 1 / 2 ^ 61 * (1 / 2 ^ 61) := by norm_num
  have hPR : 0 < P * R := by positivity
  obtain ⟨n1, n2⟩ := fl_bounds hfl (x := 2 * P * R) (by nlinarith)
  obtain ⟨d1, d2⟩ := fl_bounds hfl (x := P + R) (by
    have : (1 : ℝ) / 2 ^ 200 ≤ 1 / 2 ^ 61 := by norm_num
    linarith)
  have hS : 0 < P + R := by linarith
  have hd0 : 0 < fl (P + R) := lt_of_lt_of_le (mul_pos hS (by linarith)) d1
  have hn0 : 0 ≤ fl (2 * P * R) := hfl.nonneg (by positivity)
  have hq1 : fl (2 * P * R) / fl (P + R) ≤ 2 * P * R / (P + R) * ((1 + ulp) / (1 - ulp)) := by
    rw [div_mul_div_comm]
    exact div_le_div₀ (mul_nonneg (by positivity) (by linarith)) n2 (mul_pos hS (by linarith)) d1
  have hq2 : 2 * P * R / (P + R) * ((1 - ulp) / (1 + ulp)) ≤ fl (2 * P * R) / fl (P + R) := by
    rw [div_mul_div_comm]
    exact div_le_div₀ hn0 n1 hd0 d2
  have hh : 0 < 2 * P * R / (P + R) := by positivity
  have hhp : 0 < 2 * p * r / (p + r) := by positivity
  have up : 2 * P * R / (P + R) ≤ 2 * p * r / (p + r) * (1 + ulp) := by
    rw [← harmonic_scale hp0 hr0 (by linarith)]
    exact harmonic_mono hP0 hR0 p2 r2
  have lo : 2 * p * r / (p + r) * (1 - ulp) ≤ 2 * P * R / (P + R) := by
    rw [← harmonic_scale hp0 hr0 (by linarith)]
    exact harmonic_mono (mul_pos hp0 (by linarith)) (mul_pos hr0 (by linarith)) p1 r1
  have hqbig : 1 / 2 ^ 200 ≤ fl (2 * P * R) / fl (P + R) := by
    refine le_trans ?_ hq2
    have hS2 : P + R ≤ 2 := by linarith
    have e1 : P * R ≤ 2 * P * R / (P + R) := by
      rw [le_div_iff₀ hS]
      linarith [mul_le_mul_of_nonneg_left hS2 hPR.le]
    have e2 : (1 : ℝ) / 2 ≤ (1 - ulp) / (1 + ulp) := by
      rw [div_le_div_iff₀ (by norm_num) (by linarith)]
      linarith
    have e3 : (1 : ℝ) / 2 ^ 200 ≤ 1 / 2 ^ 61 * (1 / 2 ^ 61) * (1 / 2) := by norm_num
    calc (1 : ℝ) / 2 ^ 200 ≤ 1 / 2 ^ 61 * (1 / 2 ^ 61) * (1 / 2) := e3
      _ ≤ 2 * P * R / (P + R) * ((1 - ulp) / (1 + ulp)) := mul_le_mul (hprod.trans e1) e2 (by norm_num) hh.le
  obtain ⟨f1, f2⟩ := fl_bounds hfl hqbig
  unfold f1Float
  rw [h2P]
  generalize hH : 2 * p * r / (p + r) = H at *
  generalize 2 * P * R / (P + R) = G at *
  generalize fl (2 * P * R) / fl (P + R) = Q at *
  obtain ⟨k1, k2⟩ := factors
  have m1 : 0 < (1 + ulp) / (1 - ulp) := div_pos (by linarith) (by linarith)
  have m2 : 0 < (1 - ulp) / (1 + ulp) := div_pos (by linarith) (by linarith)
  constructor
  · calc H * (1 - 5 * ulp) ≤ H * ((1 - ulp) * ((1 - ulp) / (1 + ulp)) * (1 - ulp)) := mul_le_mul_of_nonneg_left k2 hhp.le
      _ = H * (1 - ulp) * ((1 - ulp) / (1 + ulp)) * (1 - ulp) := by ring
      _ ≤ G * ((1 - ulp) / (1 + ulp)) * (1 - ulp) :=
        mul_le_mul_of_nonneg_right (mul_le_mul_of_nonneg_right lo m2.le) (by linarith)
      _ ≤ Q * (1 - ulp) := mul_le_mul_of_nonneg_right hq2 (by linarith)
      _ ≤ fl Q := f1
  · calc fl Q ≤ Q * (1 + ulp) := f2
      _ ≤ G * ((1 + ulp) / (1 - ulp)) * (1 + ulp) := mul_le_mul_of_nonneg_right hq1 (by linarith)
      _ ≤ H * (1 + ulp) * ((1 + ulp) / (1 - ulp)) * (1 + ulp) :=
        mul_le_mul_of_nonneg_right (mul_le_mul_of_nonneg_right up m1.le) (by linarith)
      _ = H * ((1 + ulp) * ((1 + ulp) / (1 - ulp)) * (1 + ulp)) := by ring
      _ ≤ H * (1 + 5 * ulp) := mul_le_mul_of_nonneg_left k1 hhp.le

theorem f1Float_nonneg (hfl : IsRounding fl) {p r : ℝ} (hp : 0 ≤ p) (hr : 0 ≤ r) : 0 ≤ f1Float fl p r :=
  hfl.nonneg (div_nonneg (hfl.nonneg (mul_nonneg (hfl.nonneg (by linarith)) hr)) (hfl.nonneg (by linarith)))

theorem f1Float_le_one (hfl : IsRounding fl) {p r : ℝ} (hd : IsDouble p) (hp : 0 ≤ p) (hr : 0 ≤ r) (hp1 : p ≤ 1) (hr1 : r ≤ 1) :
    f1Float fl p r ≤ 1 := by
  unfold f1Float
  apply hfl.le_one
  rw [hfl.of_double (isDouble_two hd)]
  exact div_le_one_of_le₀ (hfl.mono (by nlinarith)) (hfl.nonneg (by linarith))

theorem f1Float_one (hfl : IsRounding fl) : f1Float fl 1 1 = 1 := by
  have h2 : fl 2 = 2 := by simpa using hfl.nat (n := 2) (by norm_num)
  unfold f1Float
  norm_num [h2, hfl.one]

/-! ### Sums and means -/

/-- The sum of an `OnlineMean`, as it is computed. -/
noncomputable def sumFloat (fl : ℝ → ℝ) (l : List ℝ) (s : ℝ) : ℝ := l.foldl (fun s x => fl (s + x)) s

theorem sumFloat_bounds (hfl : IsRounding fl) : ∀ (l : List ℝ) (s : ℝ) (k : Nat), (∀ x ∈ l, 0 ≤ x ∧ x ≤ 1) → 0 ≤ s → s ≤ k →
    k + l.length ≤ 2 ^ 53 → 0 ≤ sumFloat fl l s ∧ sumFloat fl l s ≤ k + l.length := by
  intro l
  induction l with
  | nil => intro s k _ h0 h1 _; simpa [sumFloat] using ⟨h0, h1⟩
  | cons x l ih =>
      intro s k h h0 h1 hk
      obtain ⟨x0, x1⟩ := h x (by simp)
      simp only [List.length_cons] at hk
      have hle : fl (s + x) ≤ ((k + 1 : Nat) : ℝ) := by
        rw [← hfl.nat (n := k + 1) (by omega)]
        exact hfl.mono (by push_cast; linarith)
      have := ih (fl (s + x)) (k + 1) (fun y hy => h y (by simp [hy])) (hfl.nonneg (by linarith)) hle (by omega)
      simp only [sumFloat, List.foldl_cons, List.length_cons] at this ⊢
      push_cast at this ⊢
      exact ⟨this.1, by linarith [this.2]⟩

theorem sumFloat_err (hfl : IsRounding fl) : ∀ (l : List ℝ) (s : ℝ) (k : Nat), (∀ x ∈ l, 0 ≤ x ∧ x ≤ 1) → 0 ≤ s → s ≤ k →
    k + l.length ≤ 2 ^ 53 → |sumFloat fl l s - (s + l.sum)| ≤ l.length * ((k + l.length : Nat) * ulp) := by
  intro l
  induction l with
  | nil => intro s k _ h0 h1 _; simp [sumFloat]
  | cons x l ih =>
      intro s k h h0 h1 hk
      obtain ⟨x0, x1⟩ := h x (by simp)
      simp only [List.length_cons] at hk
      have hle : fl (s + x) ≤ ((k + 1 : Nat) : ℝ) := by
        rw [← hfl.nat (n := k + 1) (by omega)]
        exact hfl.mono (by push_cast; linarith)
      have h2 := ih (fl (s + x)) (k + 1) (fun y hy => h y (by simp [hy])) (hfl.nonneg (by linarith)) hle (by omega)
      have h3 := fl_near hfl (x := s + x) (k := k + 1) (by omega) (by linarith) (by push_cast; linarith)
      have e : sumFloat fl (x :: l) s = sumFloat fl l (fl (s + x)) := rfl
      have hl : (0 : ℝ) ≤ l.length * ulp := mul_nonneg (Nat.cast_nonneg _) ulp_pos.le
      rw [e, List.sum_cons, List.length_cons]
      rw [abs_le] at h2 h3 ⊢
      push_cast at h2 h3 ⊢
      constructor <;> nlinarith [h2.1, h2.2, h3.1, h3.2]

theorem sumFloat_one (hfl : IsRounding fl) : ∀ (l : List ℝ) (k : Nat), (∀ x ∈ l, x = 1) → k + l.length ≤ 2 ^ 53 →
    sumFloat fl l k = ((k + l.length : Nat) : ℝ) := by
  intro l
  induction l with
  | nil => intro k _ _; simp [sumFloat]
  | cons x l ih =>
      intro k h hk
      simp only [List.length_cons] at hk
      have e : sumFloat fl (x :: l) k = sumFloat fl l (fl (k + x)) := rfl
      rw [e, h x (by simp), show ((k : ℝ) + 1) = ((k + 1 : Nat) : ℝ) by push_cast; rfl, hfl.nat (by omega),
        ih (k + 1) (fun y hy => h y (by simp [hy])) (by omega), List.length_cons]
      congr 1
      omega

/-- The mean, as it is computed. -/
noncomputable def meanFloat (fl : ℝ → ℝ) (l : List ℝ) : ℝ := fl (sumFloat fl l 0 / fl l.length)

theorem meanFloat_range (hfl : IsRounding fl) {l : List ℝ} (h : ∀ x ∈ l, 0 ≤ x ∧ x ≤ 1) (hl : l.length ≤ 2 ^ 53) :
    0 ≤ meanFloat fl l ∧ meanFloat fl l ≤ 1 := by
  obtain ⟨a, b⟩ := sumFloat_bounds hfl l 0 0 h le_rfl (by simp) (by omega)
  unfold meanFloat
  rw [hfl.nat hl]
  refine ⟨hfl.nonneg (div_nonneg a (Nat.cast_nonneg _)), hfl.le_one (div_le_one_of_le₀ (by simpa using b) (Nat.cast_nonneg _))⟩

theorem meanFloat_one (hfl : IsRounding fl) {l : List ℝ} (hne : l ≠ []) (h : ∀ x ∈ l, x = 1) (hl : l.length ≤ 2 ^ 53) : meanFloat fl l = 1 := by
  have := sumFloat_one hfl l 0 h (by omega)
  unfold meanFloat
  rw [hfl.nat hl]
  rw [Nat.cast_zero, Nat.zero_add] at this
  have h0 : (l.length : ℝ) ≠ 0 := by simpa using hne
  rw [this, div_self h0, hfl.one]

theorem meanFloat_err (hfl : IsRounding fl) {l : List ℝ} (hne : l ≠ []) (h : ∀ x ∈ l, 0 ≤ x ∧ x ≤ 1) (hl : l.length ≤ 2 ^ 53) :
    |meanFloat fl l - l.sum / l.length| ≤ (l.length + 1) * ulp := by
  obtain ⟨a, b⟩ := sumFloat_bounds hfl l 0 0 h le_rfl (by simp) (by omega)
  have e := sumFloat_err hfl l 0 0 h le_rfl (by simp) (by omega)
  have hpos : (0 : ℝ) < l.length := by
    have := List.length_pos_iff.mpr hne
    exact_mod_cast this
  simp only [Nat.cast_zero, zero_add] at b e
  have h1 := fl_near hfl (x := sumFloat fl l 0 / l.length) (k := 1) le_rfl (div_nonneg a hpos.le)
    (by rw [Nat.cast_one]; exact div_le_one_of_le₀ b hpos.le)
  have h2 : |sumFloat fl l 0 / l.length - l.sum / l.length| ≤ l.length * ulp := by
    rw [← sub_div, abs_div, abs_of_pos hpos, div_le_iff₀ hpos]
    linarith
  unfold meanFloat
  rw [hfl.nat hl]
  rw [Nat.cast_one, one_mul] at h1
  rw [abs_le] at h1 h2 ⊢
  constructor <;> linarith [h1.1, h1.2, h2.1, h2.2]

/-- The mean of rounded numbers which are near some others. -/
theorem sum_near {β : Type _} {g g' : β → ℝ} {δ : ℝ} : ∀ l : List β, (∀ x ∈ l, |g x - g' x| ≤ δ) →
    |(l.map g).sum - (l.map g').sum| ≤ l.length * δ := by
  intro l
  induction l with
  | nil => intro _; simp
  | cons x l ih =>
      intro h
      have h1 := h x (by simp)
      have h2 := ih (fun y hy => h y (by simp [hy]))
      simp only [List.map_cons, List.sum_cons, List.length_cons]
      push_cast
      rw [abs_le] at h1 h2 ⊢
      constructor <;> linarith [h1.1, h1.2, h2.1, h2.2]

theorem meanFloat_near (hfl : IsRounding fl) {β : Type _} {g g' : β → ℝ} {δ : ℝ} {l : List β} (hne : l ≠ []) (hl : l.length ≤ 2 ^ 53)
    (h : ∀ x ∈ l, 0 ≤ g x ∧ g x ≤ 1) (hg : ∀ x ∈ l, |g x - g' x| ≤ δ) :
    |meanFloat fl (l.map g) - (l.map g').sum / l.length| ≤ (l.length + 1) * ulp + δ := by
  have h1 := meanFloat_err hfl (l := l.map g) (by simpa using hne) (by simpa using h) (by simpa using hl)
  have h2 := sum_near l hg
  have hpos : (0 : ℝ) < l.length := by
    have := List.length_pos_iff.mpr hne
    exact_mod_cast this
  have h3 : |(l.map g).sum / l.length - (l.map g').sum / l.length| ≤ δ := by
    rw [← sub_div, abs_div, abs_of_pos hpos, div_le_iff₀ hpos]
    linarith
  rw [List.length_map] at h1
  rw [abs_le] at h1 h3 ⊢
  constructor <;> linarith [h1.1, h1.2, h3.1, h3.2]

/-! ### The candidates of a truth cluster -/

variable {α : Type _} [DecidableEq α]

/-- The candidates of a truth cluster are the predicted clusters which have items in common with it. -/
theorem candidates_eq {truth predicted : List (List α)} (hn : (predicted.flatten.filter (inTruth truth)).Nodup) {t : List α}
    (ht : t ∈ truth) (hne : t ≠ []) (hcov : ∀ x ∈ t, ∃ c ∈ predicted, x ∈ c) :
    ∃ cands : Dict Nat Nat, t.foldlM (countItem (indexOf truth predicted)) ([], 0) = .ok (cands, t.length) ∧ cands ≠ [] ∧
      (∀ p ∈ cands, ∃ c, predicted[p.1]? = some c ∧ p.2 = hits t c ∧ 0 < hits t c ∧ 0 < known truth c) ∧
      (∀ c ∈ predicted, 0 < hits t c → ∃ i, predicted[i]? = some c ∧ (i, hits t c) ∈ cands) := by
  have hin : ∀ x ∈ t, inTruth truth x = true := fun x hx => decide_eq_true ⟨t, ht, hx⟩
  obtain ⟨hc1, _⟩ := countItems_fold (indexOf truth predicted) t [] 0
  have hkeys : ∀ x ∈ t, x ∈ Dict.keys (indexOf truth predicted) := by
    intro x hx
    rw [keys_indexOf, List.mem_filter, List.mem_flatten]
    exact ⟨hcov x hx, hin x hx⟩
  have hc1 := hc1 hkeys
  obtain ⟨hnd, hget⟩ := nat_counter_spec (t.filterMap (indexOf truth predicted).get?)
  generalize hA : (t.filterMap (indexOf truth predicted).get?).foldl (fun c k => Dict.update c k 0 (· + 1)) ([] : Dict Nat Nat) = cands
    at hc1 hnd hget
  have hcount : ∀ i c, predicted[i]? = some c → (t.filterMap (indexOf truth predicted).get?).count i = hits t c := by
    intro i c hi
    rw [List.count_eq_countP, List.countP_filterMap, hits, ← List.countP_eq_length_filter]
    apply List.countP_congr
    intro x hx
    have hxq := hin x hx
    simp only [decide_eq_true_eq]
    have hg := get?_indexOf hn x i
    constructor
    · intro h
      cases hv : (indexOf truth predicted).get? x with
      | none => rw [hv] at h; simp at h
      | some v =>
          rw [hv] at h
          have : v = i := by simpa using h
          subst this
          obtain ⟨c', hc', hx', _⟩ := hg.mp hv
          rw [hi] at hc'
          injection hc' with hc'
          subst hc'
          exact hx'
    · intro h
      rw [hg.mpr ⟨c, hi, h, hxq⟩]
      simp
  have hmem : ∀ i, i ∈ t.filterMap (indexOf truth predicted).get? ↔ ∃ c, predicted[i]? = some c ∧ 0 < hits t c := by
    intro i
    constructor
    · intro h
      obtain ⟨x, hx, hxi⟩ := List.mem_filterMap.mp h
      obtain ⟨c, hc, hxc, _⟩ := (get?_indexOf hn x i).mp hxi
      refine ⟨c, hc, ?_⟩
      rw [hits, List.length_pos_iff_exists_mem]
      exact ⟨x, List.mem_filter.mpr ⟨hx, decide_eq_true hxc⟩⟩
    · rintro ⟨c, hc, hh⟩
      rw [hits, List.length_pos_iff_exists_mem] at hh
      obtain ⟨x, hx⟩ := hh
      obtain ⟨hx, hxc⟩ := List.mem_filter.mp hx
      exact List.mem_filterMap.mpr ⟨x, hx, (get?_indexOf hn x i).mpr ⟨c, hc, of_decide_eq_true hxc, hin x hx⟩⟩
  have hknown : ∀ c, 0 < hits t c → 0 < known truth c := by
    intro c hh
    rw [hits, List.length_pos_iff_exists_mem] at hh
    obtain ⟨x, hx⟩ := hh
    obtain ⟨hx, hxc⟩ := List.mem_filter.mp hx
    rw [known, List.length_pos_iff_exists_mem]
    exact ⟨x, List.mem_filter.mpr ⟨of_decide_eq_true hxc, hin x hx⟩⟩
  have hall : ∀ c ∈ predicted, 0 < hits t c → ∃ i, predicted[i]? = some c ∧ (i, hits t c) ∈ cands := by
    intro c hc hh
    obtain ⟨i, hi⟩ := List.getElem?_of_mem hc
    exact ⟨i, hi, Dict.mem_of_get? ((hget i _).mpr ⟨(hmem i).mpr ⟨c, hi, hh⟩, (hcount i c hi).symm⟩)⟩
  refine ⟨cands, by simpa using hc1, ?_, ?_, hall⟩
  · obtain ⟨x, hx⟩ := List.exists_mem_of_ne_nil t hne
    obtain ⟨c, hc, hxc⟩ := hcov x hx
    obtain ⟨i, _, hi⟩ := hall c hc (by
      rw [hits, List.length_pos_iff_exists_mem]
      exact ⟨x, List.mem_filter.mpr ⟨hx, decide_eq_true hxc⟩⟩)
    exact List.ne_nil_of_mem hi
  · intro p hp
    obtain ⟨h1, h2⟩ := (hget p.1 p.2).mp (Dict.get?_of_mem hnd hp)
    obtain ⟨c, hc, hh⟩ := (hmem p.1).mp h1
    exact ⟨c, hc, h2.trans (hcount _ c hc), hh, hknown c hh⟩

/-- The scores of a candidate, as they are computed, from the number of items in common, the size of the predicted cluster and
that of the truth cluster. -/
noncomputable def scoresFloat (fl : ℝ → ℝ) (m size n : Nat) : Scores :=
  (fl ((m : ℝ) / size), fl ((m : ℝ) / n), f1Float fl (fl ((m : ℝ) / size)) (fl ((m : ℝ) / n)))

theorem fl_pos (hfl : IsRounding fl) {x : ℝ} (h : 1 / 2 ^ 200 ≤ x) : 0 < fl x := by
  have h0 : (0 : ℝ) < 1 / 2 ^ 200 := by norm_num
  exact lt_of_lt_of_le (mul_pos (by linarith) (by linarith [ulp_small])) (fl_bounds hfl h).1

/-- The division of two numbers which are neither null nor large. -/
theorem ratio_ge {m n : Nat} (hm : 0 < m) (hn : 0 < n) (h : n ≤ 2 ^ 53) : (1 : ℝ) / 2 ^ 60 ≤ (m : ℝ) / n := by
  have h1 : (1 : ℝ) ≤ m := by exact_mod_cast hm
  have h2 : (n : ℝ) ≤ 2 ^ 60 := by
    have : (n : ℝ) ≤ 2 ^ 53 := by exact_mod_cast h
    have h3 : (2 : ℝ) ^ 53 ≤ 2 ^ 60 := by norm_num
    linarith
  exact div_le_div₀ (by linarith) h1 (by exact_mod_cast hn) h2

theorem tryCandidate_eq (hfl : IsRounding fl) {sizes : Dict Nat Nat} {n i m size : Nat} (st : ℝ × Option Scores)
    (hs : sizes.get? i = some size) (hm : 0 < m) (hsize : 0 < size) (hn : 0 < n) (hsize' : size ≤ 2 ^ 53) (hn' : n ≤ 2 ^ 53) :
    tryCandidate fl sizes n st (i, m) =
      .ok (if st.1 < (scoresFloat fl m size n).2.2 then ((scoresFloat fl m size n).2.2, some (scoresFloat fl m size n)) else st) := by
  have e1 : (((m : Int) + ((size : Int) - m) : Int) : ℝ) = size := by push_cast; ring
  have e2 : (((m : Int) + ((n : Int) - m) : Int) : ℝ) = n := by push_cast; ring
  have h1 : (size : ℝ) ≠ 0 := by exact_mod_cast hsize.ne'
  have h2 : (n : ℝ) ≠ 0 := by exact_mod_cast hn.ne'
  have c : (1 : ℝ) / 2 ^ 200 ≤ 1 / 2 ^ 60 := by norm_num
  have hp := ratio_ge hm hsize hsize'
  have hp0 := fl_pos hfl (c.trans hp)
  have hr0 := fl_pos hfl (c.trans (ratio_ge hm hn hn'))
  have h3 : fl (fl ((m : ℝ) / size) + fl ((m : ℝ) / n)) ≠ 0 := by
    have := hfl.mono (show fl ((m : ℝ) / size) ≤ fl ((m : ℝ) / size) + fl ((m : ℝ) / n) by linarith)
    rw [hfl.of_double (hfl.double _)] at this
    linarith
  by_cases h : st.1 < (scoresFloat fl m size n).2.2
  · rw [if_pos h]
    unfold tryCandidate
    simp only [hs, div, e1, e2, h1, h2, h3, if_false, bind, Except.bind, pure, Except.pure]
    exact if_pos h
  · rw [if_neg h]
    unfold tryCandidate
    simp only [hs, div, e1, e2, h1, h2, h3, if_false, bind, Except.bind, pure, Except.pure]
    exact if_neg h

/-- A loop which keeps the greatest. -/
theorem candidates_fold {P : Nat × Nat → Prop} {step : ℝ × Option Scores → Nat × Nat → Py (ℝ × Option Scores)} {g : Nat × Nat → Scores}
    (hstep : ∀ st p, P p → step st p = .ok (if st.1 < (g p).2.2 then ((g p).2.2, some (g p)) else st)) :
    ∀ (cands : List (Nat × Nat)), (∀ p ∈ cands, P p) → ∀ st : ℝ × Option Scores,
    ∃ r, cands.foldlM step st = .ok r ∧ st.1 ≤ r.1 ∧ (∀ p ∈ cands, (g p).2.2 ≤ r.1) ∧
      (r = st ∨ ∃ p ∈ cands, r = ((g p).2.2, some (g p))) := by
  intro cands
  induction cands with
  | nil => intro _ st; exact ⟨st, rfl, le_rfl, by simp, Or.inl rfl⟩
  | cons p cands ih =>
      intro h st
      rw [List.foldlM_cons, hstep st p (h p (by simp))]
      obtain ⟨r, hr, hle, hall, hc⟩ := ih (fun q hq => h q (by simp [hq])) (if st.1 < (g p).2.2 then ((g p).2.2, some (g p)) else st)
      refine ⟨r, hr, ?_, ?_, ?_⟩
      · split at hle
        · next hlt => exact hlt.le.trans hle
        · exact hle
      · intro q hq
        rcases List.mem_cons.mp hq with rfl | hq
        · split at hle
          · exact hle
          · next hlt => exact (not_lt.mp hlt).trans hle
        · exact hall q hq
      · rcases hc with hc | ⟨q, hq, hc⟩
        · split at hc
          · exact Or.inr ⟨p, by simp, hc⟩
          · exact Or.inl hc
        · exact Or.inr ⟨q, by simp [hq], hc⟩

/-! ### Sizes -/

theorem hits_le_length (t c : List α) : hits t c ≤ t.length := List.length_filter_le _ _

theorem known_le_length (truth : List (List α)) (c : List α) : known truth c ≤ c.length := List.length_filter_le _ _

/-- In a truth cluster without repetitions, the items in common are those of the predicted cluster. -/
theorem hits_le_known {truth : List (List α)} {t : List α} (ht : t ∈ truth) (hnd : t.Nodup) (c : List α) : hits t c ≤ known truth c := by
  unfold hits known
  refine (List.Subperm.length_le ((hnd.filter _).subperm ?_))
  intro x hx
  obtain ⟨h1, h2⟩ := List.mem_filter.mp hx
  exact List.mem_filter.mpr ⟨of_decide_eq_true h2, decide_eq_true ⟨t, ht, h1⟩⟩

theorem harmonic_ratio {m s n : Nat} (hm : 0 < m) (hs : 0 < s) (hn : 0 < n) :
    2 * ((m : ℝ) / s) * ((m : ℝ) / n) / ((m : ℝ) / s + (m : ℝ) / n) = 2 * m / (n + s) := by
  have hm' : (0 : ℝ) < m := by exact_mod_cast hm
  have hs' : (0 : ℝ) < s := by exact_mod_cast hs
  have hn' : (0 : ℝ) < n := by exact_mod_cast hn
  field_simp

/-- The F1 score of a candidate, as it is computed. -/
theorem f1_near (hfl : IsRounding fl) {m s n : Nat} (hm : 0 < m) (hms : m ≤ s) (hmn : m ≤ n) (hs : s ≤ 2 ^ 53) (hn : n ≤ 2 ^ 53) :
    |(scoresFloat fl m s n).2.2 - 2 * m / (n + s)| ≤ 5 * ulp := by
  have hm' : (0 : ℝ) < m := by exact_mod_cast hm
  have hs' : (m : ℝ) ≤ s := by exact_mod_cast hms
  have hn' : (m : ℝ) ≤ n := by exact_mod_cast hmn
  obtain ⟨a, b⟩ := f1Float_bounds hfl (ratio_ge hm (by omega) hs) (ratio_ge hm (by omega : 0 < n) hn)
    (div_le_one_of_le₀ hs' (by linarith)) (div_le_one_of_le₀ hn' (by linarith))
  rw [harmonic_ratio hm (by omega) (by omega)] at a b
  have h1 : 2 * (m : ℝ) / (n + s) ≤ 1 := div_le_one_of_le₀ (by linarith) (by linarith)
  have h0 : 0 ≤ 2 * (m : ℝ) / (n + s) := div_nonneg (by linarith) (by linarith)
  have hu := ulp_pos
  have h2 : 2 * (m : ℝ) / (n + s) * (5 * ulp) ≤ 1 * (5 * ulp) := mul_le_mul_of_nonneg_right h1 (by linarith)
  unfold scoresFloat
  rw [abs_le]
  constructor <;> linarith

/-- Scores which differ are far enough for rounding not to swap them. -/
theorem f1_order (hfl : IsRounding fl) {m s m' s' n : Nat} (hm : 0 < m) (hms : m ≤ s) (hmn : m ≤ n) (hm' : 0 < m') (hms' : m' ≤ s')
    (hmn' : m' ≤ n) (hs : s ≤ 2 ^ 24) (hs' : s' ≤ 2 ^ 24) (hn : n ≤ 2 ^ 24)
    (h : (scoresFloat fl m' s' n).2.2 ≤ (scoresFloat fl m s n).2.2) : 2 * (m' : Rat) / (n + s') ≤ 2 * (m : Rat) / (n + s) := by
  by_contra hlt
  rw [not_le] at hlt
  have a := f1_near hfl hm hms hmn (hs.trans (by norm_num)) (hn.trans (by norm_num))
  have b := f1_near hfl hm' hms' hmn' (hs'.trans (by norm_num)) (hn.trans (by norm_num))
  have q1 : (0 : Rat) < n + s := by exact_mod_cast (by omega : 0 < n + s)
  have q2 : (0 : Rat) < n + s' := by exact_mod_cast (by omega : 0 < n + s')
  rw [div_lt_div_iff₀ q1 q2] at hlt
  have hnat : m * (n + s') + 1 ≤ m' * (n + s) := by
    have : 2 * m * (n + s') < 2 * m' * (n + s) := by exact_mod_cast hlt
    nlinarith
  have hreal : (m : ℝ) * (n + s') + 1 ≤ m' * (n + s) := by exact_mod_cast hnat
  have r1 : (0 : ℝ) < n + s := by exact_mod_cast (by omega : 0 < n + s)
  have r2 : (0 : ℝ) < n + s' := by exact_mod_cast (by omega : 0 < n + s')
  have d1 : ((n : ℝ) + s) ≤ 2 ^ 25 := by exact_mod_cast (by omega : n + s ≤ 2 ^ 25)
  have d2 : ((n : ℝ) + s') ≤ 2 ^ 25 := by exact_mod_cast (by omega : n + s' ≤ 2 ^ 25)
  have hdiff : 2 / 2 ^ 50 ≤ 2 * (m' : ℝ) / (n + s') - 2 * m / (n + s) := by
    rw [div_sub_div _ _ r2.ne' r1.ne']
    have hb : ((n : ℝ) + s') * (n + s) ≤ 2 ^ 50 := by
      calc ((n : ℝ) + s') * (n + s) ≤ 2 ^ 25 * 2 ^ 25 := mul_le_mul d2 d1 r1.le (by norm_num)
        _ = 2 ^ 50 := by norm_num
    exact div_le_div₀ (by nlinarith) (by nlinarith) (mul_pos r2 r1) hb
  have hu : 10 * ulp < 2 / 2 ^ 50 := by unfold ulp; norm_num
  rw [abs_le] at a b
  linarith [a.1, a.2, b.1, b.2]

/-! ### The whole function -/

/-- The scores of a predicted cluster for a truth cluster, as they are computed. -/
noncomputable def scoresOf (fl : ℝ → ℝ) (truth : List (List α)) (t c : List α) : Scores := scoresFloat fl (hits t c) (known truth c) t.length

theorem matchCluster_eq (hfl : IsRounding fl) {truth predicted : List (List α)} (hn : (predicted.flatten.filter (inTruth truth)).Nodup)
    {t : List α} (ht : t ∈ truth) (hne : t ≠ []) (hcov : ∀ x ∈ t, ∃ c ∈ predicted, x ∈ c) (hlen : t.length ≤ 2 ^ 53)
    (hpred : ∀ c ∈ predicted, c.length ≤ 2 ^ 53) :
    ∃ c ∈ predicted, 0 < hits t c ∧ (∀ c' ∈ predicted, 0 < hits t c' → (scoresOf fl truth t c').2.2 ≤ (scoresOf fl truth t c).2.2) ∧
      matchCluster fl (indexOf truth predicted) (sizesOf truth predicted) t = .ok (scoresOf fl truth t c) := by
  obtain ⟨cands, hfold, hcne, hcand, hall⟩ := candidates_eq hn ht hne hcov
  have hn0 : 0 < t.length := List.length_pos_iff.mpr hne
  let g : Nat × Nat → Scores := fun p => scoresFloat fl p.2 (known truth (predicted.getD p.1 [])) t.length
  have hgD : ∀ i c, predicted[i]? = some c → predicted.getD i [] = c := by
    intro i c hc
    rw [List.getD_eq_getElem?_getD, hc]
    rfl
  obtain ⟨r, hr, _, hmax, hc⟩ := candidates_fold (P := fun p => p ∈ cands) (step := tryCandidate fl (sizesOf truth predicted) t.length) (g := g)
    (by
      intro st p hp
      obtain ⟨c, hc, h2, hh, hk⟩ := hcand p hp
      have := tryCandidate_eq hfl st (get?_sizesOf truth predicted p.1 c hc) (h2 ▸ hh) hk hn0
        ((known_le_length truth c).trans (hpred c (List.mem_of_getElem? hc))) hlen
      simp only [g, hgD _ _ hc]
      exact this) cands (fun p hp => hp) (-1, none)
  have hg0 : ∀ p, 0 ≤ (g p).2.2 := by
    intro p
    exact f1Float_nonneg hfl (hfl.nonneg (by positivity)) (hfl.nonneg (by positivity))
  rcases hc with hc | ⟨p, hp, hc⟩
  · exfalso
    obtain ⟨p, hp⟩ := List.exists_mem_of_ne_nil _ hcne
    have h1 := hmax p hp
    rw [hc] at h1
    linarith [hg0 p]
  · obtain ⟨c, hc', h2, hh, _⟩ := hcand p hp
    have hgp : g p = scoresOf fl truth t c := by simp only [g, scoresOf, hgD _ _ hc', h2]
    refine ⟨c, List.mem_of_getElem? hc', hh, ?_, ?_⟩
    · intro c' hc'' hh'
      obtain ⟨i, hi, hmem⟩ := hall c' hc'' hh'
      have := hmax _ hmem
      rw [hc, hgp] at this
      simpa only [g, scoresOf, hgD _ _ hi] using this
    · unfold matchCluster
      rw [if_neg hne, hfold]
      simp only
      rw [hr, hc, hgp]

theorem addScores_fold {index : Dict α Nat} {sizes : Dict Nat Nat} {s : List α → Scores} :
    ∀ (truth : List (List α)), (∀ t ∈ truth, matchCluster fl index sizes t = .ok (s t)) →
    ∀ st : OnlineMean ℝ × OnlineMean ℝ × OnlineMean ℝ, truth.foldlM (addScores fl index sizes) st = .ok
      (⟨sumFloat fl (truth.map fun t => (s t).1) st.1.sum, st.1.n + truth.length⟩,
       ⟨sumFloat fl (truth.map fun t => (s t).2.1) st.2.1.sum, st.2.1.n + truth.length⟩,
       ⟨sumFloat fl (truth.map fun t => (s t).2.2) st.2.2.sum, st.2.2.n + truth.length⟩) := by
  intro truth
  induction truth with
  | nil => intro _ st; simp [pure, Except.pure, sumFloat]
  | cons t truth ih =>
      intro h st
      rw [List.foldlM_cons]
      have hstep : addScores fl index sizes st t = .ok (add fl st.1 (s t).1, add fl st.2.1 (s t).2.1, add fl st.2.2 (s t).2.2) := by
        unfold addScores; rw [h t (by simp)]
      rw [hstep]
      refine (ih (fun t' ht' => h t' (by simp [ht'])) _).trans ?_
      simp only [add, sumFloat, List.map_cons, List.foldl_cons, List.length_cons]
      simp only [Nat.add_assoc, Nat.add_comm 1]

/-- The results are the means of the scores of some predicted clusters, whose F1 scores as they are computed are the greatest. -/
theorem bestMatching_eq (hfl : IsRounding fl) {truth predicted : List (List α)} {allow : Bool} (h : Comparable truth predicted allow)
    (htruth : ∀ t ∈ truth, t.length ≤ 2 ^ 53) (hpred : ∀ c ∈ predicted, c.length ≤ 2 ^ 53) :
    ∃ best : List α → List α, (∀ t ∈ truth, best t ∈ predicted ∧ 0 < hits t (best t) ∧
        ∀ c' ∈ predicted, 0 < hits t c' → (scoresOf fl truth t c').2.2 ≤ (scoresOf fl truth t (best t)).2.2) ∧
      bestMatching fl truth predicted allow = .ok (meanFloat fl (truth.map fun t => (scoresOf fl truth t (best t)).1),
        meanFloat fl (truth.map fun t => (scoresOf fl truth t (best t)).2.1),
        meanFloat fl (truth.map fun t => (scoresOf fl truth t (best t)).2.2)) := by
  have hq : ∀ x, inTruth truth x = true ↔ x ∈ truthItems truth := by
    intro x
    unfold inTruth truthItems
    rw [mem_dedup, List.mem_flatten, decide_eq_true_eq]
  have hdis : (predicted.flatten.filter (inTruth truth)).Nodup := h.disjoint
  have hidx := (indexClusters_fold hq allow predicted 0 [] [] (by simp [Dict.keys]) (by simp [Dict.keys])).1
    ⟨h.predicted_clusters, fun ha c hc x hx => decide_eq_true (h.no_additional ha c hc x hx), by simpa [Dict.keys] using hdis⟩
  have hm : ∀ t ∈ truth, ∃ c, (c ∈ predicted ∧ 0 < hits t c ∧
      ∀ c' ∈ predicted, 0 < hits t c' → (scoresOf fl truth t c').2.2 ≤ (scoresOf fl truth t c).2.2) ∧
      matchCluster fl (indexOf truth predicted) (sizesOf truth predicted) t = .ok (scoresOf fl truth t c) := by
    intro t ht
    obtain ⟨c, h1, h2, h3, h4⟩ := matchCluster_eq hfl hdis ht (h.truth_clusters t ht) (h.covered t ht) (htruth t ht) hpred
    exact ⟨c, ⟨h1, h2, h3⟩, h4⟩
  classical
  let best : List α → List α := fun t => if ht : t ∈ truth then (hm t ht).choose else []
  have hbest : ∀ t ∈ truth, (best t ∈ predicted ∧ 0 < hits t (best t) ∧
      ∀ c' ∈ predicted, 0 < hits t c' → (scoresOf fl truth t c').2.2 ≤ (scoresOf fl truth t (best t)).2.2) ∧
      matchCluster fl (indexOf truth predicted) (sizesOf truth predicted) t = .ok (scoresOf fl truth t (best t)) := by
    intro t ht
    have : best t = (hm t ht).choose := dif_pos ht
    rw [this]
    exact (hm t ht).choose_spec
  refine ⟨best, fun t ht => (hbest t ht).1, ?_⟩
  have hfold := addScores_fold truth (fun t ht => (hbest t ht).2) (OnlineMean.new, OnlineMean.new, OnlineMean.new)
  unfold bestMatching
  have h0 : truth.length ≠ 0 := by simpa using h.truth_ne
  rw [if_neg h0, if_neg (by simpa using h.predicted_ne), hidx]
  simp only [List.nil_append]
  change (match truth.foldlM (addScores fl (indexOf truth predicted) (sizesOf truth predicted)) _ with
    | .error e => _
    | .ok (P, R, F) => _) = _
  rw [hfold]
  simp [OnlineMean.new, peek, h0, meanFloat, bind, Except.bind, pure, Except.pure]

end Fog.BestMatchingFloat
