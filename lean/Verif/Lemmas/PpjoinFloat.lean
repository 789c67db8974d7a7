import Verif.Model.PpjoinFloat
import Verif.Lemmas.Binary64
import Verif.Lemmas.PpjoinHelpers

/-! # The helpers of ppjoin are lawful in double precision, for records of at most `2 ^ 26` tokens -/

namespace Fog.PpjoinFloat

open Fog.Ppjoin Fog.Spec

variable {fl : ℝ → ℝ}

theorem err (hfl : IsRounding fl) {x : ℝ} (h0 : 0 ≤ x) (h : x ≤ 2 ^ 28) : fl x ≤ x + 1 / 2 ^ 26 ∧ x - 1 / 2 ^ 26 ≤ fl x := by
  have h1 : (2 : ℝ) ^ (28 : ℤ) = 2 ^ 28 := by norm_cast
  have h2 : (2 : ℝ) ^ (28 - 54 : ℤ) = 1 / 2 ^ 26 := by norm_num
  have := hfl.abs_error (x := x) (k := 28) (by norm_num) (by rw [abs_of_nonneg h0, h1]; exact h)
  rw [h2, abs_le] at this
  constructor <;> linarith

theorem err_sub (hfl : IsRounding fl) {x : ℝ} (h0 : -1 ≤ x) (h : x ≤ 2 ^ 28) : fl x ≤ x + 1 / 2 ^ 26 ∧ x - 1 / 2 ^ 26 ≤ fl x := by
  have h1 : (2 : ℝ) ^ (28 : ℤ) = 2 ^ 28 := by norm_cast
  have h2 : (2 : ℝ) ^ (28 - 54 : ℤ) = 1 / 2 ^ 26 := by norm_num
  have := hfl.abs_error (x := x) (k := 28) (by norm_num) (by
    rw [h1, abs_le]
    constructor
    · have : (-(2 ^ 28) : ℝ) ≤ -1 := by norm_num
      linarith
    · exact h)
  rw [h2, abs_le] at this
  constructor <;> linarith

theorem unit_err (hfl : IsRounding fl) {x : ℝ} (h0 : 0 ≤ x) (h : x ≤ 2) : fl x ≤ x + 1 / 2 ^ 53 ∧ x - 1 / 2 ^ 53 ≤ fl x := by
  have h1 : (2 : ℝ) ^ (1 : ℤ) = 2 := by norm_num
  have h2 : (2 : ℝ) ^ (1 - 54 : ℤ) = 1 / 2 ^ 53 := by norm_num
  have := hfl.abs_error (x := x) (k := 1) (by norm_num) (by rw [abs_of_nonneg h0, h1]; exact h)
  rw [h2, abs_le] at this
  constructor <;> linarith

theorem eps (hfl : IsRounding fl) : epsilon fl ≤ 1 / 1000000 + 1 / 2 ^ 53 ∧ 1 / 1000000 - 1 / 2 ^ 53 ≤ epsilon fl ∧ 0 ≤ epsilon fl :=
  ⟨(unit_err hfl (by norm_num) (by norm_num)).1, (unit_err hfl (by norm_num) (by norm_num)).2, hfl.nonneg (by norm_num)⟩

theorem two {x : ℝ} (h : IsDouble x) : IsDouble (2 * x) := by
  obtain ⟨m, e, h1, h2, rfl⟩ := h
  refine ⟨m, e + 1, h1, by omega, ?_⟩
  rw [zpow_add_one₀ (by norm_num)]
  ring

theorem length_exact (hfl : IsRounding fl) {l : Nat} (h : l ≤ 2 ^ 26) : fl l = l := hfl.nat (h.trans (by norm_num))

theorem length_le {l : Nat} (h : l ≤ 2 ^ 26) : (l : ℝ) ≤ 2 ^ 26 := by exact_mod_cast h

/-- What is below the call of `int` is at least one, and grows with the first factor. -/
theorem prefix_ge (hfl : IsRounding fl) {x : ℝ} (h : 0 ≤ x) (l : Nat) : 1 ≤ prefixFloat fl x l := by
  have h1 : 0 ≤ fl (x * fl l) := hfl.nonneg (mul_nonneg h (hfl.nonneg (Nat.cast_nonneg l)))
  have h2 : 1 ≤ fl (fl (x * fl l) + 1) := by
    have := hfl.mono (show (1 : ℝ) ≤ fl (x * fl l) + 1 by linarith)
    rwa [hfl.one] at this
  have := hfl.mono (show (1 : ℝ) ≤ fl (fl (x * fl l) + 1) + epsilon fl by linarith [(eps hfl).2.2])
  rwa [hfl.one] at this

theorem prefix_mono (hfl : IsRounding fl) {x y : ℝ} (h : x ≤ y) (l : Nat) : prefixFloat fl x l ≤ prefixFloat fl y l := by
  have hl : 0 ≤ fl l := hfl.nonneg (Nat.cast_nonneg l)
  have h1 := hfl.mono (mul_le_mul_of_nonneg_right h hl)
  have h2 := hfl.mono (show fl (x * fl l) + 1 ≤ fl (y * fl l) + 1 by linarith)
  exact hfl.mono (by linarith)

/-- The error, when the first factor is itself known up to a few units. -/
theorem prefix_err (hfl : IsRounding fl) {x y : ℝ} (h0 : 0 ≤ x) (h1 : x ≤ 1) (hx : x ≤ y + 3 / 2 ^ 53) (hy : y - 3 / 2 ^ 53 ≤ x)
    {l : Nat} (hl : l ≤ 2 ^ 26) : prefixFloat fl x l ≤ y * l + 1 + 1 / 1000000 + 1 / 2 ^ 23 ∧
      y * l + 1 + 1 / 1000000 - 1 / 2 ^ 23 ≤ prefixFloat fl x l := by
  have hl0 : (0 : ℝ) ≤ l := Nat.cast_nonneg l
  have hl1 := length_le hl
  have e1 : x * l ≤ l := by nlinarith
  have e2 : x * l ≤ (y + 3 / 2 ^ 53) * l := mul_le_mul_of_nonneg_right hx hl0
  have e3 : (y - 3 / 2 ^ 53) * l ≤ x * l := mul_le_mul_of_nonneg_right hy hl0
  have e4 : (3 / 2 ^ 53 : ℝ) * l ≤ 3 / 2 ^ 27 := by
    have : (3 / 2 ^ 53 : ℝ) * l ≤ 3 / 2 ^ 53 * 2 ^ 26 := mul_le_mul_of_nonneg_left hl1 (by norm_num)
    norm_num at this ⊢
    linarith
  obtain ⟨k1, k2, k3⟩ := eps hfl
  unfold prefixFloat
  rw [length_exact hfl hl]
  have f0 := hfl.nonneg (mul_nonneg h0 hl0)
  have c1 : (2 : ℝ) ^ 26 + 1000 ≤ 2 ^ 28 := by norm_num
  have c2 : (1 : ℝ) / 2 ^ 26 ≤ 1 := by norm_num
  have c3 : (1 : ℝ) / 1000000 + 1 / 2 ^ 53 ≤ 1 := by norm_num
  obtain ⟨f1, f2⟩ := err hfl (mul_nonneg h0 hl0) (by linarith)
  obtain ⟨g1, g2⟩ := err hfl (x := fl (x * l) + 1) (by linarith) (by linarith)
  have g0 : 0 ≤ fl (fl (x * l) + 1) := hfl.nonneg (by linarith)
  obtain ⟨j1, j2⟩ := err hfl (x := fl (fl (x * l) + 1) + epsilon fl) (by linarith) (by linarith)
  have c4 : (3 : ℝ) / 2 ^ 27 + 3 * (1 / 2 ^ 26) + 1 / 2 ^ 53 ≤ 1 / 2 ^ 23 := by norm_num
  constructor <;> linarith

/-- Subtracting `EPSILON`, from a number known up to a small error. -/
theorem minus_eps (hfl : IsRounding fl) {x y : ℝ} (h0 : 0 ≤ x) (h1 : x ≤ 2 ^ 27 + 1) (h : x ≤ y + 1 / 2 ^ 22) : fl (x - epsilon fl) ≤ y := by
  obtain ⟨k1, k2, k3⟩ := eps hfl
  have c1 : (2 : ℝ) ^ 27 + 1 ≤ 2 ^ 28 := by norm_num
  have c2 : (1 : ℝ) / 1000000 + 1 / 2 ^ 53 ≤ 1 := by norm_num
  have c3 : (1 : ℝ) / 2 ^ 26 + 1 / 2 ^ 22 + 1 / 2 ^ 53 ≤ 1 / 1000000 := by norm_num
  have := (err_sub hfl (x := x - epsilon fl) (by linarith) (by linarith)).1
  linarith

/-- A similarity which reaches the threshold up to a small error still does once `EPSILON` is added. -/
theorem plus_eps (hfl : IsRounding fl) {t x : ℝ} (ht : IsDouble t) (h : t ≤ x + 1 / 2 ^ 24) : t ≤ fl (x + epsilon fl) := by
  have c : (1 : ℝ) / 2 ^ 24 + 1 / 2 ^ 53 ≤ 1 / 1000000 := by norm_num
  have := hfl.mono (show t ≤ x + epsilon fl by linarith [(eps hfl).2.1])
  rwa [hfl.of_double ht] at this

/-- And one which reaches it once `EPSILON` is added is not far below it. -/
theorem of_plus_eps (hfl : IsRounding fl) {t s : ℝ} (h0 : 0 ≤ s) (h1 : s ≤ 1) (h : t ≤ fl (fl s + epsilon fl)) :
    t - 1 / 1000000 - 1 / 2 ^ 51 ≤ s := by
  obtain ⟨k1, k2, k3⟩ := eps hfl
  have c : (1 : ℝ) / 1000000 + 1 / 2 ^ 53 ≤ 1 := by norm_num
  have a1 := unit_err hfl h0 (by linarith)
  have a2 := hfl.nonneg h0
  have a3 := hfl.le_one h1
  have a4 := unit_err hfl (x := fl s + epsilon fl) (by linarith) (by linarith)
  have c3 : 3 * (1 / 2 ^ 53 : ℝ) ≤ 1 / 2 ^ 51 := by norm_num
  linarith

theorem min_mono_aux (hfl : IsRounding fl) {l l' : Nat} (h : l ≤ l') : fl (l : ℝ) ≤ fl (l' : ℝ) := hfl.mono (by exact_mod_cast h)

/-- `JaccardHelper`. -/
theorem jaccard_lawful (hfl : IsRounding fl) {t : ℝ} (hd : IsDouble t) (h0 : 2 / 1000000 ≤ t) (h1 : t < 1) :
    LawfulUpTo (2 ^ 26) (jaccardHelper fl t) (fun l1 l2 o => t ≤ (o : ℝ) / ((l1 : ℝ) + l2 - o)) := by
  have ht : 0 < t := lt_of_lt_of_le (by norm_num) h0
  have hs1 : 1 ≤ fl (1 + t) := by have := hfl.mono (show 1 ≤ 1 + t by linarith); rwa [hfl.one] at this
  have hs2 : fl (1 + t) ≤ 2 := by
    have := hfl.mono (show 1 + t ≤ ((2 : Nat) : ℝ) by push_cast; linarith)
    rwa [hfl.nat (by norm_num)] at this
  have h2t : fl (2 * t) = 2 * t := hfl.of_double (two hd)
  have hq1 : fl (2 * t) / fl (1 + t) ≤ 1 := by
    rw [div_le_one (by linarith)]
    exact hfl.mono (by linarith)
  have hq2 : t ≤ fl (fl (2 * t) / fl (1 + t)) := by
    have : t ≤ fl (2 * t) / fl (1 + t) := by
      rw [h2t, le_div_iff₀ (by linarith)]; nlinarith
    have := hfl.mono this
    rwa [hfl.of_double hd] at this
  have ha : 0 ≤ fl (1 - fl (fl (2 * t) / fl (1 + t))) := hfl.nonneg (by linarith [hfl.le_one hq1])
  have hab : fl (1 - fl (fl (2 * t) / fl (1 + t))) ≤ fl (1 - t) := hfl.mono (by linarith)
  have hp0 : 0 ≤ fl (1 - t) := hfl.nonneg (by linarith)
  have hp1 : fl (1 - t) ≤ 1 := hfl.le_one (by linarith)
  obtain ⟨hp2, hp3⟩ := unit_err hfl (x := 1 - t) (by linarith) (by linarith)
  have hprobe : ∀ l : Nat, l ≤ 2 ^ 26 → _ := fun l hl => prefix_err hfl hp0 hp1 (y := 1 - t) (by linarith) (by linarith) hl
  have hidx : ∀ l : Nat, 1 ≤ (jaccardHelper fl t).indexLength l := by
    intro l
    have := prefix_ge hfl ha l
    simp only [jaccardHelper]
    rw [le_pyInt (by linarith)]
    push_cast
    exact this
  refine ⟨fun l _ _ => threshold_lt_index h1 (hidx l), fun l _ _ => hidx l, ?_, ?_, ?_, ?_⟩
  · intro l _ _
    exact pyInt_mono (by linarith [prefix_ge hfl ha l]) (prefix_mono hfl hab l)
  · intro l hl1 hl
    have hl1' : (1 : ℝ) ≤ (l : ℝ) := by exact_mod_cast hl1
    have h2 : t * 1 ≤ t * (l : ℝ) := mul_le_mul_of_nonneg_left hl1' ht.le
    apply pyInt_le
    · linarith [prefix_ge hfl hp0 l]
    · have := (hprobe l hl).1
      have c : (1 : ℝ) / 2 ^ 23 < 1 / 1000000 := by norm_num
      push_cast; linarith
  · intro l l' hl _
    apply Int.ceil_le_ceil
    have h2 := hfl.mono (mul_le_mul_of_nonneg_right (min_mono_aux hfl hl) ht.le)
    exact hfl.mono (by linarith)
  · intro l1 l2 o ho hl hl2 hN hs
    have hN1 := length_le hN
    have hN2 := length_le (hl.trans hN)
    have c1 : (o : ℝ) ≤ (l2 : ℝ) := by exact_mod_cast ho
    have c2 : (l2 : ℝ) ≤ (l1 : ℝ) := by exact_mod_cast hl
    have c3 : (1 : ℝ) ≤ (l2 : ℝ) := by exact_mod_cast hl2
    have hd' : 0 < (l1 : ℝ) + l2 - o := by linarith
    have hs' := hs
    rw [le_div_iff₀ hd'] at hs
    have p1 : t * (l1 : ℝ) ≤ t * ((l1 : ℝ) + l2 - o) := mul_le_mul_of_nonneg_left (by linarith) ht.le
    have p2 : t * (l2 : ℝ) ≤ t * ((l1 : ℝ) + l2 - o) := mul_le_mul_of_nonneg_left (by linarith) ht.le
    have p3 : 0 < t * (l1 : ℝ) := mul_pos ht (by linarith)
    have hopos : (0 : ℝ) < (o : ℝ) := by linarith
    have cc : (1 : ℝ) / 2 ^ 23 ≤ 1 / 1000000 := by norm_num
    refine ⟨by exact_mod_cast hopos, ?_, ?_, ?_, ?_, ?_⟩
    · simp only [jaccardHelper]
      rw [Int.ceil_le, length_exact hfl hN]; push_cast
      have b1 : (l1 : ℝ) * t ≤ l1 := by nlinarith
      have b2 : (0 : ℝ) ≤ (l1 : ℝ) * t := by linarith
      have b3 := err hfl b2 (by linarith [show (2 : ℝ) ^ 26 ≤ 2 ^ 28 by norm_num])
      apply minus_eps hfl (hfl.nonneg b2)
      · linarith [show (2 : ℝ) ^ 26 + 1 / 2 ^ 26 ≤ 2 ^ 27 + 1 by norm_num]
      · linarith [show (1 : ℝ) / 2 ^ 26 ≤ 1 / 2 ^ 22 by norm_num]
    · simp only [jaccardHelper]
      rw [le_pyInt (by linarith [prefix_ge hfl hp0 l1])]
      have := (hprobe l1 hN).2
      push_cast; linarith
    · simp only [jaccardHelper]
      rw [le_pyInt (by linarith [prefix_ge hfl hp0 l2])]
      have := (hprobe l2 (hl.trans hN)).2
      push_cast; linarith
    · simp only [jaccardHelper]
      rw [Int.ceil_le]
      have e0 : fl ((l1 : ℝ) + l2) = (l1 : ℝ) + l2 := by
        have := hfl.nat (n := l1 + l2) (by omega)
        push_cast at this
        exact this
      rw [e0]
      have e1 : t / (1 + t) * ((l1 : ℝ) + l2) ≤ (o : ℝ) := by
        rw [div_mul_eq_mul_div, div_le_iff₀ (by linarith)]
        linarith
      have s1 := unit_err hfl (x := 1 + t) (by linarith) (by linarith)
      have e2 : t / fl (1 + t) ≤ t / (1 + t) + 1 / 2 ^ 53 := by
        have : t ≤ (t / (1 + t) + 1 / 2 ^ 53) * fl (1 + t) := by
          have q1 : t / (1 + t) * (1 + t) = t := div_mul_cancel₀ _ (by linarith)
          have q2 : t / (1 + t) ≤ 1 := by rw [div_le_one (by linarith)]; linarith
          have q3 : 0 ≤ t / (1 + t) := by positivity
          have q4 : t / (1 + t) * (1 + t - 1 / 2 ^ 53) ≤ t / (1 + t) * fl (1 + t) := mul_le_mul_of_nonneg_left (by linarith) q3
          have q5 : (1 / 2 ^ 53 : ℝ) * 1 ≤ 1 / 2 ^ 53 * fl (1 + t) := mul_le_mul_of_nonneg_left hs1 (by norm_num)
          have q6 : t / (1 + t) * (1 / 2 ^ 53) ≤ 1 * (1 / 2 ^ 53) := mul_le_mul_of_nonneg_right q2 (by norm_num)
          linarith
        rwa [div_le_iff₀ (by linarith)]
      have e3 : 0 ≤ t / fl (1 + t) := by positivity
      have e4 : t / fl (1 + t) ≤ 1 := by rw [div_le_one (by linarith)]; linarith
      have e5 := (unit_err hfl e3 (by linarith)).1
      have e6 := hfl.nonneg e3
      have e7 := hfl.le_one e4
      have n0 : (0 : ℝ) ≤ (l1 : ℝ) + l2 := by linarith
      have n1 : (l1 : ℝ) + l2 ≤ 2 ^ 27 := by
        linarith [show (2 : ℝ) ^ 26 + 2 ^ 26 = 2 ^ 27 by norm_num]
      have m1 : fl (t / fl (1 + t)) * ((l1 : ℝ) + l2) ≤ (t / (1 + t) + 2 / 2 ^ 53) * ((l1 : ℝ) + l2) :=
        mul_le_mul_of_nonneg_right (by linarith) n0
      have m2 : (2 / 2 ^ 53 : ℝ) * ((l1 : ℝ) + l2) ≤ 2 / 2 ^ 53 * 2 ^ 27 := mul_le_mul_of_nonneg_left (by linarith) (by norm_num)
      have m3 : fl (t / fl (1 + t)) * ((l1 : ℝ) + l2) ≤ 1 * ((l1 : ℝ) + l2) := mul_le_mul_of_nonneg_right e7 n0
      have m4 : 0 ≤ fl (t / fl (1 + t)) * ((l1 : ℝ) + l2) := mul_nonneg e6 n0
      have m5 := err hfl m4 (by linarith [show (2 : ℝ) ^ 27 ≤ 2 ^ 28 by norm_num])
      apply minus_eps hfl (hfl.nonneg m4)
      · linarith [show (1 : ℝ) / 2 ^ 26 ≤ 1 by norm_num]
      · push_cast
        linarith [show (2 / 2 ^ 53 : ℝ) * 2 ^ 27 + 1 / 2 ^ 26 ≤ 1 / 2 ^ 22 by norm_num]
    · simp only [jaccardHelper]
      push_cast
      apply plus_eps hfl hd
      have := hfl.mono hs'
      rw [hfl.of_double hd] at this
      linarith [show (0 : ℝ) ≤ 1 / 2 ^ 24 by norm_num]

set_option maxHeartbeats 1000000 in
/-- `DiceHelper`. -/
theorem dice_lawful (hfl : IsRounding fl) {t : ℝ} (hd : IsDouble t) (h0 : 4 / 1000000 ≤ t) (h1 : t < 1) :
    LawfulUpTo (2 ^ 26) (diceHelper fl t) (fun l1 l2 o => t ≤ 2 * (o : ℝ) / ((l1 : ℝ) + l2)) := by
  have ht : 0 < t := lt_of_lt_of_le (by norm_num) h0
  have hs1 : 1 ≤ fl (2 - t) := by have := hfl.mono (show 1 ≤ 2 - t by linarith); rwa [hfl.one] at this
  have hr := unit_err hfl (x := 2 - t) (by linarith) (by linarith)
  have hq1 : t / fl (2 - t) ≤ t := div_le_self ht.le hs1
  have hq0 : 0 ≤ t / fl (2 - t) := by positivity
  have hq2 : fl (t / fl (2 - t)) ≤ t := by have := hfl.mono hq1; rwa [hfl.of_double hd] at this
  have hq3 := hfl.nonneg hq0
  have ha : 0 ≤ fl (1 - t) := hfl.nonneg (by linarith)
  have hab : fl (1 - t) ≤ fl (1 - fl (t / fl (2 - t))) := hfl.mono (by linarith)
  have hp0 : 0 ≤ fl (1 - fl (t / fl (2 - t))) := hfl.nonneg (by linarith)
  have hp1 : fl (1 - fl (t / fl (2 - t))) ≤ 1 := hfl.le_one (by linarith)
  -- the error made on the quotient
  have hqa : 0 < t / (2 - t) := div_pos ht (by linarith)
  have hqb : t / (2 - t) ≤ 1 := by rw [div_le_one (by linarith)]; linarith
  have hqc : t / (2 - t) * (2 - t) = t := div_mul_cancel₀ _ (by linarith)
  have q5 : (1 / 2 ^ 53 : ℝ) * 1 ≤ 1 / 2 ^ 53 * fl (2 - t) := mul_le_mul_of_nonneg_left hs1 (by norm_num)
  have q6 : t / (2 - t) * (1 / 2 ^ 53) ≤ 1 * (1 / 2 ^ 53) := mul_le_mul_of_nonneg_right hqb (by norm_num)
  have hup : t / fl (2 - t) ≤ t / (2 - t) + 1 / 2 ^ 53 := by
    rw [div_le_iff₀ (by linarith)]
    have q4 : t / (2 - t) * (2 - t - 1 / 2 ^ 53) ≤ t / (2 - t) * fl (2 - t) := mul_le_mul_of_nonneg_left (by linarith) hqa.le
    linarith
  have hlow : t / (2 - t) - 1 / 2 ^ 53 ≤ t / fl (2 - t) := by
    rw [le_div_iff₀ (by linarith)]
    have q4 : t / (2 - t) * fl (2 - t) ≤ t / (2 - t) * (2 - t + 1 / 2 ^ 53) := mul_le_mul_of_nonneg_left (by linarith) hqa.le
    linarith
  obtain ⟨u1, u2⟩ := unit_err hfl hq0 (by linarith)
  obtain ⟨hp2, hp3⟩ := unit_err hfl (x := 1 - fl (t / fl (2 - t))) (by linarith) (by linarith)
  have hprobe : ∀ l : Nat, l ≤ 2 ^ 26 → _ := fun l hl => prefix_err hfl hp0 hp1 (y := 1 - t / (2 - t)) (by linarith) (by linarith) hl
  have hidx : ∀ l : Nat, 1 ≤ (diceHelper fl t).indexLength l := by
    intro l
    have := prefix_ge hfl ha l
    simp only [diceHelper]
    rw [le_pyInt (by linarith)]
    push_cast
    exact this
  refine ⟨fun l _ _ => threshold_lt_index h1 (hidx l), fun l _ _ => hidx l, ?_, ?_, ?_, ?_⟩
  · intro l _ _
    exact pyInt_mono (by linarith [prefix_ge hfl ha l]) (prefix_mono hfl hab l)
  · intro l hl1 hl
    have hl1' : (1 : ℝ) ≤ (l : ℝ) := by exact_mod_cast hl1
    have h3 : t / 2 ≤ t / (2 - t) := div_le_div_of_nonneg_left ht.le (by linarith) (by linarith)
    have h2 : t / 2 * 1 ≤ t / (2 - t) * (l : ℝ) := mul_le_mul h3 hl1' (by norm_num) hqa.le
    apply pyInt_le
    · linarith [prefix_ge hfl hp0 l]
    · have := (hprobe l hl).1
      have c : (1 : ℝ) / 2 ^ 23 < 1 / 1000000 := by norm_num
      push_cast; linarith
  · intro l l' hl _
    apply Int.ceil_le_ceil
    have h2 := hfl.mono (mul_le_mul_of_nonneg_right (min_mono_aux hfl hl) ht.le)
    have h3 := hfl.mono (div_le_div_of_nonneg_right h2 (show (0 : ℝ) ≤ fl (2 - t) by linarith))
    exact hfl.mono (by linarith)
  · intro l1 l2 o ho hl hl2 hN hs
    have hN1 := length_le hN
    have hN2 := length_le (hl.trans hN)
    have c1 : (o : ℝ) ≤ (l2 : ℝ) := by exact_mod_cast ho
    have c2 : (l2 : ℝ) ≤ (l1 : ℝ) := by exact_mod_cast hl
    have c3 : (1 : ℝ) ≤ (l2 : ℝ) := by exact_mod_cast hl2
    have hd' : 0 < (l1 : ℝ) + l2 := by linarith
    have hs' := hs
    rw [le_div_iff₀ hd'] at hs
    have p3 : 0 < t * (l1 : ℝ) := mul_pos ht (by linarith)
    have p4 : 0 < t * (l2 : ℝ) := mul_pos ht (by linarith)
    have hopos : (0 : ℝ) < (o : ℝ) := by linarith
    have cc : (1 : ℝ) / 2 ^ 23 ≤ 1 / 1000000 := by norm_num
    -- t l1 / (2 - t) ≤ l2 and likewise for the overlap
    have r1 : t / (2 - t) * l1 ≤ l2 := by
      rw [div_mul_eq_mul_div, div_le_iff₀ (by linarith)]; nlinarith
    have r2 : t / (2 - t) * l1 ≤ o := by
      rw [div_mul_eq_mul_div, div_le_iff₀ (by linarith)]; nlinarith
    have r3 : t / (2 - t) * l2 ≤ o := by
      have := mul_le_mul_of_nonneg_left c2 hqa.le
      linarith
    refine ⟨by exact_mod_cast hopos, ?_, ?_, ?_, ?_, ?_⟩
    · simp only [diceHelper]
      rw [Int.ceil_le, length_exact hfl hN]; push_cast
      have b1 : (l1 : ℝ) * t ≤ l1 := by nlinarith
      have b2 : (0 : ℝ) ≤ (l1 : ℝ) * t := by linarith
      have b3 := err hfl b2 (by linarith [show (2 : ℝ) ^ 26 ≤ 2 ^ 28 by norm_num])
      have b4 := hfl.nonneg b2
      have b5 : fl ((l1 : ℝ) * t) / fl (2 - t) ≤ fl ((l1 : ℝ) * t) := div_le_self b4 hs1
      have b6 : fl ((l1 : ℝ) * t) / fl (2 - t) ≤ l1 * t / fl (2 - t) + 1 / 2 ^ 26 := by
        have : fl ((l1 : ℝ) * t) / fl (2 - t) ≤ (l1 * t + 1 / 2 ^ 26) / fl (2 - t) := div_le_div_of_nonneg_right b3.1 (by linarith)
        rw [add_div] at this
        have h : (1 / 2 ^ 26 : ℝ) / fl (2 - t) ≤ 1 / 2 ^ 26 := div_le_self (by norm_num) hs1
        linarith
      have b7 : (l1 : ℝ) * t / fl (2 - t) ≤ l2 + 1 / 2 ^ 26 := by
        have e1 : (l1 : ℝ) * t / fl (2 - t) = t / fl (2 - t) * l1 := by ring
        have e2 := mul_le_mul_of_nonneg_right hup (show (0 : ℝ) ≤ l1 by linarith)
        have e3 : (1 / 2 ^ 53 : ℝ) * l1 ≤ 1 / 2 ^ 53 * 2 ^ 26 := mul_le_mul_of_nonneg_left hN1 (by norm_num)
        rw [e1]
        linarith [show (1 / 2 ^ 53 : ℝ) * 2 ^ 26 ≤ 1 / 2 ^ 26 by norm_num]
      have b8 : 0 ≤ fl ((l1 : ℝ) * t) / fl (2 - t) := div_nonneg b4 (by linarith)
      have b9 := err hfl b8 (by linarith [show (2 : ℝ) ^ 26 + 1 / 2 ^ 26 ≤ 2 ^ 28 by norm_num])
      apply minus_eps hfl (hfl.nonneg b8)
      · linarith [show (2 : ℝ) ^ 26 + 2 / 2 ^ 26 ≤ 2 ^ 27 + 1 by norm_num]
      · linarith [show (3 : ℝ) / 2 ^ 26 ≤ 1 / 2 ^ 22 by norm_num]
    · simp only [diceHelper]
      rw [le_pyInt (by linarith [prefix_ge hfl hp0 l1])]
      have := (hprobe l1 hN).2
      push_cast; linarith
    · simp only [diceHelper]
      rw [le_pyInt (by linarith [prefix_ge hfl hp0 l2])]
      have := (hprobe l2 (hl.trans hN)).2
      push_cast; linarith
    · simp only [diceHelper]
      rw [Int.ceil_le]
      have e0 : fl ((l1 : ℝ) + l2) = (l1 : ℝ) + l2 := by
        have := hfl.nat (n := l1 + l2) (by omega)
        push_cast at this
        exact this
      rw [e0]
      have n1 : (l1 : ℝ) + l2 ≤ 2 ^ 27 := by
        linarith [show (2 : ℝ) ^ 26 + 2 ^ 26 = 2 ^ 27 by norm_num]
      have m0 : 0 ≤ ((l1 : ℝ) + l2) * t := by linarith
      have m1 : ((l1 : ℝ) + l2) * t ≤ (l1 : ℝ) + l2 := by nlinarith
      have m2 := err hfl m0 (by linarith [show (2 : ℝ) ^ 27 ≤ 2 ^ 28 by norm_num])
      have m3 := hfl.nonneg m0
      have m4 := err hfl (x := fl (((l1 : ℝ) + l2) * t) / 2) (by linarith) (by
        linarith [show (2 : ℝ) ^ 27 + 1 / 2 ^ 26 ≤ 2 ^ 28 by norm_num])
      apply minus_eps hfl (hfl.nonneg (by linarith))
      · linarith [show (2 : ℝ) / 2 ^ 26 ≤ 1 by norm_num, show (0 : ℝ) ≤ 2 ^ 27 by norm_num]
      · push_cast
        linarith [show (2 : ℝ) / 2 ^ 26 ≤ 1 / 2 ^ 22 by norm_num]
    · simp only [diceHelper]
      push_cast
      apply plus_eps hfl hd
      have := hfl.mono hs'
      rw [hfl.of_double hd] at this
      linarith [show (0 : ℝ) ≤ 1 / 2 ^ 24 by norm_num]

set_option maxHeartbeats 1000000 in
/-- `BinaryCosineHelper`. -/
theorem binaryCosine_lawful (hfl : IsRounding fl) {t : ℝ} (hd : IsDouble t) (h00 : 0 ≤ t) (h0 : 2 / 1000000 ≤ t * t) (h1 : t < 1) :
    LawfulUpTo (2 ^ 26) (binaryCosineHelper fl t) (fun l1 l2 o => t ≤ (o : ℝ) / Real.sqrt ((l1 : ℝ) * l2)) := by
  have htt : 0 < t * t := lt_of_lt_of_le (by norm_num) h0
  have ht : 0 < t := lt_of_le_of_ne h00 (by rintro rfl; simp at htt)
  have hq1 : t * t ≤ t := by nlinarith
  have hq2 : fl (t * t) ≤ t := by have := hfl.mono hq1; rwa [hfl.of_double hd] at this
  have hq3 := hfl.nonneg htt.le
  have ha : 0 ≤ fl (1 - t) := hfl.nonneg (by linarith)
  have hab : fl (1 - t) ≤ fl (1 - fl (t * t)) := hfl.mono (by linarith)
  have hp0 : 0 ≤ fl (1 - fl (t * t)) := hfl.nonneg (by linarith)
  have hp1 : fl (1 - fl (t * t)) ≤ 1 := hfl.le_one (by linarith)
  obtain ⟨u1, u2⟩ := unit_err hfl htt.le (by linarith)
  obtain ⟨hp2, hp3⟩ := unit_err hfl (x := 1 - fl (t * t)) (by linarith) (by linarith)
  have hprobe : ∀ l : Nat, l ≤ 2 ^ 26 → _ := fun l hl => prefix_err hfl hp0 hp1 (y := 1 - t * t) (by linarith) (by linarith) hl
  have hidx : ∀ l : Nat, 1 ≤ (binaryCosineHelper fl t).indexLength l := by
    intro l
    have := prefix_ge hfl ha l
    simp only [binaryCosineHelper]
    rw [le_pyInt (by linarith)]
    push_cast
    exact this
  refine ⟨fun l _ _ => threshold_lt_index h1 (hidx l), fun l _ _ => hidx l, ?_, ?_, ?_, ?_⟩
  · intro l _ _
    exact pyInt_mono (by linarith [prefix_ge hfl ha l]) (prefix_mono hfl hab l)
  · intro l hl1 hl
    have hl1' : (1 : ℝ) ≤ (l : ℝ) := by exact_mod_cast hl1
    have h2 : t * t * 1 ≤ t * t * (l : ℝ) := mul_le_mul_of_nonneg_left hl1' htt.le
    apply pyInt_le
    · linarith [prefix_ge hfl hp0 l]
    · have := (hprobe l hl).1
      have c : (1 : ℝ) / 2 ^ 23 < 1 / 1000000 := by norm_num
      push_cast; linarith
  · intro l l' hl _
    apply Int.ceil_le_ceil
    have h2 := hfl.mono (mul_le_mul_of_nonneg_right (min_mono_aux hfl hl) ht.le)
    have h3 := hfl.mono (mul_le_mul_of_nonneg_right h2 ht.le)
    exact hfl.mono (by linarith)
  · intro l1 l2 o ho hl hl2 hN hs
    have hN1 := length_le hN
    have hN2 := length_le (hl.trans hN)
    have c1 : (o : ℝ) ≤ (l2 : ℝ) := by exact_mod_cast ho
    have c2 : (l2 : ℝ) ≤ (l1 : ℝ) := by exact_mod_cast hl
    have c3 : (1 : ℝ) ≤ (l2 : ℝ) := by exact_mod_cast hl2
    have cc : (1 : ℝ) / 2 ^ 23 ≤ 1 / 1000000 := by norm_num
    have e0 : fl ((l1 : ℝ) * l2) = (l1 : ℝ) * l2 := by
      have hb : l1 * l2 ≤ 2 ^ 26 * 2 ^ 26 := Nat.mul_le_mul hN (hl.trans hN)
      have := hfl.nat (n := l1 * l2) (hb.trans (by norm_num))
      push_cast at this
      exact this
    set R := Real.sqrt ((l1 : ℝ) * l2) with hR
    have hR2 : R ≤ l1 := Real.sqrt_le_iff.mpr ⟨by linarith, by nlinarith⟩
    have hR1 : (l2 : ℝ) ≤ R := Real.le_sqrt_of_sq_le (by nlinarith)
    have hRR : R * R = (l1 : ℝ) * l2 := Real.mul_self_sqrt (by nlinarith)
    have hs' := hs
    rw [le_div_iff₀ (by linarith)] at hs
    have p1 : 0 < t * R := mul_pos ht (by linarith)
    have hopos : (0 : ℝ) < (o : ℝ) := by linarith
    -- t t l1 ≤ o
    have r1 : t * t * l1 ≤ o := by
      have a1 : t * R ≤ l2 := by linarith
      have a2 : t * R * (t * R) ≤ o * l2 := mul_le_mul hs a1 p1.le hopos.le
      have a3 : t * R * (t * R) = t * t * l1 * l2 := by rw [mul_mul_mul_comm, hRR]; ring
      rw [a3] at a2
      exact le_of_mul_le_mul_right a2 (by linarith)
    have r2 : t * t * l2 ≤ o := by
      have := mul_le_mul_of_nonneg_left c2 htt.le
      linarith
    have hRe := err hfl (x := R) (by linarith) (by linarith [show (2 : ℝ) ^ 26 ≤ 2 ^ 28 by norm_num])
    have hRf : (l2 : ℝ) ≤ fl R := by
      have := hfl.mono hR1
      rwa [length_exact hfl (hl.trans hN)] at this
    have hRg : fl R ≤ (l1 : ℝ) := by
      have := hfl.mono hR2
      rwa [length_exact hfl hN] at this
    refine ⟨by exact_mod_cast hopos, ?_, ?_, ?_, ?_, ?_⟩
    · simp only [binaryCosineHelper]
      rw [Int.ceil_le, length_exact hfl hN]; push_cast
      have b1 : (l1 : ℝ) * t ≤ l1 := by nlinarith
      have b2 : (0 : ℝ) ≤ (l1 : ℝ) * t := mul_nonneg (by linarith) ht.le
      have b3 := err hfl b2 (by linarith [show (2 : ℝ) ^ 26 ≤ 2 ^ 28 by norm_num])
      have b4 := hfl.nonneg b2
      have b5 : fl ((l1 : ℝ) * t) * t ≤ fl ((l1 : ℝ) * t) := by nlinarith
      have b6 : fl ((l1 : ℝ) * t) * t ≤ (l1 * t + 1 / 2 ^ 26) * t := mul_le_mul_of_nonneg_right b3.1 ht.le
      have b7 : (1 / 2 ^ 26 : ℝ) * t ≤ 1 / 2 ^ 26 * 1 := mul_le_mul_of_nonneg_left h1.le (by norm_num)
      have b8 := mul_nonneg b4 ht.le
      have b9 := err hfl b8 (by linarith [show (2 : ℝ) ^ 26 + 1 / 2 ^ 26 ≤ 2 ^ 28 by norm_num])
      apply minus_eps hfl (hfl.nonneg b8)
      · linarith [show (2 : ℝ) ^ 26 + 2 / 2 ^ 26 ≤ 2 ^ 27 + 1 by norm_num]
      · linarith [show (3 : ℝ) / 2 ^ 26 ≤ 1 / 2 ^ 22 by norm_num]
    · simp only [binaryCosineHelper]
      rw [le_pyInt (by linarith [prefix_ge hfl hp0 l1])]
      have := (hprobe l1 hN).2
      push_cast; linarith
    · simp only [binaryCosineHelper]
      rw [le_pyInt (by linarith [prefix_ge hfl hp0 l2])]
      have := (hprobe l2 (hl.trans hN)).2
      push_cast; linarith
    · simp only [binaryCosineHelper]
      rw [Int.ceil_le, e0, ← hR]
      have m0 : 0 ≤ t * fl R := mul_nonneg ht.le (by linarith)
      have m1 : t * fl R ≤ fl R := by nlinarith
      have m2 := err hfl m0 (by linarith [show (2 : ℝ) ^ 26 ≤ 2 ^ 28 by norm_num])
      have m3 : t * fl R ≤ t * (R + 1 / 2 ^ 26) := mul_le_mul_of_nonneg_left hRe.1 ht.le
      have m4 : t * (1 / 2 ^ 26 : ℝ) ≤ 1 * (1 / 2 ^ 26) := mul_le_mul_of_nonneg_right h1.le (by norm_num)
      apply minus_eps hfl (hfl.nonneg m0)
      · linarith [show (2 : ℝ) ^ 26 + 1 / 2 ^ 26 ≤ 2 ^ 27 + 1 by norm_num]
      · push_cast
        linarith [show (2 : ℝ) / 2 ^ 26 ≤ 1 / 2 ^ 22 by norm_num]
    · simp only [binaryCosineHelper]
      push_cast
      rw [e0, ← hR, length_exact hfl (ho.trans (hl.trans hN))]
      apply plus_eps hfl hd
      have g0 : 0 ≤ (o : ℝ) / fl R := div_nonneg hopos.le (by linarith)
      have g1 : (o : ℝ) / fl R ≤ 1 := by rw [div_le_one (by linarith)]; linarith
      have g2 := (unit_err hfl g0 (by linarith)).2
      have g3 : t - 1 / 2 ^ 26 ≤ (o : ℝ) / fl R := by
        rw [le_div_iff₀ (by linarith)]
        have k1 : t * fl R ≤ t * (R + 1 / 2 ^ 26) := mul_le_mul_of_nonneg_left hRe.1 ht.le
        have k2 : t * (1 / 2 ^ 26 : ℝ) ≤ 1 * (1 / 2 ^ 26) := mul_le_mul_of_nonneg_right h1.le (by norm_num)
        have k3 : (1 / 2 ^ 26 : ℝ) * 1 ≤ 1 / 2 ^ 26 * fl R := mul_le_mul_of_nonneg_left (by linarith) (by norm_num)
        linarith
      linarith [show (1 : ℝ) / 2 ^ 26 + 1 / 2 ^ 53 ≤ 1 / 2 ^ 24 by norm_num]

end Fog.PpjoinFloat
