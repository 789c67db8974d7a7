import Verif.Model.PpjoinJoinFloat
import Verif.Lemmas.PpjoinFloat

/-!
# The join of ppjoin in double precision
-/

namespace Fog.PpjoinFloat

open Ppjoin Spec

variable {fl : ℝ → ℝ}

/-- What the positional tests need: thresholds which are not lost when subtracted from a length, and overlaps which are doubles. -/
structure Modest (N : Nat) (h : Helper ℝ) : Prop where
  low : 1 / 2 ^ 19 ≤ h.threshold
  high : h.threshold < 1
  bound : ∀ l1 l2, l1 ≤ N → l2 ≤ N → |h.requireOverlap l1 l2| ≤ 2 ^ 28

theorem isDouble_dyadic (z : Int) (hz : |z| ≤ 2 ^ 53) : IsDouble ((z : ℝ) * (2 : ℝ) ^ (-20 : ℤ)) := by
  have := isDouble_of_le (m := z) (e := -20) hz (by norm_num)
  exact this

/-- The tests of positions are those of exact numbers: they compare integers. -/
theorem position_test (hfl : IsRounding fl) {t : ℝ} (h0 : 1 / 2 ^ 19 ≤ t) (h1 : t < 1) {l : Nat} (hl : l ≤ 2 ^ 26) (v : Int) {r : Int}
    (hr : |r| ≤ 2 ^ 28) :
    (fl ((v : ℝ) + fl ((l : ℝ) - t)) < (r : ℝ) ↔ v + l ≤ r) ∧ ((v : ℝ) + ((l : ℝ) - t) < (r : ℝ) ↔ v + l ≤ r) := by
  have hz : (2 : ℝ) ^ (-20 : ℤ) = 1 / 2 ^ 20 := by rw [zpow_neg, one_div]; norm_cast
  have hrd : fl (r : ℝ) = r := by
    apply hfl.int
    exact le_trans hr (by norm_num)
  have hld : fl ((l : ℝ) - 1) = (l : ℝ) - 1 := by
    have := hfl.int (n := (l : Int) - 1) (by rw [abs_le]; constructor <;> omega)
    push_cast at this
    exact this
  have hlow : (l : ℝ) - 1 ≤ fl ((l : ℝ) - t) := by
    have := hfl.mono (show (l : ℝ) - 1 ≤ l - t by linarith)
    rwa [hld] at this
  have hhigh : fl ((l : ℝ) - t) ≤ l - 1 / 2 ^ 20 := by
    have h2 : IsDouble ((l : ℝ) - 1 / 2 ^ 20) := by
      have := isDouble_dyadic ((l : Int) * 2 ^ 20 - 1) (by rw [abs_le]; constructor <;> omega)
      rw [hz] at this
      convert this using 1
      push_cast
      ring
    have := hfl.mono (show (l : ℝ) - t ≤ l - 1 / 2 ^ 20 by linarith [show (1 : ℝ) / 2 ^ 20 ≤ 1 / 2 ^ 19 by norm_num])
    rwa [hfl.of_double h2] at this
  have key : ∀ x : ℝ, x < r → (l : ℝ) + v - 1 ≤ x → v + l ≤ r := by
    intro x hx hle
    have : (v : ℝ) + l < r + 1 := by linarith
    have : v + (l : Int) < r + 1 := by exact_mod_cast this
    omega
  constructor
  · constructor
    · intro h
      by_contra hc
      have h2 : r + 1 ≤ v + (l : Int) := by omega
      have h3 : (r : ℝ) + 1 ≤ v + l := by exact_mod_cast h2
      have := hfl.mono (show (r : ℝ) ≤ v + fl ((l : ℝ) - t) by linarith)
      rw [hrd] at this
      linarith
    · intro h
      have h3 : (v : ℝ) + l ≤ r := by exact_mod_cast h
      have h4 : IsDouble ((r : ℝ) - 1 / 2 ^ 20) := by
        rw [abs_le] at hr
        have := isDouble_dyadic (r * 2 ^ 20 - 1) (by rw [abs_le]; constructor <;> omega)
        rw [hz] at this
        convert this using 1
        push_cast
        ring
      have := hfl.mono (show (v : ℝ) + fl ((l : ℝ) - t) ≤ r - 1 / 2 ^ 20 by linarith)
      rw [hfl.of_double h4] at this
      linarith [show (0 : ℝ) < 1 / 2 ^ 20 by norm_num]
  · constructor
    · intro h
      exact key _ h (by linarith)
    · intro h
      have h3 : (v : ℝ) + l ≤ r := by exact_mod_cast h
      linarith [show (0 : ℝ) < 1 / 2 ^ 19 by norm_num]

theorem requireOverlaps_bound {N : Nat} {h : Helper ℝ} (hm : Modest N h) {l1 l2 : Nat} (h1 : l1 ≤ N) {r : Int}
    (hr : requireOverlaps h l1 l2 = .ok r) : |r| ≤ 2 ^ 28 := by
  unfold requireOverlaps at hr
  split at hr
  · next hle =>
    simp only [Except.ok.injEq] at hr
    subst hr
    split
    · exact hm.bound l1 l2 h1 (hle.trans h1)
    · norm_num
  · simp at hr

section

variable {τ : Type _} [LinearOrder τ]

theorem candidateValue_eq (hfl : IsRounding fl) {h : Helper ℝ} (hm : Modest (2 ^ 26) h) (config : Config) (tok : List (List τ))
    {record : List τ} (hl : record.length ≤ 2 ^ 26) (t : Nat) (entry : Entry) (value : Option Int) :
    candidateValue fl h config tok record t entry value = Ppjoin.candidateValue h config tok record t entry value := by
  unfold candidateValue Ppjoin.candidateValue
  split
  · rfl
  · simp only []
    cases hr : requireOverlaps h record.length (recordAt tok entry.1).length with
    | error e => rfl
    | ok r =>
        have hb := requireOverlaps_bound hm hl hr
        simp only []
        split
        · rfl
        · cases suffixFiltered config (recordAt tok entry.1) record entry.2 t value r with
          | error e => rfl
          | ok b =>
              cases b with
              | true => rfl
              | false =>
                  cases value with
                  | none =>
                      have h1 := position_test hfl hm.low hm.high hl 0 hb
                      have hd : fl (fl ((record.length : ℝ) - h.threshold)) = fl ((record.length : ℝ) - h.threshold) :=
                        hfl.of_double (hfl.double _)
                      simp only [Int.cast_zero, zero_add, hd] at h1
                      simp only [h1.1, h1.2]
                  | some v =>
                      have h1 := position_test hfl hm.low hm.high hl v hb
                      simp only [h1.1, h1.2]

theorem candidateStep_eq (hfl : IsRounding fl) {h : Helper ℝ} (hm : Modest (2 ^ 26) h) (config : Config) (tok : List (List τ))
    {record : List τ} (hl : record.length ≤ 2 ^ 26) (t : Nat) (occurances : Dict Nat Int) (entry : Entry) :
    candidateStep fl h config tok record t occurances entry = Ppjoin.candidateStep h config tok record t occurances entry := by
  unfold candidateStep Ppjoin.candidateStep
  rw [candidateValue_eq hfl hm config tok hl]
  cases Ppjoin.candidateValue h config tok record t entry (occurances.get? entry.1) with
  | error e => rfl
  | ok v => cases v <;> rfl

theorem candidateLoop_eq (hfl : IsRounding fl) {h : Helper ℝ} (hm : Modest (2 ^ 26) h) (config : Config) (tok : List (List τ))
    {record : List τ} (hl : record.length ≤ 2 ^ 26) (t : Nat) (entries : List Entry) (occurances : Dict Nat Int) :
    candidateLoop fl h config tok record t entries occurances = Ppjoin.candidateLoop h config tok record t entries occurances := by
  induction entries generalizing occurances with
  | nil => rfl
  | cons entry entries ih =>
      unfold candidateLoop Ppjoin.candidateLoop
      rw [candidateStep_eq hfl hm config tok hl]
      cases Ppjoin.candidateStep h config tok record t occurances entry with
      | error e => rfl
      | ok o => exact ih o

theorem tokenStep_eq (hfl : IsRounding fl) {h : Helper ℝ} (hm : Modest (2 ^ 26) h) (config : Config) {tok : List (List τ)}
    (hl : ∀ i, (recordAt tok i).length ≤ 2 ^ 26) (k : Nat) (index : Index τ) (occurances : Dict Nat Int) (t : Nat) :
    tokenStep fl h config tok k index occurances t = Ppjoin.tokenStep h config tok k index occurances t := by
  unfold tokenStep Ppjoin.tokenStep
  simp only [candidateLoop_eq hfl hm config tok (hl k)]
  cases (recordAt tok k)[t]? with
  | none => rfl
  | some token => rfl

theorem tokenLoop_eq (hfl : IsRounding fl) {h : Helper ℝ} (hm : Modest (2 ^ 26) h) (config : Config) {tok : List (List τ)}
    (hl : ∀ i, (recordAt tok i).length ≤ 2 ^ 26) (k : Nat) (ts : List Nat) (s : Index τ × Dict Nat Int) :
    tokenLoop fl h config tok k ts s = Ppjoin.tokenLoop h config tok k ts s := by
  induction ts generalizing s with
  | nil => rfl
  | cons t ts ih =>
      unfold tokenLoop Ppjoin.tokenLoop
      rw [tokenStep_eq hfl hm config hl]
      cases Ppjoin.tokenStep h config tok k s.1 s.2 t with
      | error e => rfl
      | ok s => exact ih s

theorem join_eq (hfl : IsRounding fl) {h : Helper ℝ} (hm : Modest (2 ^ 26) h) (config : Config) {tok : List (List τ)}
    (hl : ∀ i, (recordAt tok i).length ≤ 2 ^ 26) (order : List Nat) (index : Index τ) :
    join fl h config tok order index = Ppjoin.join h config tok order index := by
  induction order generalizing index with
  | nil => rfl
  | cons k ks ih =>
      unfold join Ppjoin.join
      simp only [tokenLoop_eq hfl hm config hl, ih]
      cases Ppjoin.tokenLoop h config tok k (List.range (h.probeLength (recordAt tok k).length).toNat) (index, []) with
      | error e => rfl
      | ok s =>
          simp only []
          cases verifyLoop h tok (recordAt tok k) s.2 with
          | error e => rfl
          | ok candidates => simp only []; cases Ppjoin.join h config tok ks s.1 <;> rfl

end

/-- Subtracting `EPSILON` from a number known up to a small error. -/
theorem ceil_minus_eps (hfl : IsRounding fl) {x y : ℝ} (h0 : 0 ≤ x) (h1 : x ≤ 2 ^ 27 + 1) (h : |x - y| ≤ 1 / 2 ^ 23) :
    |⌈fl (x - epsilon fl)⌉| ≤ 2 ^ 28 ∧ (∀ m : Int, y ≤ m → ⌈fl (x - epsilon fl)⌉ ≤ m) ∧
      ∀ m : Int, ⌈fl (x - epsilon fl)⌉ ≤ m → y ≤ m + 2 / 1000000 := by
  obtain ⟨k1, k2, k3⟩ := eps hfl
  rw [abs_le] at h
  have c1 : (2 : ℝ) ^ 27 + 1 ≤ 2 ^ 28 := by norm_num
  have c2 : (1 : ℝ) / 1000000 + 1 / 2 ^ 53 ≤ 1 / 2 := by norm_num
  have c3 : (1 : ℝ) / 2 ^ 26 + 1 / 2 ^ 23 + 1 / 2 ^ 53 ≤ 1 / 1000000 := by norm_num
  obtain ⟨e1, e2⟩ := err_sub hfl (x := x - epsilon fl) (by linarith) (by linarith)
  refine ⟨?_, fun m hm => ?_, fun m hm => ?_⟩
  · rw [abs_le]
    constructor
    · have : ((-1 : Int) : ℝ) ≤ fl (x - epsilon fl) := by
        push_cast
        linarith [show (1 : ℝ) / 2 ^ 26 ≤ 1 / 2 by norm_num]
      have h3 : (-1 : Int) ≤ ⌈fl (x - epsilon fl)⌉ := by
        have := this.trans (Int.le_ceil _)
        exact_mod_cast this
      omega
    · rw [Int.ceil_le]
      push_cast
      linarith
  · rw [Int.ceil_le]
    linarith
  · rw [Int.ceil_le] at hm
    linarith

theorem sum_exact (hfl : IsRounding fl) {l1 l2 : Nat} (h1 : l1 ≤ 2 ^ 26) (h2 : l2 ≤ 2 ^ 26) : fl ((l1 : ℝ) + l2) = (l1 : ℝ) + l2 := by
  have := hfl.nat (n := l1 + l2) (by omega)
  push_cast at this
  exact this

theorem jaccard_overlap (hfl : IsRounding fl) {t : ℝ} (h0 : 0 ≤ t) (h1 : t < 1) {l1 l2 : Nat} (hl1 : l1 ≤ 2 ^ 26) (hl2 : l2 ≤ 2 ^ 26) :
    |(jaccardHelper fl t).requireOverlap l1 l2| ≤ 2 ^ 28 ∧
    (∀ m : Int, t / (1 + t) * ((l1 : ℝ) + l2) ≤ m → (jaccardHelper fl t).requireOverlap l1 l2 ≤ m) ∧
    ∀ m : Int, (jaccardHelper fl t).requireOverlap l1 l2 ≤ m → t / (1 + t) * ((l1 : ℝ) + l2) ≤ m + 2 / 1000000 := by
  simp only [jaccardHelper]
  have r1 := length_le hl1
  have r2 := length_le hl2
  have n0 : (0 : ℝ) ≤ (l1 : ℝ) + l2 := by positivity
  have n1 : (l1 : ℝ) + l2 ≤ 2 ^ 27 := by linarith [show (2 : ℝ) ^ 26 + 2 ^ 26 = 2 ^ 27 by norm_num]
  rw [sum_exact hfl hl1 hl2]
  have hs1 : 1 ≤ fl (1 + t) := by have := hfl.mono (show 1 ≤ 1 + t by linarith); rwa [hfl.one] at this
  have s1 := unit_err hfl (x := 1 + t) (by linarith) (by linarith)
  have hpos : 0 < fl (1 + t) := by linarith
  have q2 : t / (1 + t) ≤ 1 := by rw [div_le_one (by linarith)]; linarith
  have q3 : 0 ≤ t / (1 + t) := by positivity
  have q1 : t / (1 + t) * (1 + t) = t := div_mul_cancel₀ _ (by linarith)
  have e2 : |t / fl (1 + t) - t / (1 + t)| ≤ 1 / 2 ^ 53 := by
    have hz : t / fl (1 + t) - t / (1 + t) = t / (1 + t) * ((1 + t) - fl (1 + t)) / fl (1 + t) := by
      field_simp
    rw [hz, abs_div, abs_mul, abs_of_nonneg q3, abs_of_pos hpos, div_le_iff₀ hpos]
    have h3 : |1 + t - fl (1 + t)| ≤ 1 / 2 ^ 53 := by rw [abs_le]; constructor <;> linarith
    calc t / (1 + t) * |1 + t - fl (1 + t)| ≤ 1 * (1 / 2 ^ 53) := mul_le_mul q2 h3 (abs_nonneg _) (by norm_num)
      _ ≤ 1 / 2 ^ 53 * fl (1 + t) := by linarith [mul_le_mul_of_nonneg_left hs1 (show (0 : ℝ) ≤ 1 / 2 ^ 53 by norm_num)]
  have e3 : 0 ≤ t / fl (1 + t) := by positivity
  have e4 : t / fl (1 + t) ≤ 1 := by rw [div_le_one hpos]; linarith
  have e5 := unit_err hfl e3 (by linarith)
  have e6 := hfl.nonneg e3
  have e7 := hfl.le_one e4
  rw [abs_le] at e2
  have m1 : fl (t / fl (1 + t)) * ((l1 : ℝ) + l2) ≤ (t / (1 + t) + 2 / 2 ^ 53) * ((l1 : ℝ) + l2) :=
    mul_le_mul_of_nonneg_right (by linarith) n0
  have m1' : (t / (1 + t) - 2 / 2 ^ 53) * ((l1 : ℝ) + l2) ≤ fl (t / fl (1 + t)) * ((l1 : ℝ) + l2) :=
    mul_le_mul_of_nonneg_right (by linarith) n0
  have m2 : (2 / 2 ^ 53 : ℝ) * ((l1 : ℝ) + l2) ≤ 2 / 2 ^ 53 * 2 ^ 27 := mul_le_mul_of_nonneg_left (by linarith) (by norm_num)
  have m3 : fl (t / fl (1 + t)) * ((l1 : ℝ) + l2) ≤ 1 * ((l1 : ℝ) + l2) := mul_le_mul_of_nonneg_right e7 n0
  have m4 : 0 ≤ fl (t / fl (1 + t)) * ((l1 : ℝ) + l2) := mul_nonneg e6 n0
  have m5 := err hfl m4 (by linarith [show (2 : ℝ) ^ 27 ≤ 2 ^ 28 by norm_num])
  have c : (2 / 2 ^ 53 : ℝ) * 2 ^ 27 + 1 / 2 ^ 26 ≤ 1 / 2 ^ 23 := by norm_num
  apply ceil_minus_eps hfl (hfl.nonneg m4)
  · linarith [show (1 : ℝ) / 2 ^ 26 ≤ 1 by norm_num]
  · rw [abs_le]
    constructor <;> linarith

theorem dice_overlap (hfl : IsRounding fl) {t : ℝ} (h0 : 0 ≤ t) (h1 : t < 1) {l1 l2 : Nat} (hl1 : l1 ≤ 2 ^ 26) (hl2 : l2 ≤ 2 ^ 26) :
    |(diceHelper fl t).requireOverlap l1 l2| ≤ 2 ^ 28 ∧
    (∀ m : Int, ((l1 : ℝ) + l2) * t / 2 ≤ m → (diceHelper fl t).requireOverlap l1 l2 ≤ m) ∧
    ∀ m : Int, (diceHelper fl t).requireOverlap l1 l2 ≤ m → ((l1 : ℝ) + l2) * t / 2 ≤ m + 2 / 1000000 := by
  simp only [diceHelper]
  have r1 := length_le hl1
  have r2 := length_le hl2
  have n0 : (0 : ℝ) ≤ (l1 : ℝ) + l2 := by positivity
  have n1 : (l1 : ℝ) + l2 ≤ 2 ^ 27 := by linarith [show (2 : ℝ) ^ 26 + 2 ^ 26 = 2 ^ 27 by norm_num]
  rw [sum_exact hfl hl1 hl2]
  have m0 : 0 ≤ ((l1 : ℝ) + l2) * t := mul_nonneg n0 h0
  have m1 : ((l1 : ℝ) + l2) * t ≤ (l1 : ℝ) + l2 := by nlinarith
  have m2 := err hfl m0 (by linarith [show (2 : ℝ) ^ 27 ≤ 2 ^ 28 by norm_num])
  have m3 := hfl.nonneg m0
  have m4 := err hfl (x := fl (((l1 : ℝ) + l2) * t) / 2) (by linarith) (by
    linarith [show (2 : ℝ) ^ 27 + 1 / 2 ^ 26 ≤ 2 ^ 28 by norm_num])
  have c : (2 : ℝ) / 2 ^ 26 ≤ 1 / 2 ^ 23 := by norm_num
  apply ceil_minus_eps hfl (hfl.nonneg (by linarith))
  · linarith [show (2 : ℝ) / 2 ^ 26 ≤ 1 by norm_num, show (0 : ℝ) ≤ 2 ^ 27 by norm_num]
  · rw [abs_le]
    constructor <;> linarith

theorem binaryCosine_overlap (hfl : IsRounding fl) {t : ℝ} (h0 : 0 ≤ t) (h1 : t < 1) {l1 l2 : Nat} (hl1 : l1 ≤ 2 ^ 26) (hl2 : l2 ≤ 2 ^ 26) :
    |(binaryCosineHelper fl t).requireOverlap l1 l2| ≤ 2 ^ 28 ∧
    (∀ m : Int, t * Real.sqrt ((l1 : ℝ) * l2) ≤ m → (binaryCosineHelper fl t).requireOverlap l1 l2 ≤ m) ∧
    ∀ m : Int, (binaryCosineHelper fl t).requireOverlap l1 l2 ≤ m → t * Real.sqrt ((l1 : ℝ) * l2) ≤ m + 2 / 1000000 := by
  simp only [binaryCosineHelper]
  have r1 := length_le hl1
  have r2 := length_le hl2
  have e0 : fl ((l1 : ℝ) * l2) = (l1 : ℝ) * l2 := by
    have : l1 * l2 ≤ 2 ^ 53 := le_trans (Nat.mul_le_mul hl1 hl2) (by norm_num)
    have := hfl.nat (n := l1 * l2) this
    push_cast at this
    exact this
  rw [e0]
  set R := Real.sqrt ((l1 : ℝ) * l2) with hR
  have hR0 : 0 ≤ R := Real.sqrt_nonneg _
  have hR1 : R ≤ 2 ^ 26 := by
    rw [hR, Real.sqrt_le_left (by norm_num)]
    have : (l1 : ℝ) * l2 ≤ 2 ^ 26 * 2 ^ 26 := mul_le_mul r1 r2 (by positivity) (by positivity)
    linarith [show (2 : ℝ) ^ 26 * 2 ^ 26 = (2 ^ 26) ^ 2 by norm_num]
  have hRe := err hfl hR0 (by linarith [show (2 : ℝ) ^ 26 ≤ 2 ^ 28 by norm_num])
  have hf0 := hfl.nonneg hR0
  have m0 : 0 ≤ t * fl R := mul_nonneg h0 hf0
  have m1 : t * fl R ≤ fl R := by nlinarith
  have m2 := err hfl m0 (by linarith [show (2 : ℝ) ^ 26 + 1 / 2 ^ 26 ≤ 2 ^ 28 by norm_num])
  have m3 : t * fl R ≤ t * (R + 1 / 2 ^ 26) := mul_le_mul_of_nonneg_left hRe.1 h0
  have m3' : t * (R - 1 / 2 ^ 26) ≤ t * fl R := mul_le_mul_of_nonneg_left hRe.2 h0
  have m4 : t * (1 / 2 ^ 26 : ℝ) ≤ 1 * (1 / 2 ^ 26) := mul_le_mul_of_nonneg_right h1.le (by norm_num)
  have c : (2 : ℝ) / 2 ^ 26 ≤ 1 / 2 ^ 23 := by norm_num
  apply ceil_minus_eps hfl (hfl.nonneg m0)
  · linarith [show (2 : ℝ) ^ 26 + 2 / 2 ^ 26 ≤ 2 ^ 27 + 1 by norm_num]
  · rw [abs_le]
    constructor <;> linarith

end Fog.PpjoinFloat
