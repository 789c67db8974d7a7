import Verif.Model.NormalizeFloat
import Verif.Props.MetricsFloat
import Verif.Lemmas.Binary64Sums
import Verif.Lemmas.Binary64Fractions

/-!
# C131: normalized vectors in double precision
-/

namespace Fog.Props

open Metrics Spec

variable {κ : Type _} [DecidableEq κ] {fl : ℝ → ℝ}

/-! ### The vector -/

theorem set_new {ν : Type _} (d : Dict κ ν) {k : κ} (v : ν) (h : k ∉ Dict.keys d) : d.set k v = d ++ [(k, v)] := by
  induction d with
  | nil => rfl
  | cons e d ih =>
      obtain ⟨k', v'⟩ := e
      simp only [Dict.keys, List.map_cons, List.mem_cons, not_or] at h
      show (if k' = k then _ else _) = _
      rw [if_neg (Ne.symm h.1), ih h.2]
      rfl

theorem foldl_set_new {ν : Type _} (f : κ × ν → ν) (l : List (κ × ν)) (N : Dict κ ν) (hl : (Dict.keys l).Nodup)
    (hd : ∀ k ∈ Dict.keys l, k ∉ Dict.keys N) : l.foldl (fun N item => N.set item.1 (f item)) N = N ++ l.map fun item => (item.1, f item) := by
  induction l generalizing N with
  | nil => simp
  | cons item l ih =>
      simp only [Dict.keys, List.map_cons, List.nodup_cons] at hl
      rw [List.foldl_cons, set_new N _ (hd item.1 (by simp [Dict.keys])), ih _ hl.2]
      · simp
      · intro k hk hN
        simp only [Dict.keys, List.map_append, List.mem_append, List.map_cons, List.map_nil, List.mem_singleton] at hN
        rcases hN with hN | hN
        · exact hd k (by simp only [Dict.keys, List.map_cons, List.mem_cons]; exact Or.inr hk) hN
        · subst hN
          exact hl.1 hk

theorem weight_map (f : ℝ → ℝ) (h0 : f 0 = 0) (A : Dict κ ℝ) (k : κ) :
    weight (A.map fun item => (item.1, f item.2) : Dict κ ℝ) k = f (weight A k) := by
  unfold weight
  induction A with
  | nil => simp [Dict.get?, h0]
  | cons e A ih =>
      simp only [List.map_cons, Dict.get?]
      by_cases h : e.1 = k
      · simp [h]
      · simpa [h] using ih

/-- The whole weights of a vector, and their squares. -/
structure WholeWeights (S : Finset κ) (A : Dict κ ℝ) : Prop where
  nodup : (Dict.keys A).Nodup
  within : (Dict.keys A).toFinset ⊆ S
  integers : ∀ k, ∃ n : ℤ, weight A k = n
  small : dot S (weight A) (weight A) ≤ 2 ^ 53

theorem norm_float (hfl : IsRounding fl) {S : Finset κ} {A : Dict κ ℝ} (h : WholeWeights S A) :
    MetricsFloat.sparseNorm fl A = fl (Spec.norm S (weight A)) := by
  unfold MetricsFloat.sparseNorm Spec.norm
  have hdd : ∑ k ∈ S, weight A k ^ 2 = dot S (weight A) (weight A) := by
    unfold dot; apply Finset.sum_congr rfl; intro k _; ring
  have sA := sq_eq h.nodup S h.within
  have iA : ∀ item ∈ A, ∃ n : ℤ, item.2 = n := fun item hi => by
    obtain ⟨n, hn⟩ := h.integers item.1
    exact ⟨n, by rw [← hn, weight_of_mem h.nodup (v := item.2) hi]⟩
  have := square_fold_exact hfl A iA 0 le_rfl (by rw [sA, hdd]; simpa using h.small)
  rw [sA, hdd] at this
  simp only [Int.cast_zero, zero_add, pow_two] at this
  rw [this]

theorem weights_float (hfl : IsRounding fl) {S : Finset κ} {A : Dict κ ℝ} (h : WholeWeights S A) (h0 : 0 < dot S (weight A) (weight A)) :
    MetricsFloat.sparseNormalize fl A = A.map (fun item => (item.1, fl (item.2 / fl (Spec.norm S (weight A))))) ∧
    1 ≤ Spec.norm S (weight A) ∧ 1 ≤ fl (Spec.norm S (weight A)) := by
  have h1 : 1 ≤ Spec.norm S (weight A) := by
    choose f hf using h.integers
    have : ∃ n : ℤ, dot S (weight A) (weight A) = n := ⟨∑ k ∈ S, f k * f k, by unfold dot; push_cast; simp only [hf]⟩
    obtain ⟨n, hn⟩ := this
    rw [hn] at h0
    have : (1 : ℤ) ≤ n := by exact_mod_cast h0
    unfold Spec.norm
    rw [hn]
    exact Real.one_le_sqrt.mpr (by exact_mod_cast this)
  have h2 : 1 ≤ fl (Spec.norm S (weight A)) := by rw [← hfl.one]; exact hfl.mono h1
  refine ⟨?_, h1, h2⟩
  unfold MetricsFloat.sparseNormalize
  simp only [norm_float hfl h]
  rw [if_neg (by linarith), foldl_set_new (fun item => fl (item.2 / fl (Spec.norm S (weight A)))) A [] h.nodup (by simp [Dict.keys])]
  rfl

/-- The error on a weight. -/
theorem unit_weight_error (hfl : IsRounding fl) {r : ℝ} {a : ℤ} (hr : 1 ≤ r) (ha : |(a : ℝ)| ≤ r) (hr' : r ≤ 2 ^ 27) :
    |fl (a / fl r)| ≤ 1 ∧ |fl (a / fl r) - a / r| ≤ 3 / 2 ^ 53 * |a / r| := by
  have hN : |fl r - r| ≤ r / 2 ^ 53 := hfl.relative (by
    refine le_trans ?_ hr
    exact zpow_le_one_of_nonpos₀ (by norm_num) (by norm_num))
  have hN1 : 1 ≤ fl r := by rw [← hfl.one]; exact hfl.mono hr
  have hNpos : 0 < fl r := by linarith
  have hrpos : 0 < r := by linarith
  have hN2 : fl r ≤ 2 ^ 28 := by
    rw [abs_le] at hN
    linarith [hN.2]
  have hNa : |(a : ℝ)| ≤ fl r := by
    have h1 : |a| ≤ 2 ^ 53 := by
      have : ((|a| : ℤ) : ℝ) ≤ ((2 ^ 53 : ℤ) : ℝ) := by push_cast; linarith
      exact_mod_cast this
    have h2 := hfl.mono ha
    have h3 := hfl.int (n := |a|) (by rwa [abs_abs])
    push_cast at h3
    rwa [h3] at h2
  have hle : |(a : ℝ) / fl r| ≤ 1 := by
    rw [abs_div, abs_of_pos hNpos, div_le_one hNpos]
    exact hNa
  refine ⟨?_, ?_⟩
  · rw [abs_le] at hle ⊢
    refine ⟨?_, hfl.le_one hle.2⟩
    have h1 := hfl.mono hle.1
    have h2 := hfl.int (n := -1) (by norm_num)
    push_cast at h2
    rwa [h2] at h1
  · rcases eq_or_ne a 0 with rfl | hne
    · simp [hfl.zero]
    have ha1 : (1 : ℝ) ≤ |(a : ℝ)| := by
      have : 1 ≤ |a| := Int.one_le_abs hne
      exact_mod_cast this
    have e1 : |fl (a / fl r) - a / fl r| ≤ |a / fl r| / 2 ^ 53 := by
      apply hfl.relative_abs
      rw [abs_div, abs_of_pos hNpos, le_div_iff₀ hNpos]
      calc (2 : ℝ) ^ (-1022 : ℤ) * fl r ≤ (2 : ℝ) ^ (-28 : ℤ) * 2 ^ 28 :=
            mul_le_mul (zpow_le_zpow_right₀ (by norm_num) (by norm_num)) hN2 hNpos.le (two_zpow_pos _).le
        _ = 1 := by norm_num
        _ ≤ _ := ha1
    have e2 : |a / fl r - a / r| ≤ |a / fl r| / 2 ^ 53 := by
      have : (a : ℝ) / fl r - a / r = (a / fl r) * ((r - fl r) / r) := by field_simp
      rw [this, abs_mul, abs_div (r - fl r), abs_of_pos hrpos, abs_sub_comm]
      have h1 : |fl r - r| / r ≤ 1 / 2 ^ 53 := by
        rw [div_le_iff₀ hrpos]
        linarith
      calc |(a : ℝ) / fl r| * (|fl r - r| / r) ≤ |(a : ℝ) / fl r| * (1 / 2 ^ 53) := mul_le_mul_of_nonneg_left h1 (abs_nonneg _)
        _ = _ := by ring
    have e3 : |(a : ℝ) / fl r| ≤ |a / r| * (3 / 2) := by
      have h1 := abs_sub_abs_le_abs_sub ((a : ℝ) / fl r) (a / r)
      have h2 : (0 : ℝ) ≤ |(a : ℝ) / fl r| := abs_nonneg _
      have h3 : (0 : ℝ) ≤ |(a : ℝ) / r| := abs_nonneg _
      have h4 : |(a : ℝ) / fl r| / 2 ^ 53 ≤ |(a : ℝ) / fl r| * (1 / 3) := by
        rw [div_eq_mul_one_div]
        exact mul_le_mul_of_nonneg_left (by norm_num) h2
      linarith
    have h := abs_sub_le (fl (a / fl r)) (a / fl r) (a / r)
    have e4 : |(a : ℝ) / fl r| / 2 ^ 53 ≤ |(a : ℝ) / r| * (3 / 2) / 2 ^ 53 := div_le_div_of_nonneg_right e3 (by norm_num)
    have e5 : 3 / 2 ^ 53 * |(a : ℝ) / r| = |(a : ℝ) / r| * (3 / 2) / 2 ^ 53 + |(a : ℝ) / r| * (3 / 2) / 2 ^ 53 := by ring
    rw [e5]
    linarith

theorem abs_weight_le {S : Finset κ} {A : Dict κ ℝ} (h : WholeWeights S A) (k : κ) : |weight A k| ≤ Spec.norm S (weight A) := by
  by_cases hk : k ∈ S
  · unfold Spec.norm
    apply Real.abs_le_sqrt
    unfold dot
    rw [pow_two]
    exact Finset.single_le_sum (f := fun k => weight A k * weight A k) (fun i _ => mul_self_nonneg _) hk
  · rw [weight_of_not_mem (fun hc => hk (h.within (by simpa using hc))), abs_zero]
    exact Real.sqrt_nonneg _

theorem norm_le {S : Finset κ} {A : Dict κ ℝ} (h : WholeWeights S A) : Spec.norm S (weight A) ≤ 2 ^ 27 := by
  unfold Spec.norm
  rw [Real.sqrt_le_left (by norm_num)]
  exact h.small.trans (by norm_num)

theorem unit_weights (hfl : IsRounding fl) {S : Finset κ} {A : Dict κ ℝ} (h : WholeWeights S A) (h0 : 0 < dot S (weight A) (weight A)) (k : κ) :
    weight (MetricsFloat.sparseNormalize fl A) k = fl (weight A k / fl (Spec.norm S (weight A))) ∧
    |weight (MetricsFloat.sparseNormalize fl A) k| ≤ 1 ∧
    |weight (MetricsFloat.sparseNormalize fl A) k - weight A k / Spec.norm S (weight A)| ≤
      3 / 2 ^ 53 * |weight A k / Spec.norm S (weight A)| := by
  obtain ⟨e, h1, _⟩ := weights_float hfl h h0
  have hw : weight (MetricsFloat.sparseNormalize fl A) k = fl (weight A k / fl (Spec.norm S (weight A))) := by
    rw [e, weight_map (fun w => fl (w / fl (Spec.norm S (weight A)))) (by rw [zero_div, hfl.zero])]
  obtain ⟨n, hn⟩ := h.integers k
  have ha := abs_weight_le h k
  rw [hw]
  rw [hn] at ha ⊢
  exact ⟨rfl, unit_weight_error hfl h1 ha (norm_le h)⟩

/-- The error on a product of two weights. -/
theorem product_error {x a y b : ℝ} (hx : |x - a| ≤ 3 / 2 ^ 53 * |a|) (hy : |y - b| ≤ 3 / 2 ^ 53 * |b|) :
    |x * y - a * b| ≤ 7 / 2 ^ 53 * |a * b| := by
  have h1 : x * y - a * b = (x - a) * (y - b) + (x - a) * b + a * (y - b) := by ring
  have h2 := abs_add_three ((x - a) * (y - b)) ((x - a) * b) (a * (y - b))
  rw [h1]
  refine h2.trans ?_
  simp only [abs_mul]
  have e1 := mul_le_mul hx hy (abs_nonneg _) (by positivity)
  have e2 := mul_le_mul_of_nonneg_right hx (abs_nonneg b)
  have e3 := mul_le_mul_of_nonneg_left hy (abs_nonneg a)
  have e4 : 0 ≤ |a| * |b| := by positivity
  have e5 : 3 / 2 ^ 53 * |a| * (3 / 2 ^ 53 * |b|) = (9 / 2 ^ 106) * (|a| * |b|) := by ring
  rw [e5] at e1
  have e6 : (9 / 2 ^ 106) * (|a| * |b|) ≤ 1 / 2 ^ 53 * (|a| * |b|) := mul_le_mul_of_nonneg_right (by norm_num) e4
  linarith

theorem abs_dot_le (S : Finset κ) (f g : κ → ℝ) (hf : 0 < Spec.norm S f) (hg : 0 < Spec.norm S g) :
    ∑ k ∈ S, |f k / Spec.norm S f * (g k / Spec.norm S g)| ≤ 1 := by
  have h1 : ∀ k, |f k / Spec.norm S f * (g k / Spec.norm S g)| = |f k| * |g k| / (Spec.norm S f * Spec.norm S g) := by
    intro k
    rw [abs_mul, abs_div, abs_div, abs_of_pos hf, abs_of_pos hg]
    field_simp
  simp only [h1]
  rw [← Finset.sum_div, div_le_one (by positivity)]
  have := Real.sum_mul_le_sqrt_mul_sqrt S (fun k => |f k|) (fun k => |g k|)
  refine this.trans (le_of_eq ?_)
  unfold Spec.norm dot
  simp only [sq_abs, pow_two, abs_mul_abs_self]

/-- What is added in turn. -/
theorem dot_fold_error (hfl : IsRounding fl) (B : Dict κ ℝ) (l : List (κ × ℝ)) (p P e : ℝ) (hp : |p - P| ≤ e)
    (hs : |P| + (l.map fun item => |item.2 * weight B item.1|).sum ≤ 1 + 1 / 4) (he : e + l.length * (1 / 2 ^ 52) ≤ 1 / 4) :
    |l.foldl (fun product item =>
      match Dict.get? B item.1 with | some w2 => fl (product + fl (item.2 * w2)) | none => product) p -
      (P + (l.map fun item => item.2 * weight B item.1).sum)| ≤ e + l.length * (1 / 2 ^ 52) := by
  induction l generalizing p P e with
  | nil => simpa using hp
  | cons item l ih =>
      simp only [List.map_cons, List.sum_cons, List.length_cons, Nat.cast_add, Nat.cast_one, List.foldl_cons] at hs he ⊢
      have h0 : 0 ≤ (l.map fun item => |item.2 * weight B item.1|).sum := List.sum_nonneg (by
        intro x hx
        obtain ⟨i, _, rfl⟩ := List.mem_map.mp hx
        exact abs_nonneg _)
      have hl0 : (0 : ℝ) ≤ l.length * (1 / 2 ^ 52) := by positivity
      have hPc := abs_add_le P (item.2 * weight B item.1)
      have key : |(match Dict.get? B item.1 with | some w2 => fl (p + fl (item.2 * w2)) | none => p) -
          (P + item.2 * weight B item.1)| ≤ e + 1 / 2 ^ 52 := by
        cases h : Dict.get? B item.1 with
        | none =>
            have : weight B item.1 = 0 := by unfold weight; rw [h]; rfl
            rw [this, mul_zero, add_zero]
            refine hp.trans ?_
            linarith [show (0 : ℝ) ≤ 1 / 2 ^ 52 by norm_num]
        | some w2 =>
            have : weight B item.1 = w2 := by unfold weight; rw [h]; rfl
            rw [this] at hs hPc ⊢
            simp only
            have hc : |item.2 * w2| ≤ 2 := by
              have := abs_nonneg P
              linarith
            have e1 := error_two hfl hc
            have hx : |p + fl (item.2 * w2)| ≤ 2 := by
              rw [abs_le] at e1 hp ⊢
              have h3 : |P + item.2 * w2| ≤ 1 + 1 / 4 := by linarith
              rw [abs_le] at h3
              constructor <;> linarith [h3.1, h3.2, e1.1, e1.2, hp.1, hp.2]
            have e2 := error_two hfl hx
            rw [abs_le] at e1 e2 hp ⊢
            constructor <;> linarith [e1.1, e1.2, e2.1, e2.2, hp.1, hp.2]
      have h := ih _ (P + item.2 * weight B item.1) (e + 1 / 2 ^ 52) key (by linarith) (by linarith)
      rw [add_assoc] at h
      refine h.trans (le_of_eq ?_)
      ring

/-- **C131**: a vector with whole weights, whose squares have a sum of at most `2 ^ 53`, is normalized in double precision: the keys are the same,
every weight is between minus one and one, and within a relative error of `3 * 2 ^ -53` of the weight divided by the norm; the squares of the new
weights have a sum within `7 * 2 ^ -53` of one. -/
theorem sparse_normalize_float (hfl : IsRounding fl) {S : Finset κ} {A : Dict κ ℝ} (h : WholeWeights S A)
    (h0 : 0 < dot S (weight A) (weight A)) :
    Dict.keys (MetricsFloat.sparseNormalize fl A) = Dict.keys A ∧
    (∀ k, |weight (MetricsFloat.sparseNormalize fl A) k| ≤ 1 ∧
      |weight (MetricsFloat.sparseNormalize fl A) k - weight A k / Spec.norm S (weight A)| ≤
        3 / 2 ^ 53 * |weight A k / Spec.norm S (weight A)|) ∧
    |∑ k ∈ S, weight (MetricsFloat.sparseNormalize fl A) k ^ 2 - 1| ≤ 7 / 2 ^ 53 := by
  obtain ⟨e, h1, _⟩ := weights_float hfl h h0
  have hu := fun k => (unit_weights hfl h h0 k).2
  refine ⟨?_, hu, ?_⟩
  · rw [e]
    simp [Dict.keys, Function.comp_def]
  · have hpos : 0 < Spec.norm S (weight A) := by linarith
    have hone : ∑ k ∈ S, weight A k / Spec.norm S (weight A) * (weight A k / Spec.norm S (weight A)) = 1 := by
      have : ∀ k, weight A k / Spec.norm S (weight A) * (weight A k / Spec.norm S (weight A)) =
          weight A k * weight A k / dot S (weight A) (weight A) := by
        intro k
        rw [div_mul_div_comm, show Spec.norm S (weight A) * Spec.norm S (weight A) = dot S (weight A) (weight A) from
          Real.mul_self_sqrt h0.le]
      simp only [this]
      rw [← Finset.sum_div]
      exact div_self h0.ne'
    nth_rw 1 [← hone]
    rw [← Finset.sum_sub_distrib]
    refine (Finset.abs_sum_le_sum_abs _ _).trans ?_
    calc ∑ k ∈ S, |weight (MetricsFloat.sparseNormalize fl A) k ^ 2 -
          weight A k / Spec.norm S (weight A) * (weight A k / Spec.norm S (weight A))|
        ≤ ∑ k ∈ S, 7 / 2 ^ 53 * |weight A k / Spec.norm S (weight A) * (weight A k / Spec.norm S (weight A))| := by
          refine Finset.sum_le_sum fun k _ => ?_
          rw [pow_two]
          exact product_error (hu k).2 (hu k).2
      _ = 7 / 2 ^ 53 * ∑ k ∈ S, |weight A k / Spec.norm S (weight A) * (weight A k / Spec.norm S (weight A))| := by
          rw [Finset.mul_sum]
      _ ≤ 7 / 2 ^ 53 * 1 := mul_le_mul_of_nonneg_left (abs_dot_le S _ _ hpos hpos) (by norm_num)
      _ = 7 / 2 ^ 53 := mul_one _

/-- **C131**: the zero vector gives no weight at all. -/
theorem sparse_normalize_float_zero (hfl : IsRounding fl) {A : Dict κ ℝ} (h : ∀ item ∈ A, item.2 = 0) :
    MetricsFloat.sparseNormalize fl A = [] := by
  have : MetricsFloat.sparseNorm fl A = 0 := by
    unfold MetricsFloat.sparseNorm
    have key : ∀ l : List (κ × ℝ), (∀ item ∈ l, item.2 = 0) → l.foldl (fun s item => fl (s + fl (item.2 * item.2))) 0 = 0 := by
      intro l
      induction l with
      | nil => intro _; rfl
      | cons item l ih =>
          intro hl
          rw [List.foldl_cons, hl item (by simp), mul_zero, hfl.zero, add_zero, hfl.zero]
          exact ih fun i hi => hl i (by simp [hi])
    rw [key A h, Real.sqrt_zero, hfl.zero]
  unfold MetricsFloat.sparseNormalize
  simp only
  rw [if_pos this]

theorem dot_product_float (hfl : IsRounding fl) {X Y : Dict κ ℝ} (hX : (Dict.keys X).Nodup) {S : Finset κ} (hS : (Dict.keys X).toFinset ⊆ S)
    (hs : ∑ k ∈ S, |weight X k * weight Y k| ≤ 1 + 1 / 4) (hn : X.length ≤ 2 ^ 50) :
    |X.foldl (fun product item =>
      match Dict.get? Y item.1 with | some w2 => fl (product + fl (item.2 * w2)) | none => product) 0 -
      dot S (weight X) (weight Y)| ≤ X.length / 2 ^ 52 := by
  have e1 : (X.map fun item => item.2 * weight Y item.1).sum = dot S (weight X) (weight Y) := by
    rw [sum_items hX (fun k v => v * weight Y k)]
    unfold dot
    apply Finset.sum_subset hS
    intro k _ hk
    rw [weight_of_not_mem (by simpa using hk), zero_mul]
  have e2 : (X.map fun item => |item.2 * weight Y item.1|).sum = ∑ k ∈ S, |weight X k * weight Y k| := by
    rw [sum_items hX (fun k v => |v * weight Y k|)]
    apply Finset.sum_subset hS
    intro k _ hk
    rw [weight_of_not_mem (by simpa using hk), zero_mul, abs_zero]
  have hn' : (X.length : ℝ) ≤ 2 ^ 50 := by exact_mod_cast hn
  have := dot_fold_error hfl Y X 0 0 0 (by simp) (by rw [e2, abs_zero, zero_add]; exact hs) (by
    rw [zero_add]
    calc (X.length : ℝ) * (1 / 2 ^ 52) ≤ 2 ^ 50 * (1 / 2 ^ 52) := mul_le_mul_of_nonneg_right hn' (by norm_num)
      _ = 1 / 4 := by norm_num)
  rw [e1, zero_add, zero_add] at this
  refine this.trans (le_of_eq ?_)
  ring

/-- **C131**: the dot product of two normalized vectors, computed in double precision, is the cosine of the vectors up to the number of
keys of the smaller one plus four, times `2 ^ -52`. -/
theorem normalized_dot_float (hfl : IsRounding fl) {S : Finset κ} {A B : Dict κ ℝ} (hA : WholeWeights S A) (hB : WholeWeights S B)
    (hA0 : 0 < dot S (weight A) (weight A)) (hB0 : 0 < dot S (weight B) (weight B)) (hn : min A.length B.length ≤ 2 ^ 50) :
    |MetricsFloat.sparseDotProduct fl (MetricsFloat.sparseNormalize fl A) (MetricsFloat.sparseNormalize fl B) -
      cosine S (weight A) (weight B)| ≤ ((min A.length B.length : ℕ) + 4) / 2 ^ 52 := by
  obtain ⟨ka, ua, _⟩ := sparse_normalize_float hfl hA hA0
  obtain ⟨kb, ub, _⟩ := sparse_normalize_float hfl hB hB0
  obtain ⟨_, ra, _⟩ := weights_float hfl hA hA0
  obtain ⟨_, rb, _⟩ := weights_float hfl hB hB0
  have la : (MetricsFloat.sparseNormalize fl A).length = A.length := by
    have := congrArg List.length ka
    simpa [Dict.keys] using this
  have lb : (MetricsFloat.sparseNormalize fl B).length = B.length := by
    have := congrArg List.length kb
    simpa [Dict.keys] using this
  generalize MetricsFloat.sparseNormalize fl A = X at *
  generalize MetricsFloat.sparseNormalize fl B = Y at *
  have pa : 0 < Spec.norm S (weight A) := by linarith
  have pb : 0 < Spec.norm S (weight B) := by linarith
  have habs := abs_dot_le S _ _ pa pb
  have hterm := fun k => product_error (ua k).2 (ub k).2
  have hsum : ∑ k ∈ S, |weight X k * weight Y k -
      weight A k / Spec.norm S (weight A) * (weight B k / Spec.norm S (weight B))| ≤ 7 / 2 ^ 53 := by
    refine (Finset.sum_le_sum fun k _ => hterm k).trans ?_
    rw [← Finset.mul_sum]
    refine (mul_le_mul_of_nonneg_left habs (by norm_num)).trans (le_of_eq (mul_one _))
  have hcos : ∑ k ∈ S, weight A k / Spec.norm S (weight A) * (weight B k / Spec.norm S (weight B)) =
      cosine S (weight A) (weight B) := by
    unfold cosine dot
    rw [Finset.sum_div]
    refine Finset.sum_congr rfl fun k _ => ?_
    rw [div_mul_div_comm]
  have hdot : |dot S (weight X) (weight Y) - cosine S (weight A) (weight B)| ≤ 7 / 2 ^ 53 := by
    rw [← hcos]
    unfold dot
    rw [← Finset.sum_sub_distrib]
    exact (Finset.abs_sum_le_sum_abs _ _).trans hsum
  have hs : ∑ k ∈ S, |weight X k * weight Y k| ≤ 1 + 1 / 4 := by
    have : ∀ k, |weight X k * weight Y k| ≤ |weight A k / Spec.norm S (weight A) * (weight B k / Spec.norm S (weight B))| +
        |weight X k * weight Y k - weight A k / Spec.norm S (weight A) * (weight B k / Spec.norm S (weight B))| := by
      intro k
      have := abs_sub_abs_le_abs_sub (weight X k * weight Y k)
        (weight A k / Spec.norm S (weight A) * (weight B k / Spec.norm S (weight B)))
      linarith
    refine (Finset.sum_le_sum fun k _ => this k).trans ?_
    rw [Finset.sum_add_distrib]
    have : (7 : ℝ) / 2 ^ 53 ≤ 1 / 4 := by norm_num
    linarith
  have hsym : dot S (weight Y) (weight X) = dot S (weight X) (weight Y) := by
    unfold dot
    simp only [mul_comm (weight Y _)]
  have key : |MetricsFloat.sparseDotProduct fl X Y - dot S (weight X) (weight Y)| ≤ (min A.length B.length : ℕ) / 2 ^ 52 := by
    rw [show MetricsFloat.sparseDotProduct fl X Y = (swapped X Y).1.foldl (fun product item =>
      match Dict.get? (swapped X Y).2 item.1 with | some w2 => fl (product + fl (item.2 * w2)) | none => product) 0 from rfl]
    by_cases h : X.length > Y.length
    · rw [show swapped X Y = (Y, X) from if_pos h, ← hsym]
      have := dot_product_float hfl (X := Y) (Y := X) (S := S) (by rw [kb]; exact hB.nodup) (by rw [kb]; exact hB.within)
        (by simpa only [mul_comm (weight Y _)] using hs) (by omega)
      rwa [show Y.length = min A.length B.length by omega] at this
    · rw [show swapped X Y = (X, Y) from if_neg h]
      have := dot_product_float hfl (X := X) (Y := Y) (S := S) (by rw [ka]; exact hA.nodup) (by rw [ka]; exact hA.within)
        hs (by omega)
      rwa [show X.length = min A.length B.length by omega] at this
  have h3 := abs_sub_le (MetricsFloat.sparseDotProduct fl X Y) (dot S (weight X) (weight Y)) (cosine S (weight A) (weight B))
  have h4 : (((min A.length B.length : ℕ) : ℝ) + 4) / 2 ^ 52 = (min A.length B.length : ℕ) / 2 ^ 52 + 8 / 2 ^ 53 := by ring
  rw [h4]
  have : (7 : ℝ) / 2 ^ 53 ≤ 8 / 2 ^ 53 := by norm_num
  linarith

/-- **C131**: so it is what `sparse_cosine_similarity` computes, up to as small an error. -/
theorem normalized_dot_float_cosine (hfl : IsRounding fl) {A B : Dict κ ℝ}
    (hA : WholeWeights ((Dict.keys A).toFinset ∪ (Dict.keys B).toFinset) A) (hB : WholeWeights ((Dict.keys A).toFinset ∪ (Dict.keys B).toFinset) B)
    (hAnz : ∃ k, weight A k ≠ 0) (hBnz : ∃ k, weight B k ≠ 0) (hn : min A.length B.length ≤ 2 ^ 50) :
    ∃ c, MetricsFloat.sparseCosineSimilarity fl false A B = .ok c ∧
      |MetricsFloat.sparseDotProduct fl (MetricsFloat.sparseNormalize fl A) (MetricsFloat.sparseNormalize fl B) - c| ≤
        ((min A.length B.length : ℕ) + 6) / 2 ^ 52 := by
  set S := (Dict.keys A).toFinset ∪ (Dict.keys B).toFinset with hS
  have pos : ∀ D : Dict κ ℝ, (Dict.keys D).toFinset ⊆ S → (∃ k, weight D k ≠ 0) → 0 < dot S (weight D) (weight D) := by
    rintro D hD ⟨k, hk⟩
    have hm : k ∈ S := hD (by
      rw [List.mem_toFinset]
      by_contra hc
      exact hk (weight_of_not_mem hc))
    unfold dot
    exact Finset.sum_pos' (fun i _ => mul_self_nonneg _) ⟨k, hm, mul_self_pos.mpr hk⟩
  obtain ⟨c, hc, _, _, _, he, _⟩ := sparse_cosine_float hfl hA.nodup hB.nodup hAnz hBnz hA.integers hB.integers S hS hA.small hB.small
  refine ⟨c, hc, ?_⟩
  have h1 := normalized_dot_float hfl hA hB (pos A hA.within hAnz) (pos B hB.within hBnz) hn
  rw [abs_sub_comm] at he
  have h2 := abs_sub_le (MetricsFloat.sparseDotProduct fl (MetricsFloat.sparseNormalize fl A) (MetricsFloat.sparseNormalize fl B))
    (cosine S (weight A) (weight B)) c
  have h3 : (((min A.length B.length : ℕ) : ℝ) + 6) / 2 ^ 52 = ((min A.length B.length : ℕ) + 4) / 2 ^ 52 + 4 / 2 ^ 53 := by ring
  rw [h3]
  have : (3 : ℝ) / 2 ^ 53 ≤ 4 / 2 ^ 53 := by norm_num
  linarith

/-- **C131**: the dot product of two vectors of as many keys depends on which one comes first, when their keys are in different orders. -/
theorem sparse_dot_product_float_not_symmetric (hfl : IsRounding fl) : ∃ A B : Dict Nat ℝ, (Dict.keys A).Nodup ∧ (Dict.keys B).Nodup ∧
    (∀ k, IsDouble (weight A k)) ∧ (∀ k, IsDouble (weight B k)) ∧
    MetricsFloat.sparseDotProduct fl A B ≠ MetricsFloat.sparseDotProduct fl B A := by
  have d0 : IsDouble (0 : ℝ) := by simpa using isDouble_nat (n := 0) (by norm_num)
  have d1 : IsDouble (1 : ℝ) := by simpa using isDouble_nat (n := 1) (by norm_num)
  have d2 : IsDouble ((2 : ℝ) ^ 54) := by
    have := isDouble_zpow (e := 54) (by norm_num)
    exact_mod_cast this
  have f1 : fl (2 ^ 54 + 1) = 2 ^ 54 := by
    have := hfl.eq_of_near (x := 2 ^ 54 + 1) (n := 2 ^ 52) (k := 2) (by norm_num) (by norm_num) (by norm_num) (by norm_num)
    rw [this]
    norm_num
  have f2 : fl (3 + 2 ^ 54) = 2 ^ 54 + 4 := by
    have := hfl.eq_of_near (x := 3 + 2 ^ 54) (n := 2 ^ 52 + 1) (k := 2) (by norm_num) (by norm_num) (by norm_num) (by norm_num [abs_lt])
    rw [this]
    norm_num
  have g2 : fl 2 = 2 := by simpa using hfl.nat (n := 2) (by norm_num)
  have g3 : fl 3 = 3 := by simpa using hfl.nat (n := 3) (by norm_num)
  have w : ∀ (D : Dict Nat ℝ), (∀ item ∈ D, IsDouble item.2) → ∀ k, IsDouble (weight D k) := by
    intro D hD k
    unfold weight
    cases h : Dict.get? D k with
    | none => exact d0
    | some v => exact hD _ (Dict.mem_of_get? h)
  refine ⟨[(0, 2 ^ 54), (1, 1), (2, 1), (3, 1)], [(1, 1), (2, 1), (3, 1), (0, 1)], by decide, by decide, w _ ?_, w _ ?_, ?_⟩
  · intro item hi
    simp only [List.mem_cons, List.not_mem_nil, or_false] at hi
    rcases hi with rfl | rfl | rfl | rfl <;> assumption
  · intro item hi
    simp only [List.mem_cons, List.not_mem_nil, or_false] at hi
    rcases hi with rfl | rfl | rfl | rfl <;> assumption
  · have e1 : MetricsFloat.sparseDotProduct fl ([(0, 2 ^ 54), (1, 1), (2, 1), (3, 1)] : Dict Nat ℝ)
        [(1, 1), (2, 1), (3, 1), (0, 1)] = 2 ^ 54 := by
      simp [MetricsFloat.sparseDotProduct, Dict.get?, hfl.one, hfl.of_double d2, f1]
    have e2 : MetricsFloat.sparseDotProduct fl ([(1, 1), (2, 1), (3, 1), (0, 1)] : Dict Nat ℝ)
        [(0, 2 ^ 54), (1, 1), (2, 1), (3, 1)] = 2 ^ 54 + 4 := by
      simp [MetricsFloat.sparseDotProduct, Dict.get?, hfl.one, hfl.of_double d2]
      norm_num [g2, g3] at f2 ⊢
      exact f2
    rw [e1, e2]
    norm_num

-- Two vectors of counts.
example : WholeWeights {0, 1, 2} ([(0, 3), (1, 4)] : Dict Nat ℝ) ∧
    WholeWeights {0, 1, 2} ([(2, 2), (1, 1)] : Dict Nat ℝ) := by
  constructor
  · refine ⟨by decide, by decide, fun k => ?_, by
      unfold dot
      rw [Finset.sum_insert (by decide), Finset.sum_insert (by decide), Finset.sum_singleton]
      norm_num [weight, Dict.get?]⟩
    unfold weight
    simp only [Dict.get?]
    split
    · exact ⟨3, by norm_num⟩
    · split
      · exact ⟨4, by norm_num⟩
      · exact ⟨0, by norm_num⟩
  · refine ⟨by decide, by decide, fun k => ?_, by
      unfold dot
      rw [Finset.sum_insert (by decide), Finset.sum_insert (by decide), Finset.sum_singleton]
      norm_num [weight, Dict.get?]⟩
    unfold weight
    simp only [Dict.get?]
    split
    · exact ⟨2, by norm_num⟩
    · split
      · exact ⟨1, by norm_num⟩
      · exact ⟨0, by norm_num⟩

end Fog.Props
