import Verif.Model.FaginRounded
import Verif.Props.Fagin
import Verif.Props.MetricsFloat
import Verif.Props.DefaultsFloat

/-!
# C141: `fog/clustering/fagin.py` in double precision
-/

namespace Fog.Props

open Fog.Spec Fog.FaginRounded

variable {κ : Type} [DecidableEq κ] {fl : ℝ → ℝ}

/-! ### The rounded cosine -/

theorem sum_squares_ge (hfl : IsRounding fl) {l : List (κ × ℝ)} (h : ∀ e ∈ l, (2 : ℝ) ^ (-255 : ℤ) ≤ e.2) (x : ℝ) (hx : 0 ≤ x) :
    0 ≤ l.foldl (fun yy item => fl (yy + fl (item.2 ^ 2))) x ∧
      (l ≠ [] ∨ (2 : ℝ) ^ (-510 : ℤ) ≤ x → (2 : ℝ) ^ (-510 : ℤ) ≤ l.foldl (fun yy item => fl (yy + fl (item.2 ^ 2))) x) := by
  induction l generalizing x with
  | nil =>
      refine ⟨hx, ?_⟩
      rintro (h | h)
      · exact absurd rfl h
      · exact h
  | cons e l ih =>
      have he := h e (by simp)
      have h1 : (2 : ℝ) ^ (-510 : ℤ) ≤ fl (e.2 ^ 2) := by
        have h2 : (2 : ℝ) ^ (-510 : ℤ) ≤ e.2 ^ 2 := by
          have := pow_le_pow_left₀ (two_zpow_pos (-255)).le he 2
          rwa [← zpow_natCast, ← zpow_mul] at this
        have := hfl.mono h2
        rwa [hfl.of_double (isDouble_zpow (by norm_num))] at this
      have h3 : (2 : ℝ) ^ (-510 : ℤ) ≤ fl (x + fl (e.2 ^ 2)) := by
        have := hfl.mono (show (2 : ℝ) ^ (-510 : ℤ) ≤ x + fl (e.2 ^ 2) by linarith)
        rwa [hfl.of_double (isDouble_zpow (by norm_num))] at this
      have h4 := ih (fun e he => h e (by simp [he])) (fl (x + fl (e.2 ^ 2))) ((two_zpow_pos (-510)).le.trans h3)
      simp only [List.foldl_cons]
      exact ⟨h4.1, fun _ => h4.2 (.inr h3)⟩

theorem cosine_fold_fst (B : Dict κ ℝ) (l : List (κ × ℝ)) (x y : ℝ) :
    (l.foldl (MetricsFloat.cosineStep fl B) (x, y)).1 = l.foldl (fun yy item => fl (yy + fl (item.2 ^ 2))) x := by
  induction l generalizing x y with
  | nil => rfl
  | cons e l ih =>
      simp only [List.foldl_cons]
      rw [← ih]
      rfl

/-- With weights of at least `2 ** -255`, the cosine raises nothing. -/
theorem computed_cosine_ok (hfl : IsRounding fl) (same : Bool) {A B : Dict κ ℝ} (hA : ∀ e ∈ A, (2 : ℝ) ^ (-255 : ℤ) ≤ e.2)
    (hB : ∀ e ∈ B, (2 : ℝ) ^ (-255 : ℤ) ≤ e.2) : ∃ c, MetricsFloat.sparseCosineSimilarity fl same A B = .ok c := by
  have key : ∀ A B : Dict κ ℝ, A ≠ [] → B ≠ [] → (∀ e ∈ A, (2 : ℝ) ^ (-255 : ℤ) ≤ e.2) → (∀ e ∈ B, (2 : ℝ) ^ (-255 : ℤ) ≤ e.2) →
      ∃ c, MetricsFloat.cosineRatio fl (A.foldl (MetricsFloat.cosineStep fl B) (0, 0)).1 (A.foldl (MetricsFloat.cosineStep fl B) (0, 0)).2
        (B.foldl (fun yy item => fl (yy + fl (item.2 ^ 2))) 0) = .ok c := by
    intro A B hA hB hA' hB'
    rw [cosine_fold_fst]
    have h1 := (sum_squares_ge hfl hA' 0 (le_refl _)).2 (.inl hA)
    have h2 := (sum_squares_ge hfl hB' 0 (le_refl _)).2 (.inl hB)
    unfold MetricsFloat.cosineRatio
    have h3 : (2 : ℝ) ^ (-1020 : ℤ) ≤ fl (A.foldl (fun yy item => fl (yy + fl (item.2 ^ 2))) 0 * B.foldl (fun yy item => fl (yy + fl (item.2 ^ 2))) 0) := by
      have h4 : (2 : ℝ) ^ (-1020 : ℤ) ≤ A.foldl (fun yy item => fl (yy + fl (item.2 ^ 2))) 0 * B.foldl (fun yy item => fl (yy + fl (item.2 ^ 2))) 0 := by
        have := mul_le_mul h1 h2 (two_zpow_pos (-510)).le ((two_zpow_pos (-510)).le.trans h1)
        rwa [← zpow_add₀ (by norm_num)] at this
      have := hfl.mono h4
      rwa [hfl.of_double (isDouble_zpow (by norm_num))] at this
    have h5 : (2 : ℝ) ^ (-510 : ℤ) ≤ fl (Real.sqrt (fl (A.foldl (fun yy item => fl (yy + fl (item.2 ^ 2))) 0 * B.foldl (fun yy item => fl (yy + fl (item.2 ^ 2))) 0))) := by
      have h6 := Real.sqrt_le_sqrt h3
      have h7 : Real.sqrt ((2 : ℝ) ^ (-1020 : ℤ)) = (2 : ℝ) ^ (-510 : ℤ) := by
        rw [show (2 : ℝ) ^ (-1020 : ℤ) = ((2 : ℝ) ^ (-510 : ℤ)) ^ 2 by rw [← zpow_natCast, ← zpow_mul]; norm_num]
        exact Real.sqrt_sq (two_zpow_pos (-510)).le
      rw [h7] at h6
      have := hfl.mono h6
      rwa [hfl.of_double (isDouble_zpow (by norm_num))] at this
    have h8 := lt_of_lt_of_le (two_zpow_pos (-510)) h5
    simp only
    rw [if_neg h8.ne']
    exact ⟨_, rfl⟩
  unfold MetricsFloat.sparseCosineSimilarity
  split
  · exact ⟨_, rfl⟩
  split
  · exact ⟨_, rfl⟩
  · next h =>
    rw [not_or] at h
    have hA0 : A ≠ [] := fun e => h.1 (by simp [e])
    have hB0 : B ≠ [] := fun e => h.2 (by simp [e])
    have hsw : Metrics.swapped A B = (B, A) ∨ Metrics.swapped A B = (A, B) := by
      unfold Metrics.swapped
      split
      · exact .inl rfl
      · exact .inr rfl
    rcases hsw with e | e
    · rw [e]; exact key B A hB0 hA0 hB hA
    · rw [e]; exact key A B hA0 hB0 hA hB

/-- The cosine which is computed, or zero if an exception is raised. -/
noncomputable def computedCosine (fl : ℝ → ℝ) (same : Bool) (A B : Dict κ ℝ) : ℝ :=
  match MetricsFloat.sparseCosineSimilarity fl same A B with
  | .ok c => c
  | .error _ => 0

theorem computed_cosine_eq (hfl : IsRounding fl) (same : Bool) {A B : Dict κ ℝ} (hA : ∀ e ∈ A, (2 : ℝ) ^ (-255 : ℤ) ≤ e.2)
    (hB : ∀ e ∈ B, (2 : ℝ) ^ (-255 : ℤ) ≤ e.2) : MetricsFloat.sparseCosineSimilarity fl same A B = .ok (computedCosine fl same A B) := by
  obtain ⟨c, hc⟩ := computed_cosine_ok hfl same hA hB
  unfold computedCosine
  rw [hc]

/-- What is below half of the least double is rounded to zero. -/
theorem rounds_to_zero (hfl : IsRounding fl) {e : ℤ} (he : e < -1075) : fl ((2 : ℝ) ^ e) = 0 := by
  obtain ⟨m, k, hm, hk, h⟩ := hfl.double ((2 : ℝ) ^ e)
  have h1 := hfl.nearest ((2 : ℝ) ^ e) 0 (by simpa using isDouble_nat (n := 0) (by norm_num))
  have hp := two_zpow_pos e
  have hp' := two_zpow_pos k
  rw [zero_sub, abs_neg, abs_of_pos hp] at h1
  have h2 : fl ((2 : ℝ) ^ e) ≤ 2 * (2 : ℝ) ^ e := by linarith [(abs_le.mp h1).2]
  have h3 := hfl.nonneg hp.le
  rcases lt_trichotomy m 0 with hneg | rfl | hpos
  · exfalso
    have : (m : ℝ) * (2 : ℝ) ^ k < 0 := mul_neg_of_neg_of_pos (by exact_mod_cast hneg) hp'
    linarith
  · rw [h]; simp
  · exfalso
    have h4 : (1 : ℝ) ≤ m := by exact_mod_cast hpos
    have h5 : (2 : ℝ) ^ k ≤ fl ((2 : ℝ) ^ e) := by
      rw [h]
      nlinarith
    have h6 : 2 * (2 : ℝ) ^ e = (2 : ℝ) ^ (e + 1) := by
      rw [zpow_add₀ (by norm_num), zpow_one, mul_comm]
    have h7 : (2 : ℝ) ^ (e + 1) < (2 : ℝ) ^ k := zpow_lt_zpow_right₀ (by norm_num) (by omega)
    linarith

/-! ### `threshold_algorithm_k1` -/

/-- **C141**: on vectors of weights at least `2 ** -255`, `threshold_algorithm_k1` ends without raising and gives one answer for each vector,
in order, which is as with exact numbers but for the similarities, which are those computed. -/
theorem threshold_algorithm_rounded (hfl : IsRounding fl) {vectors : List (Dict κ ℝ)} (hv : AreVectors vectors)
    (hw : ∀ v ∈ vectors, ∀ e ∈ v, (2 : ℝ) ^ (-255 : ℤ) ≤ e.2) (same : Nat → Nat → Bool) {fuel : Nat} (hf : vectors.length < fuel) :
    ∃ js : List Nat, js.length = vectors.length ∧
      FaginRounded.thresholdAlgorithmK1 fl same fuel vectors = .ok (js.zipIdx.map fun e => (e.2, some e.1)) ∧
      ∀ i j A, js[i]? = some j → vectors[i]? = some A →
        ThresholdAnswer vectors i (fun j => computedCosine fl (same i j) A ((vectors[j]?).getD [])) (fun t => computedCosine fl false A t) j := by
  have hsim : ∀ i j, j ≠ i → ShareDimension vectors i j →
      FaginRounded.cosineOf fl same vectors i j = .ok (computedCosine fl (same i j) ((vectors[i]?).getD []) ((vectors[j]?).getD [])) := by
    rintro i j hji ⟨d, w, w', ⟨A, hA, hAd⟩, ⟨B, hB, hBd⟩⟩
    simp only [FaginRounded.cosineOf, hA, hB, Option.getD_some]
    exact computed_cosine_eq hfl _ (hw A (List.mem_of_getElem? hA)) (hw B (List.mem_of_getElem? hB))
  have hthr : ∀ i (t : Dict κ ℝ), i < vectors.length → t.keys.Nodup → (∀ e ∈ t, ∃ j, j ≠ i ∧ HasWeight vectors j e.1 e.2) →
      FaginRounded.cosineTo fl vectors i t = .ok (computedCosine fl false ((vectors[i]?).getD []) t) := by
    intro i t hi hn ht
    have hA : vectors[i]? = some vectors[i] := List.getElem?_eq_getElem hi
    simp only [FaginRounded.cosineTo, hA, Option.getD_some]
    refine computed_cosine_eq hfl _ (hw _ (List.getElem_mem hi)) ?_
    intro e he
    obtain ⟨j, _, v, hv', hm⟩ := ht e he
    exact hw v (List.mem_of_getElem? hv') e hm
  obtain ⟨js, h1, h2, h3⟩ := Fagin.answers_all hv (cs := fun i j => computedCosine fl (same i j) ((vectors[i]?).getD []) ((vectors[j]?).getD []))
    (T := fun i t => computedCosine fl false ((vectors[i]?).getD []) t) hsim hthr hf
  refine ⟨js, h1, h2, fun i j A hj hA => ?_⟩
  have := h3 i j hj
  simpa only [hA, Option.getD_some] using this

example (hfl : IsRounding fl) : ∃ js : List Nat, js.length = 3 ∧
    FaginRounded.thresholdAlgorithmK1 fl (fun i j => decide (i = j)) 4 opposite = .ok (js.zipIdx.map fun e => (e.2, some e.1)) := by
  obtain ⟨js, h1, h2, _⟩ := threshold_algorithm_rounded hfl opposite_vectors (by
    have h : (2 : ℝ) ^ (-255 : ℤ) ≤ 1 := zpow_le_one_of_nonpos₀ (by norm_num) (by norm_num)
    intro v hv e he
    refine h.trans ?_
    simp only [opposite, List.mem_cons, List.not_mem_nil, or_false] at hv
    rcases hv with rfl | rfl | rfl <;> · simp at he; rcases he with rfl | rfl <;> norm_num) (fun i j => decide (i = j)) (fuel := 4) (by decide)
  exact ⟨js, h1, h2⟩

/-- Below, it may raise: the product of the squares is rounded to zero. -/
theorem threshold_algorithm_rounded_raises (hfl : IsRounding fl) :
    FaginRounded.thresholdAlgorithmK1 fl (fun i j => decide (i = j)) 3 [[('x', (2 : ℝ) ^ (-300 : ℤ))], [('x', (2 : ℝ) ^ (-300 : ℤ))]] =
      .error .zeroDivisionError := by
  have q : fl (((2 : ℝ) ^ (-300 : ℤ)) ^ 2) = (2 : ℝ) ^ (-600 : ℤ) := by
    rw [← zpow_natCast, ← zpow_mul]
    exact hfl.of_double (isDouble_zpow (by norm_num))
  have q' : fl (0 + (2 : ℝ) ^ (-600 : ℤ)) = (2 : ℝ) ^ (-600 : ℤ) := by
    rw [zero_add]
    exact hfl.of_double (isDouble_zpow (by norm_num))
  have z : fl ((2 : ℝ) ^ (-600 : ℤ) * (2 : ℝ) ^ (-600 : ℤ)) = 0 := by
    rw [← zpow_add₀ (by norm_num)]
    exact rounds_to_zero hfl (by norm_num)
  have hc : MetricsFloat.sparseCosineSimilarity fl false [('x', (2 : ℝ) ^ (-300 : ℤ))] [('x', (2 : ℝ) ^ (-300 : ℤ))] = .error .zeroDivisionError := by
    simp only [MetricsFloat.sparseCosineSimilarity, Metrics.swapped, MetricsFloat.cosineStep, MetricsFloat.cosineRatio, List.foldl_cons,
      List.foldl_nil, List.length_cons, List.length_nil, lt_irrefl, if_false, q, q', z, Real.sqrt_zero, hfl.zero, if_true, Bool.false_eq_true]
    rfl
  generalize (2 : ℝ) ^ (-300 : ℤ) = w at hc
  have hl : Fagin.invertedList [[('x', w)], [('x', w)]] 'x' = [(w, 0), (w, 1)] := by
    rw [Fagin.invertedList, Fagin.postings_get]
    change [(w, 0), (w, 1)].mergeSort Fagin.tupleLe = _
    norm_num [List.mergeSort, List.MergeSort.Internal.splitInTwo, List.merge, Fagin.tupleLe]
  have hs : FaginRounded.cosineOf fl (fun i j => decide (i = j)) [[('x', w)], [('x', w)]] 0 1 = .error .zeroDivisionError := by
    simpa [FaginRounded.cosineOf] using hc
  have hz : [[('x', w)], [('x', w)]].zipIdx = [([('x', w)], 0), ([('x', w)], 1)] := rfl
  unfold FaginRounded.thresholdAlgorithmK1 Fagin.thresholdAlgorithmK1
  rw [hz, List.mapM_cons]
  have ht : Fagin.thresholdLoop (FaginRounded.cosineOf fl (fun i j => decide (i = j)) [[('x', w)], [('x', w)]])
      (FaginRounded.cosineTo fl [[('x', w)], [('x', w)]]) (Fagin.invertedList [[('x', w)], [('x', w)]]) (Dict.keys [('x', w)]) 0 3 0
      ⟨[], none, [], true⟩ = .error .zeroDivisionError := by
    rw [Fagin.thresholdLoop]
    have : Dict.keys [('x', w)] = ['x'] := rfl
    rw [this, List.foldlM_cons]
    have hk : Fagin.look (FaginRounded.cosineOf fl (fun i j => decide (i = j)) [[('x', w)], [('x', w)]])
        (Fagin.invertedList [[('x', w)], [('x', w)]]) 0 0 ⟨[], none, [], true⟩ 'x' = .error .zeroDivisionError := by
      simp [Fagin.look, hl, hs]
    rw [hk]
    rfl
  simp only [ht]
  rfl

/-! ### `sqrt_indexation_pairs` -/

/-- `x` is the first of the elements of `l` whose key is the least. -/
def FirstLeast (key : Nat → ℝ) (l : List Nat) (x : Nat) : Prop :=
  ∃ pre post, l = pre ++ x :: post ∧ (∀ y ∈ pre, key x < key y) ∧ ∀ y ∈ post, key x ≤ key y

/-- The similarities for which the exact keys are the rounded ones. -/
noncomputable def keyed (fl : ℝ → ℝ) (similarity : Nat → Nat → Py ℝ) (i j : Nat) : Py ℝ :=
  match similarity i j with
  | .error e => .error e
  | .ok cs => .ok (1 - fl (1 - cs))

theorem closest_keyed (similarity : Nat → Nat → Py ℝ) (i : Nat) (leaders : List Nat) (b : Option (ℝ × Nat)) :
    FaginRounded.closest fl similarity i leaders b = Fagin.closest (keyed fl similarity) i leaders b := by
  induction leaders generalizing b with
  | nil => cases b <;> rfl
  | cons x leaders ih =>
      rw [FaginRounded.closest, Fagin.closest]
      unfold keyed
      cases similarity i x with
      | error e => rfl
      | ok cs =>
          simp only [sub_sub_cancel]
          exact ih _

theorem leaderLoop_keyed (similarity : Nat → Nat → Py ℝ) (leaders is : List Nat) (proximities : Dict Nat (List Nat)) :
    FaginRounded.leaderLoop fl similarity leaders is proximities = Fagin.leaderLoop (keyed fl similarity) leaders is proximities := by
  induction is generalizing proximities with
  | nil => rfl
  | cons i is ih =>
      rw [FaginRounded.leaderLoop, Fagin.leaderLoop, closest_keyed]
      simp only [ih]
      cases Fagin.closest (keyed fl similarity) i leaders none with
      | error e => rfl
      | ok leader =>
          simp only
          cases Fagin.leaderLoop (keyed fl similarity) leaders is (proximities.update leader [] fun x => x ++ [i]) <;> rfl

/-- **C141**: on vectors of weights at least `2 ** -255`, `sqrt_indexation_pairs` raises nothing and yields, for each vector in order, the pair
it forms with its leader, then those it forms with the previous vectors which have the same leader. The leader is the first whose rounded
distance is the least; with similarities from 0 to 1, no leader is more similar by more than `2 ** -53`. -/
theorem sqrt_indexation_rounded (hfl : IsRounding fl) {vectors : List (Dict κ ℝ)} (hn : vectors.length < 2 ^ 52)
    (hw : ∀ v ∈ vectors, ∀ e ∈ v, (2 : ℝ) ^ (-255 : ℤ) ≤ e.2) {indices : List Nat} (hi : indices.Perm (List.range vectors.length))
    (same : Nat → Nat → Bool) {cs : Nat → Nat → ℝ} (hcs : ∀ i j, cs i j = computedCosine fl (same i j) ((vectors[i]?).getD []) ((vectors[j]?).getD [])) :
    ∃ leader : Nat → Nat,
      (∀ i, i < vectors.length → FirstLeast (fun j => fl (1 - cs i j)) (indices.take vectors.length.sqrt) (leader i)) ∧
      (∀ i, i < vectors.length → (∀ j, 0 ≤ cs i j ∧ cs i j ≤ 1) → ∀ j ∈ indices.take vectors.length.sqrt, cs i j ≤ cs i (leader i) + 1 / 2 ^ 53) ∧
      FaginRounded.sqrtIndexationPairs fl same indices vectors = .ok ((List.range vectors.length).flatMap fun i =>
        (i, leader i) :: ((List.range i).filter fun j => decide (leader j = leader i)).map fun j => (i, j)) := by
  have hsim : ∀ i j, i < vectors.length → j < vectors.length →
      keyed fl (FaginRounded.cosineOf fl same vectors) i j = .ok (1 - fl (1 - cs i j)) := by
    intro i j hi hj
    have hA : vectors[i]? = some vectors[i] := List.getElem?_eq_getElem hi
    have hB : vectors[j]? = some vectors[j] := List.getElem?_eq_getElem hj
    unfold keyed
    rw [hcs]
    simp only [FaginRounded.cosineOf, hA, hB, Option.getD_some]
    rw [computed_cosine_eq hfl _ (hw _ (List.getElem_mem hi)) (hw _ (List.getElem_mem hj))]
  obtain ⟨leader, h1, h2⟩ := sqrt_indexation_pairs_partial hi hsim
  have h3 : ∀ i, i < vectors.length → FirstLeast (fun j => fl (1 - cs i j)) (indices.take vectors.length.sqrt) (leader i) := by
    intro i hlt
    obtain ⟨pre, post, e, h3, h4⟩ := h1 i hlt
    exact ⟨pre, post, e, fun y hy => by have := h3 y hy; simp only at this ⊢; linarith, fun y hy => by have := h4 y hy; simp only at this ⊢; linarith⟩
  refine ⟨leader, h3, ?_, ?_⟩
  · intro i hlt hb j hj
    have hle : fl (1 - cs i (leader i)) ≤ fl (1 - cs i j) := by
      obtain ⟨pre, post, e, h4, h5⟩ := h3 i hlt
      rw [e, List.mem_append, List.mem_cons] at hj
      rcases hj with hj | rfl | hj
      · exact (h4 j hj).le
      · exact le_refl _
      · exact h5 j hj
    have herr : ∀ j, |fl (1 - cs i j) - (1 - cs i j)| ≤ 1 / 2 ^ 54 := by
      intro j
      have := hfl.abs_error (x := 1 - cs i j) (k := 0) (by norm_num) (by
        rw [abs_le]
        have := hb j
        constructor <;> norm_num <;> linarith)
      refine this.trans (le_of_eq ?_)
      norm_num
    have e1 := (abs_le.mp (herr (leader i))).1
    have e2 := (abs_le.mp (herr j)).2
    norm_num at e1 e2 ⊢
    linarith
  · rw [← h2]
    unfold FaginRounded.sqrtIndexationPairs Fagin.sqrtIndexationPairs FaginFloat.leadersCount
    rw [sqrt_floor hfl hn, Int.toNat_natCast, leaderLoop_keyed]

/-- Four vectors. The first is not at all similar to the second, and a little to the third. -/
noncomputable def faint : List (Dict Char ℝ) := [[('a', 1), ('b', (2 : ℝ) ^ (-60 : ℤ))], [('c', 1)], [('b', 1)], [('a', 1)]]

theorem faint_weights : ∀ v ∈ faint, ∀ e ∈ v, (2 : ℝ) ^ (-255 : ℤ) ≤ e.2 := by
  have h1 : (2 : ℝ) ^ (-255 : ℤ) ≤ (2 : ℝ) ^ (-60 : ℤ) := zpow_le_zpow_right₀ (by norm_num) (by norm_num)
  have h2 : (2 : ℝ) ^ (-255 : ℤ) ≤ 1 := zpow_le_one_of_nonpos₀ (by norm_num) (by norm_num)
  intro v hv e he
  simp only [faint, List.mem_cons, List.not_mem_nil, or_false] at hv
  rcases hv with rfl | rfl | rfl | rfl
  · simp only [List.mem_cons, List.not_mem_nil, or_false] at he
    rcases he with rfl | rfl
    · exact h2
    · exact h1
  all_goals
    simp only [List.mem_cons, List.not_mem_nil, or_false] at he
    subst he
    exact h2

/-- The leader may not be the most similar: the distances 1 and `1 - 2 ** -60` are both rounded to 1, and the first leader is kept. -/
theorem sqrt_indexation_rounded_misses (hfl : IsRounding fl) :
    (∃ out, FaginRounded.sqrtIndexationPairs fl (fun i j => decide (i = j)) [1, 2, 0, 3] faint = .ok ((0, 1) :: out)) ∧
      computedCosine fl false faint[0] faint[1] = 0 ∧ computedCosine fl false faint[0] faint[2] = (2 : ℝ) ^ (-60 : ℤ) := by
  have o : fl (0 + fl (1 ^ 2)) = 1 := by rw [one_pow, hfl.one, zero_add, hfl.one]
  have q : fl (1 + fl (((2 : ℝ) ^ (-60 : ℤ)) ^ 2)) = 1 := by
    have h1 : fl (((2 : ℝ) ^ (-60 : ℤ)) ^ 2) = (2 : ℝ) ^ (-120 : ℤ) := by
      rw [← zpow_natCast, ← zpow_mul]
      exact hfl.of_double (isDouble_zpow (by norm_num))
    rw [h1]
    have := hfl.eq_of_near (x := 1 + (2 : ℝ) ^ (-120 : ℤ)) (n := 2 ^ 52) (k := -52) (by norm_num) (by norm_num) (by norm_num) (by norm_num)
    rw [this]
    norm_num
  have x : fl (0 + fl (1 * (2 : ℝ) ^ (-60 : ℤ))) = (2 : ℝ) ^ (-60 : ℤ) := by
    rw [one_mul, hfl.of_double (isDouble_zpow (by norm_num)), zero_add, hfl.of_double (isDouble_zpow (by norm_num))]
  have n1 : fl (Real.sqrt (fl (1 * 1))) = 1 := by rw [mul_one, hfl.one, Real.sqrt_one, hfl.one]
  have c1 : MetricsFloat.sparseCosineSimilarity fl false faint[0] faint[1] = .ok 0 := by
    change MetricsFloat.cosineRatio fl (fl (0 + fl (1 ^ 2))) 0 (fl (fl (0 + fl (1 ^ 2)) + fl (((2 : ℝ) ^ (-60 : ℤ)) ^ 2))) = _
    rw [o, q]
    unfold MetricsFloat.cosineRatio
    simp only [n1]
    rw [if_neg one_ne_zero, zero_div, hfl.zero]
  have c2 : MetricsFloat.sparseCosineSimilarity fl false faint[0] faint[2] = .ok ((2 : ℝ) ^ (-60 : ℤ)) := by
    change MetricsFloat.cosineRatio fl (fl (0 + fl (1 ^ 2))) (fl (0 + fl (1 * (2 : ℝ) ^ (-60 : ℤ))))
      (fl (fl (0 + fl (1 ^ 2)) + fl (((2 : ℝ) ^ (-60 : ℤ)) ^ 2))) = _
    rw [o, q, x]
    unfold MetricsFloat.cosineRatio
    simp only [n1]
    rw [if_neg one_ne_zero, div_one, hfl.of_double (isDouble_zpow (by norm_num))]
  have r1 : computedCosine fl false faint[0] faint[1] = 0 := by unfold computedCosine; rw [c1]
  have r2 : computedCosine fl false faint[0] faint[2] = (2 : ℝ) ^ (-60 : ℤ) := by unfold computedCosine; rw [c2]
  refine ⟨?_, r1, r2⟩
  obtain ⟨leader, h1, _, h2⟩ := sqrt_indexation_rounded hfl (vectors := faint) (by simp [faint]) faint_weights
    (indices := [1, 2, 0, 3]) (by simp only [faint, List.length_cons, List.length_nil]; decide) (fun i j => decide (i = j)) (fun _ _ => rfl)
  have hlead : leader 0 = 1 := by
    obtain ⟨pre, post, e, h3, _⟩ := h1 0 (by simp [faint])
    have ht : [1, 2, 0, 3].take faint.length.sqrt = [1, 2] := by
      show [1, 2, 0, 3].take (Nat.sqrt (2 * 2)) = _
      rw [Nat.sqrt_eq]
      rfl
    rw [ht] at e
    rcases pre with _ | ⟨p, pre⟩
    · simp only [List.nil_append, List.cons.injEq] at e
      exact e.1.symm
    · exfalso
      simp only [List.cons_append, List.cons.injEq] at e
      obtain ⟨rfl, e⟩ := e
      rcases pre with _ | ⟨p, pre⟩
      · simp only [List.nil_append, List.cons.injEq] at e
        have h4 := h3 1 (by simp)
        rw [← e.1] at h4
        have e1 : computedCosine fl (decide ((0 : Nat) = 1)) ((faint[0]?).getD []) ((faint[1]?).getD []) = 0 := r1
        have e2 : computedCosine fl (decide ((0 : Nat) = 2)) ((faint[0]?).getD []) ((faint[2]?).getD []) = (2 : ℝ) ^ (-60 : ℤ) := r2
        simp only [e1, e2] at h4
        have k2 : fl (1 - (2 : ℝ) ^ (-60 : ℤ)) = 1 := by
          have := hfl.eq_of_near (x := 1 - (2 : ℝ) ^ (-60 : ℤ)) (n := 2 ^ 53) (k := -53) (by norm_num) (by norm_num) (by norm_num) (by norm_num)
          rw [this]
          norm_num
        rw [k2, sub_zero, hfl.one] at h4
        exact lt_irrefl _ h4
      · simp at e
  have hr : List.range faint.length = 0 :: [1, 2, 3] := by
    simp only [faint, List.length_cons, List.length_nil]
    rfl
  rw [h2, hr, List.flatMap_cons, hlead]
  exact ⟨_, rfl⟩

end Fog.Props
