import Verif.Props.QuickjoinFloat

/-!
# `quickjoin_join_pivots` in double precision (C116)
-/

namespace Fog.Props

open Fog.Spec Fog.Quickjoin

variable {α : Type _} {fl : ℝ → ℝ}

theorem keeps_float_of_close (hfl : IsRounding fl) (pivots : List α) (distance : α → α → ℝ) (hd : IsPseudoMetric distance) (radius : ℝ)
    (hr : IsDouble radius) (A B : α) (h : distance A B ≤ radius) : QuickjoinFloat.keeps fl pivots distance radius A B = true := by
  unfold QuickjoinFloat.keeps
  rw [List.all_eq_true]
  intro p _
  have h1 := hd.triangle p A B
  have h2 := hd.triangle p B A
  have h3 := hd.symm A B
  have h4 := hfl.mono (show distance p B - distance p A ≤ radius by linarith)
  have h5 := hfl.mono (show -radius ≤ distance p B - distance p A by linarith)
  rw [hfl.of_double hr] at h4
  rw [hfl.of_double hr.neg] at h5
  simp only [gt_iff_lt, Bool.not_eq_true', decide_eq_false_iff_not, not_lt]
  apply max_le <;> linarith

/-- **C116** partial: computing with doubles, joining two lists through pivots gives the pairs of close items when the distances obey
the triangle inequality exactly and the radius is a double: the filter, though its differences are rounded, loses nothing.
Missing: distances which are themselves rounded, for which it is false (see below). -/
theorem join_pivots_float_exact_partial (hfl : IsRounding fl) (S1 S2 : List α) (distance : α → α → ℝ)
    (hd : IsPseudoMetric distance) (radius : ℝ) (hr : IsDouble radius) :
    (S1 = [] ∧ QuickjoinFloat.joinPivots fl S1 S2 distance radius = .error .indexError) ∨
    (S1 ≠ [] ∧ QuickjoinFloat.joinPivots fl S1 S2 distance radius =
      .ok (S1.flatMap fun A => (S2.filter fun B => decide (distance A B ≤ radius)).map fun B => (A, B))) := by
  have e : QuickjoinFloat.joinPivots fl S1 S2 distance radius = joinPivots S1 S2 distance radius := by
    unfold QuickjoinFloat.joinPivots joinPivots
    have : ∀ ps : List α, ∀ A B, (QuickjoinFloat.keeps fl ps distance radius A B && decide (distance A B ≤ radius)) =
        (keeps ps distance radius A B && decide (distance A B ≤ radius)) := by
      intro ps A B
      by_cases h : distance A B ≤ radius
      · rw [keeps_float_of_close hfl ps distance hd radius hr A B h]
        have : keeps ps distance radius A B = true := by
          unfold keeps
          rw [List.all_eq_true]
          intro p _
          have h1 := hd.triangle p A B
          have h2 := hd.triangle p B A
          have h3 := hd.symm A B
          simp only [gt_iff_lt, Bool.not_eq_true', decide_eq_false_iff_not, not_lt]
          apply max_le <;> linarith
        rw [this]
      · simp [h]
    simp only [this]
  rw [e]
  rcases join_pivots_exact S1 S2 distance hd radius with h | ⟨h, _, h1, rfl⟩
  · exact Or.inl h
  · exact Or.inr ⟨h, h1⟩

/-- The integers at a distance of one, computing with doubles. -/
example : ∃ fl, IsRounding fl ∧ QuickjoinFloat.joinPivots fl [5, 1] [6, 2, 9] cappedDistance 1 =
    .ok ([5, 1].flatMap fun A => ([6, 2, 9].filter fun B => decide (cappedDistance A B ≤ 1)).map fun B => (A, B)) := by
  obtain ⟨fl, hfl⟩ := exists_rounding
  rcases join_pivots_float_exact_partial hfl [5, 1] [6, 2, 9] cappedDistance cappedDistance_metric.toIsPseudoMetric 1
    ⟨1, 0, by norm_num, by norm_num, by norm_num⟩ with ⟨h, _⟩ | ⟨_, h⟩
  · simp at h
  · exact ⟨fl, hfl, h⟩

/-- Pairs are only ever lost: what is given is close, in the order of the lists, whatever the distance and the rounding. -/
theorem join_pivots_float_sound (fl : ℝ → ℝ) (S1 S2 : List α) (distance : α → α → ℝ) (radius : ℝ) (pairs : List (α × α))
    (h : QuickjoinFloat.joinPivots fl S1 S2 distance radius = .ok pairs) :
    pairs.Sublist (S1.flatMap fun A => (S2.filter fun B => decide (distance A B ≤ radius)).map fun B => (A, B)) := by
  have hfm : ∀ (A : α) (q : α → Prop) [DecidablePred q] (S : List α), (∀ B, q B → distance A B ≤ radius) →
      (S.filterMap fun B => if q B then some (A, B) else none).Sublist
      ((S.filter fun B => decide (distance A B ≤ radius)).map fun B => (A, B)) := by
    intro A q _ S hq
    induction S with
    | nil => simp
    | cons B S ih =>
        by_cases h : q B
        · simp [h, hq B h, ih]
        · by_cases h' : distance A B ≤ radius
          · simp only [List.filterMap_cons, if_neg h, List.filter_cons, h', decide_true, if_true, List.map_cons]
            exact ih.cons _
          · simpa [h, h'] using ih
  have hflat : ∀ (l : List α) (f g : α → List (α × α)), (∀ a, (f a).Sublist (g a)) → (l.flatMap f).Sublist (l.flatMap g) := by
    intro l f g hfg
    induction l with
    | nil => simp
    | cons a l ih => simpa using (hfg a).append ih
  unfold QuickjoinFloat.joinPivots at h
  simp only at h
  split at h
  · simp at h
  · rw [Except.ok.injEq] at h
    subst h
    generalize max 1 (min 16 (S1.length / 8)) = k
    conv => rhs; rw [← List.take_append_drop k S1, List.flatMap_append]
    refine List.Sublist.append (hflat _ _ _ fun A => hfm A _ _ fun B h => h) (hflat _ _ _ fun A => hfm A _ _ fun B h => ?_)
    rw [Bool.and_eq_true] at h
    exact of_decide_eq_true h.2

/-- **C116** is false when the distances are themselves rounded, even from a metric: items 2 and 3 of `fourPoints` are at a computed
distance of one, as the radius, and are not joined when item 0 is the pivot. -/
theorem join_pivots_float_loses (hfl : IsRounding fl) :
    QuickjoinFloat.joinPivots fl [0, 2] [3] (roundedDistance fl) 1 = .ok [] ∧ roundedDistance fl 2 3 = 1 := by
  have near : ∀ (x : ℝ) (n k : ℤ), -1074 ≤ k → (2 : ℝ) ^ (52 + k) ≤ x → |n| ≤ 2 ^ 53 → |x - n * (2 : ℝ) ^ k| < (2 : ℝ) ^ k / 2 →
      fl x = n * (2 : ℝ) ^ k := fun x n k h1 h2 h3 h4 => hfl.eq_of_near h1 h2 h3 h4
  have d02 : roundedDistance fl 0 2 = 254 / 2 ^ 61 := by
    have : |fourPoints 0 - fourPoints 2| = ((254 : ℤ) : ℝ) * (2 : ℝ) ^ (-61 : ℤ) := by
      simp only [fourPoints]; rw [abs_of_nonneg (by norm_num)]; norm_num
    rw [roundedDistance, this, hfl.of_double (isDouble_of_le (by norm_num) (by norm_num))]; norm_num
  have d03 : roundedDistance fl 0 3 = 1 + 1 / 2 ^ 52 := by
    have : |fourPoints 0 - fourPoints 3| = 1 + 382 / 2 ^ 61 := by
      simp only [fourPoints]; rw [abs_of_nonneg (by norm_num)]; norm_num
    rw [roundedDistance, this, near _ 4503599627370497 (-52) (by norm_num) (by norm_num) (by norm_num) (by rw [abs_lt]; norm_num)]
    norm_num
  have d23 : roundedDistance fl 2 3 = 1 := by
    have : |fourPoints 2 - fourPoints 3| = 1 + 128 / 2 ^ 61 := by
      simp only [fourPoints]; rw [abs_of_nonneg (by norm_num)]; norm_num
    rw [roundedDistance, this, near _ 4503599627370496 (-52) (by norm_num) (by norm_num) (by norm_num) (by rw [abs_lt]; norm_num)]
    norm_num
  have hf : fl (1 + 1 / 2 ^ 52 - 254 / 2 ^ 61) = 1 + 1 / 2 ^ 52 := by
    rw [near _ 4503599627370497 (-52) (by norm_num) (by norm_num) (by norm_num) (by rw [abs_lt]; norm_num)]
    norm_num
  refine ⟨?_, d23⟩
  have u1 : ¬ (1 + 1 / 2 ^ 52 : ℝ) ≤ 1 := by norm_num
  have hk : QuickjoinFloat.keeps fl [0] (roundedDistance fl) 1 2 3 = false := by
    unfold QuickjoinFloat.keeps
    simp only [List.all_cons, List.all_nil, Bool.and_true, d03, d02, hf, Bool.not_eq_false', decide_eq_true_eq]
    exact lt_of_lt_of_le (by norm_num) (le_max_left _ _)
  unfold QuickjoinFloat.joinPivots
  simp only [List.length_cons, List.length_nil]
  rw [if_neg (by decide)]
  simp [d03, hk]

end Fog.Props
