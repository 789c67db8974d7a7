import Verif.Lemmas.BestMatchingFloat

/-!
# C112: best matching clusters in double precision
-/

namespace Fog.Props

open Spec BestMatchingFloat

variable {α : Type _} [DecidableEq α] {fl : ℝ → ℝ}

/-- The mean of rational numbers, as a real number. -/
theorem cast_mean {β : Type _} (g : β → Rat) (l : List β) : ((mean (l.map g) : Rat) : ℝ) = (l.map fun x => (g x : ℝ)).sum / l.length := by
  unfold mean
  rw [List.length_map]
  push_cast
  congr 1
  induction l with
  | nil => simp
  | cons x l ih => simp [ih]

theorem ratio_near (hfl : IsRounding fl) {m n : Nat} (h : m ≤ n) : |fl ((m : ℝ) / n) - (m : ℝ) / n| ≤ ulp := by
  have h1 : (m : ℝ) ≤ n := by exact_mod_cast h
  simpa using fl_near hfl (x := (m : ℝ) / n) (k := 1) le_rfl (by positivity) (by rw [Nat.cast_one]; exact div_le_one_of_le₀ h1 (by positivity))

theorem ratio_range (hfl : IsRounding fl) {m n : Nat} (h : m ≤ n) : 0 ≤ fl ((m : ℝ) / n) ∧ fl ((m : ℝ) / n) ≤ 1 := by
  have h1 : (m : ℝ) ≤ n := by exact_mod_cast h
  exact ⟨hfl.nonneg (by positivity), hfl.le_one (div_le_one_of_le₀ h1 (by positivity))⟩

/-- The clusters chosen are best ones: scores which differ are not swapped by rounding. -/
theorem chosen_best (hfl : IsRounding fl) {truth predicted : List (List α)} (htruth : ∀ t ∈ truth, t.Nodup ∧ t.length ≤ 2 ^ 24)
    (hpred : ∀ c ∈ predicted, c.length ≤ 2 ^ 24) {t c : List α} (ht : t ∈ truth) (hc : c ∈ predicted) (hh : 0 < hits t c)
    (hmax : ∀ c' ∈ predicted, 0 < hits t c' → (scoresOf fl truth t c').2.2 ≤ (scoresOf fl truth t c).2.2) : IsBest truth predicted t c := by
  refine ⟨hc, hh, fun c' hc' => ?_⟩
  by_cases hz : hits t c' = 0
  · have h1 : f1 truth t c' = 0 := by simp [f1, hz]
    rw [h1]
    unfold f1
    positivity
  · have hz' := Nat.pos_of_ne_zero hz
    exact f1_order hfl hh (hits_le_known ht (htruth t ht).1 c) (hits_le_length t c) hz' (hits_le_known ht (htruth t ht).1 c')
      (hits_le_length t c') ((known_le_length truth c).trans (hpred c hc)) ((known_le_length truth c').trans (hpred c' hc'))
      (htruth t ht).2 (hmax c' hc' hz')

/-- **C112** (partial: among clusters of the same F1 score, rounding decides): in double precision, each truth cluster is matched
with a predicted cluster of greatest F1 score, and the results are between zero and one and near the means of the scores. -/
theorem best_matching_float_partial (hfl : IsRounding fl) {truth predicted : List (List α)} {allow : Bool}
    (h : Comparable truth predicted allow) (htruth : ∀ t ∈ truth, t.Nodup ∧ t.length ≤ 2 ^ 24) (hpred : ∀ c ∈ predicted, c.length ≤ 2 ^ 24)
    (hlen : truth.length ≤ 2 ^ 53) :
    ∃ best : List α → List α, (∀ t ∈ truth, IsBest truth predicted t (best t)) ∧ ∃ p r f,
      BestMatchingFloat.bestMatching fl truth predicted allow = .ok (p, r, f) ∧
      (0 ≤ p ∧ p ≤ 1) ∧ (0 ≤ r ∧ r ≤ 1) ∧ (0 ≤ f ∧ f ≤ 1) ∧
      |p - (mean (truth.map fun t => precision truth t (best t)) : Rat)| ≤ (truth.length + 2) / 2 ^ 53 ∧
      |r - (mean (truth.map fun t => recall t (best t)) : Rat)| ≤ (truth.length + 2) / 2 ^ 53 ∧
      |f - (mean (truth.map fun t => f1 truth t (best t)) : Rat)| ≤ (truth.length + 6) / 2 ^ 53 := by
  have c24 : (2 : Nat) ^ 24 ≤ 2 ^ 53 := by norm_num
  obtain ⟨best, hbest, heq⟩ := bestMatching_eq hfl h (fun t ht => (htruth t ht).2.trans c24) (fun c hc => (hpred c hc).trans c24)
  refine ⟨best, fun t ht => chosen_best hfl htruth hpred ht (hbest t ht).1 (hbest t ht).2.1 (hbest t ht).2.2, _, _, _, heq, ?_⟩
  have hk : ∀ t ∈ truth, hits t (best t) ≤ known truth (best t) := fun t ht => hits_le_known ht (htruth t ht).1 _
  have hp : ∀ t ∈ truth, 0 ≤ (scoresOf fl truth t (best t)).1 ∧ (scoresOf fl truth t (best t)).1 ≤ 1 := fun t ht => ratio_range hfl (hk t ht)
  have hr : ∀ t ∈ truth, 0 ≤ (scoresOf fl truth t (best t)).2.1 ∧ (scoresOf fl truth t (best t)).2.1 ≤ 1 :=
    fun t ht => ratio_range hfl (hits_le_length _ _)
  have hf : ∀ t ∈ truth, 0 ≤ (scoresOf fl truth t (best t)).2.2 ∧ (scoresOf fl truth t (best t)).2.2 ≤ 1 := fun t ht =>
    ⟨f1Float_nonneg hfl (hp t ht).1 (hr t ht).1, f1Float_le_one hfl (hfl.double _) (hp t ht).1 (hr t ht).1 (hp t ht).2 (hr t ht).2⟩
  have hne := h.truth_ne
  refine ⟨meanFloat_range hfl (by simpa using hp) (by simpa using hlen), meanFloat_range hfl (by simpa using hr) (by simpa using hlen),
    meanFloat_range hfl (by simpa using hf) (by simpa using hlen), ?_, ?_, ?_⟩
  · rw [cast_mean]
    refine (meanFloat_near hfl hne hlen hp (g' := fun t => ((precision truth t (best t) : Rat) : ℝ)) (δ := ulp) ?_).trans
      (by unfold ulp; linarith)
    intro t ht
    have := ratio_near hfl (hk t ht)
    simpa [scoresOf, scoresFloat, precision] using this
  · rw [cast_mean]
    refine (meanFloat_near hfl hne hlen hr (g' := fun t => ((recall t (best t) : Rat) : ℝ)) (δ := ulp) ?_).trans
      (by unfold ulp; linarith)
    intro t ht
    have := ratio_near hfl (hits_le_length t (best t))
    simpa [scoresOf, scoresFloat, recall] using this
  · rw [cast_mean]
    refine (meanFloat_near hfl hne hlen hf (g' := fun t => ((f1 truth t (best t) : Rat) : ℝ)) (δ := 5 * ulp) ?_).trans
      (by unfold ulp; linarith)
    intro t ht
    have := f1_near hfl (hbest t ht).2.1 (hk t ht) (hits_le_length t (best t))
      (((known_le_length truth _).trans (hpred _ (hbest t ht).1)).trans c24) ((htruth t ht).2.trans c24)
    simpa [scoresOf, f1] using this

/-- **C112**: the macro average of F1 scores is near the exact one. -/
theorem best_matching_float_f1 (hfl : IsRounding fl) {truth predicted : List (List α)} {allow : Bool} {P R F : Rat}
    (hexact : BestMatching.bestMatching truth predicted allow = .ok (P, R, F)) (htruth : ∀ t ∈ truth, t.Nodup ∧ t.length ≤ 2 ^ 24)
    (hpred : ∀ c ∈ predicted, c.length ≤ 2 ^ 24) (hlen : truth.length ≤ 2 ^ 53) :
    ∃ p r f, BestMatchingFloat.bestMatching fl truth predicted allow = .ok (p, r, f) ∧ |f - F| ≤ (truth.length + 6) / 2 ^ 53 := by
  have h : Comparable truth predicted allow := by
    by_contra hc
    rw [best_matching_type_error hc] at hexact
    cases hexact
  obtain ⟨best, hb, p, r, f, heq, _, _, _, _, _, hf⟩ := best_matching_float_partial hfl h htruth hpred hlen
  obtain ⟨best', hb', heq'⟩ := best_matching_eq h
  refine ⟨p, r, f, heq, ?_⟩
  have hF : F = mean (truth.map fun t => f1 truth t (best' t)) := by
    rw [hexact] at heq'
    injection heq' with e
    injection e with _ e
    injection e
  have hsame : (truth.map fun t => f1 truth t (best t)) = truth.map fun t => f1 truth t (best' t) := by
    apply List.map_congr_left
    intro t ht
    exact le_antisymm ((hb' t ht).1.2.2 _ (hb t ht).1) ((hb t ht).2.2 _ (hb' t ht).1.1)
  rw [hF, ← hsame]
  exact hf

/-- The items of the predicted cluster which exist in the truth are those of the truth cluster. -/
def SameItems (truth : List (List α)) (t c : List α) : Prop := ∀ x, (x ∈ c ∧ ∃ t' ∈ truth, x ∈ t') ↔ x ∈ t

theorem known_nodup {truth predicted : List (List α)} {allow : Bool} (h : Comparable truth predicted allow) {c : List α}
    (hc : c ∈ predicted) : (c.filter fun x => decide (∃ t ∈ truth, x ∈ t)).Nodup := by
  refine List.Nodup.sublist ?_ h.disjoint
  exact (List.sublist_flatten_of_mem hc).filter _

theorem sameItems_iff {truth predicted : List (List α)} {allow : Bool} (h : Comparable truth predicted allow) {t c : List α} (ht : t ∈ truth)
    (hnd : t.Nodup) (hc : c ∈ predicted) : SameItems truth t c ↔ hits t c = t.length ∧ hits t c = known truth c := by
  have hkn := known_nodup h hc
  constructor
  · intro hs
    have h1 : hits t c = t.length := by
      unfold hits
      rw [List.filter_eq_self.mpr]
      intro x hx
      exact decide_eq_true ((hs x).mpr hx).1
    refine ⟨h1, ?_⟩
    apply le_antisymm (hits_le_known ht hnd c)
    rw [h1]
    refine (hkn.subperm ?_).length_le
    intro x hx
    obtain ⟨a, b⟩ := List.mem_filter.mp hx
    exact (hs x).mp ⟨a, of_decide_eq_true b⟩
  · rintro ⟨h1, h2⟩ x
    have hall : ∀ x ∈ t, x ∈ c := by
      have := List.length_filter_eq_length_iff.mp h1
      intro x hx
      exact of_decide_eq_true (this x hx)
    constructor
    · rintro ⟨hx, hx'⟩
      have hsub : t.Subperm (c.filter fun x => decide (∃ t ∈ truth, x ∈ t)) := by
        apply hnd.subperm
        intro y hy
        exact List.mem_filter.mpr ⟨hall y hy, decide_eq_true ⟨t, ht, hy⟩⟩
      have hperm := hsub.perm_of_length_le (by rw [← h1, h2]; rfl)
      exact hperm.mem_iff.mpr (List.mem_filter.mpr ⟨hx, decide_eq_true hx'⟩)
    · intro hx
      exact ⟨hall x hx, t, ht, hx⟩

/-- **C112**: when the predicted clusters are those of the truth, the results are exactly one, without error. -/
theorem best_matching_float_perfect (hfl : IsRounding fl) {truth predicted : List (List α)} {allow : Bool}
    (h : Comparable truth predicted allow) (htruth : ∀ t ∈ truth, t.Nodup ∧ t.length ≤ 2 ^ 24) (hpred : ∀ c ∈ predicted, c.length ≤ 2 ^ 24)
    (hlen : truth.length ≤ 2 ^ 53) (hsame : ∀ t ∈ truth, ∃ c ∈ predicted, SameItems truth t c) :
    BestMatchingFloat.bestMatching fl truth predicted allow = .ok (1, 1, 1) := by
  have c24 : (2 : Nat) ^ 24 ≤ 2 ^ 53 := by norm_num
  obtain ⟨best, hbest, heq⟩ := bestMatching_eq hfl h (fun t ht => (htruth t ht).2.trans c24) (fun c hc => (hpred c hc).trans c24)
  have hone : ∀ t ∈ truth, scoresOf fl truth t (best t) = (1, 1, 1) := by
    intro t ht
    have hb := chosen_best hfl htruth hpred ht (hbest t ht).1 (hbest t ht).2.1 (hbest t ht).2.2
    obtain ⟨c, hc, hs⟩ := hsame t ht
    obtain ⟨e1, e2⟩ := (sameItems_iff h ht (htruth t ht).1 hc).mp hs
    have hpos : 0 < t.length := List.length_pos_iff.mpr (h.truth_clusters t ht)
    have hle := hb.2.2 c hc
    have hk := hits_le_known ht (htruth t ht).1 (best t)
    have hl := hits_le_length t (best t)
    have hh := (hbest t ht).2.1
    unfold f1 at hle
    rw [← e2, e1] at hle
    have q1 : (0 : Rat) < (t.length : Rat) + t.length := by exact_mod_cast (by omega : 0 < t.length + t.length)
    have q2 : (0 : Rat) < (t.length : Rat) + known truth (best t) := by exact_mod_cast (by omega : 0 < t.length + known truth (best t))
    rw [div_le_div_iff₀ q1 q2] at hle
    have hnat : 2 * t.length * (t.length + known truth (best t)) ≤ 2 * hits t (best t) * (t.length + t.length) := by exact_mod_cast hle
    have hsum : t.length + known truth (best t) ≤ 2 * hits t (best t) := by
      have : t.length * (t.length + known truth (best t)) ≤ t.length * (2 * hits t (best t)) := by linarith
      exact Nat.le_of_mul_le_mul_left this hpos
    have e3 : hits t (best t) = t.length := by omega
    have e4 : known truth (best t) = t.length := by omega
    have hn0 : (t.length : ℝ) ≠ 0 := by exact_mod_cast hpos.ne'
    simp only [scoresOf, scoresFloat, e3, e4, div_self hn0, hfl.one, f1Float_one hfl]
  rw [heq]
  have hne : ∀ g : List α → ℝ, truth.map g ≠ [] := fun g => by simpa using h.truth_ne
  rw [meanFloat_one hfl (hne _) (by simpa using fun t ht => by rw [hone t ht]) (by simpa using hlen),
    meanFloat_one hfl (hne _) (by simpa using fun t ht => by rw [hone t ht]) (by simpa using hlen),
    meanFloat_one hfl (hne _) (by simpa using fun t ht => by rw [hone t ht]) (by simpa using hlen)]

/-- **C112**: up to sixteen thousand clusters, an F1 score of one means that the predicted clusters are those of the truth. -/
theorem best_matching_float_one (hfl : IsRounding fl) {truth predicted : List (List α)} {allow : Bool}
    (h : Comparable truth predicted allow) (htruth : ∀ t ∈ truth, t.Nodup ∧ t.length ≤ 2 ^ 24) (hpred : ∀ c ∈ predicted, c.length ≤ 2 ^ 24)
    (hlen : truth.length ≤ 16000) :
    (∃ p r, BestMatchingFloat.bestMatching fl truth predicted allow = .ok (p, r, 1)) ↔ ∀ t ∈ truth, ∃ c ∈ predicted, SameItems truth t c := by
  constructor
  · rintro ⟨p', r', hres⟩
    obtain ⟨best, hb, p, r, f, heq, _, _, _, _, _, hf⟩ := best_matching_float_partial hfl h htruth hpred (hlen.trans (by norm_num))
    have hf1 : f = 1 := by
      rw [heq] at hres
      injection hres with e
      injection e with _ e
      injection e
    rw [hf1, cast_mean] at hf
    by_contra hcon
    push Not at hcon
    obtain ⟨t, ht, hno⟩ := hcon
    have hn0 : (0 : ℝ) < truth.length := by
      have := List.length_pos_iff.mpr h.truth_ne
      exact_mod_cast this
    -- every score is at most one, and that of `t` is away from one
    have hle : ∀ t ∈ truth, ((f1 truth t (best t) : Rat) : ℝ) ≤ 1 := by
      intro t ht
      have hk := hits_le_known ht (htruth t ht).1 (best t)
      have hl := hits_le_length t (best t)
      have h1 : (hits t (best t) : ℝ) ≤ t.length := by exact_mod_cast hl
      have h2 : (hits t (best t) : ℝ) ≤ known truth (best t) := by exact_mod_cast hk
      unfold f1
      push_cast
      exact div_le_one_of_le₀ (by linarith) (by positivity)
    have hfar : ((f1 truth t (best t) : Rat) : ℝ) ≤ 1 - 1 / 2 ^ 25 := by
      have hk := hits_le_known ht (htruth t ht).1 (best t)
      have hl := hits_le_length t (best t)
      have hnot := mt (sameItems_iff h ht (htruth t ht).1 (hb t ht).1).mpr (hno _ (hb t ht).1)
      have hh := (hb t ht).2.1
      have h1 : 2 * hits t (best t) + 1 ≤ t.length + known truth (best t) := by omega
      have h2 : t.length + known truth (best t) ≤ 2 ^ 25 := by
        have := (known_le_length truth (best t)).trans (hpred _ (hb t ht).1)
        have := (htruth t ht).2
        omega
      have h1' : 2 * (hits t (best t) : ℝ) + 1 ≤ t.length + known truth (best t) := by exact_mod_cast h1
      have h2' : (t.length : ℝ) + known truth (best t) ≤ 2 ^ 25 := by exact_mod_cast h2
      have hpos : (0 : ℝ) < t.length + known truth (best t) := by
        have : (0 : ℝ) ≤ hits t (best t) := Nat.cast_nonneg _
        linarith
      unfold f1
      push_cast
      rw [div_le_iff₀ hpos]
      have : 1 / 2 ^ 25 * ((t.length : ℝ) + known truth (best t)) ≤ 1 := by
        have := mul_le_mul_of_nonneg_left h2' (show (0 : ℝ) ≤ 1 / 2 ^ 25 by norm_num)
        norm_num at this ⊢
        linarith
      linarith
    have hsum : (truth.map fun t => ((f1 truth t (best t) : Rat) : ℝ)).sum ≤ truth.length - 1 / 2 ^ 25 := by
      obtain ⟨l1, l2, rfl⟩ := List.append_of_mem ht
      have hl : ∀ (g : List α → ℝ) (l : List (List α)), (∀ t ∈ l, g t ≤ 1) → (l.map g).sum ≤ l.length := by
        intro g l
        induction l with
        | nil => intro _; simp
        | cons x l ih =>
            intro hx
            have := ih (fun y hy => hx y (by simp [hy]))
            have := hx x (by simp)
            simp only [List.map_cons, List.sum_cons, List.length_cons]
            push_cast
            linarith
      have s1 := hl (fun t' => ((f1 (l1 ++ t :: l2) t' (best t') : Rat) : ℝ)) l1 (fun x hx => hle x (by simp [hx]))
      have s2 := hl (fun t' => ((f1 (l1 ++ t :: l2) t' (best t') : Rat) : ℝ)) l2 (fun x hx => hle x (by simp [hx]))
      simp only [List.map_append, List.map_cons, List.sum_append, List.sum_cons, List.length_append, List.length_cons]
      push_cast
      linarith
    have hn : (truth.length : ℝ) ≤ 16000 := by exact_mod_cast hlen
    have hmean : (truth.map fun t => ((f1 truth t (best t) : Rat) : ℝ)).sum / truth.length ≤ 1 - 1 / 2 ^ 25 / 16000 := by
      rw [div_le_iff₀ hn0]
      have : 1 / 2 ^ 25 / 16000 * (truth.length : ℝ) ≤ 1 / 2 ^ 25 := by
        rw [div_mul_eq_mul_div, div_le_iff₀ (by norm_num)]
        exact mul_le_mul_of_nonneg_left hn (by norm_num)
      linarith
    rw [abs_le] at hf
    have hc : ((truth.length : ℝ) + 6) / 2 ^ 53 < 1 / 2 ^ 25 / 16000 := by
      calc ((truth.length : ℝ) + 6) / 2 ^ 53 ≤ 16006 / 2 ^ 53 := by
            apply div_le_div_of_nonneg_right (by linarith) (by norm_num)
        _ < 1 / 2 ^ 25 / 16000 := by norm_num
    linarith [hf.2]
  · intro hsame
    exact ⟨1, 1, best_matching_float_perfect hfl h htruth hpred (hlen.trans (by norm_num)) hsame⟩

/-- Two truth clusters. -/
def floatTruth : List (List Nat) := [[1, 2, 3, 4], [5, 6, 7, 8, 9, 10, 11, 12]]

/-- Two predicted clusters, which have the same F1 score for the first truth cluster. -/
def floatPredicted : List (List Nat) := [[1, 2, 3, 5, 6, 7, 8, 9, 10, 11, 12], [4]]

theorem float_comparable : Comparable floatTruth floatPredicted false where
  truth_ne := by decide
  predicted_ne := by decide
  truth_clusters := by decide
  predicted_clusters := by decide
  no_additional := by decide
  covered := by decide
  disjoint := by decide

theorem float_sizes : (∀ t ∈ floatTruth, t.Nodup ∧ t.length ≤ 2 ^ 24) ∧ ∀ c ∈ floatPredicted, c.length ≤ 2 ^ 24 := by
  constructor
  · intro t ht
    have h : t.Nodup ∧ t.length ≤ 8 := by revert t; decide
    exact ⟨h.1, h.2.trans (by norm_num)⟩
  · intro c hc
    have h : c.length ≤ 11 := by revert c; decide
    exact h.trans (by norm_num)

example (hfl : IsRounding fl) : ∃ p r f, BestMatchingFloat.bestMatching fl floatTruth floatPredicted false = .ok (p, r, f) ∧
    f ≤ 1 ∧ |f - 59 / 95| ≤ 8 / 2 ^ 53 := by
  obtain ⟨best, hb, p, r, f, h, _, _, hf, _, _, he⟩ :=
    best_matching_float_partial hfl float_comparable float_sizes.1 float_sizes.2 (by norm_num [floatTruth])
  refine ⟨p, r, f, h, hf.2, ?_⟩
  have h1 : f1 floatTruth [1, 2, 3, 4] (best [1, 2, 3, 4]) = 2 / 5 :=
    le_antisymm (by
      have := (hb [1, 2, 3, 4] (by decide)).1
      simp only [floatPredicted, List.mem_cons, List.not_mem_nil, or_false] at this
      rcases this with e | e <;> rw [e] <;> norm_num [f1, hits, known, floatTruth])
      ((hb [1, 2, 3, 4] (by decide)).2.2 [4] (by decide) |>.trans' (by norm_num [f1, hits, known, floatTruth]))
  have h2 : f1 floatTruth [5, 6, 7, 8, 9, 10, 11, 12] (best [5, 6, 7, 8, 9, 10, 11, 12]) = 16 / 19 :=
    le_antisymm (by
      have := (hb [5, 6, 7, 8, 9, 10, 11, 12] (by decide)).1
      simp only [floatPredicted, List.mem_cons, List.not_mem_nil, or_false] at this
      rcases this with e | e <;> rw [e] <;> norm_num [f1, hits, known, floatTruth])
      ((hb [5, 6, 7, 8, 9, 10, 11, 12] (by decide)).2.2 [1, 2, 3, 5, 6, 7, 8, 9, 10, 11, 12] (by decide) |>.trans'
        (by norm_num [f1, hits, known, floatTruth]))
  have hm : mean (floatTruth.map fun t => f1 floatTruth t (best t)) = 59 / 95 := by
    have : floatTruth.map (fun t => f1 floatTruth t (best t)) = [2 / 5, 16 / 19] := by
      rw [← h1, ← h2]
      rfl
    rw [this]
    norm_num [mean]
  rw [hm] at he
  simp only [floatTruth, List.length_cons, List.length_nil] at he
  norm_num at he ⊢
  exact he

example (hfl : IsRounding fl) : BestMatchingFloat.bestMatching fl floatTruth
    [[12, 11, 10, 9, 8, 7, 6, 5], [4, 3, 2, 1]] false = .ok (1, 1, 1) :=
  best_matching_float_perfect hfl ⟨by decide, by decide, by decide, by decide, by decide, by decide, by decide⟩ float_sizes.1
    (fun c hc => by
      have h : c.length ≤ 8 := by revert c; decide
      exact h.trans (by norm_num)) (by norm_num [floatTruth]) (by
    intro t ht
    simp only [floatTruth, List.mem_cons, List.not_mem_nil, or_false] at ht
    rcases ht with rfl | rfl
    · refine ⟨[4, 3, 2, 1], by simp, fun x => ?_⟩
      simp only [floatTruth, List.mem_cons, List.not_mem_nil, or_false, exists_eq_or_imp, exists_eq_left]
      omega
    · refine ⟨[12, 11, 10, 9, 8, 7, 6, 5], by simp, fun x => ?_⟩
      simp only [floatTruth, List.mem_cons, List.not_mem_nil, or_false, exists_eq_or_imp, exists_eq_left]
      omega)

example (hfl : IsRounding fl) : ¬ ∃ p r, BestMatchingFloat.bestMatching fl floatTruth floatPredicted false = .ok (p, r, 1) := by
  rw [best_matching_float_one hfl float_comparable float_sizes.1 float_sizes.2 (by decide)]
  intro h
  obtain ⟨c, hc, hs⟩ := h [1, 2, 3, 4] (by decide)
  simp only [floatPredicted, List.mem_cons, List.not_mem_nil, or_false] at hc
  rcases hc with rfl | rfl
  · have := (hs 5).mp ⟨by decide, by decide⟩
    revert this; decide
  · have := (hs 1).mpr (by decide)
    revert this; decide

/-- **C112** is false: among two predicted clusters of the same F1 score, the exact computation takes the first one, and the one in
double precision takes the second one, since the score of the first one is rounded below. The precision goes from 1/2 to about
19/22, and the recall from 7/8 to about 5/8. -/
theorem best_matching_float_tie (hfl : IsRounding fl) :
    BestMatching.bestMatching floatTruth floatPredicted false = .ok (1 / 2, 7 / 8, 59 / 95) ∧
    ∃ p r f, BestMatchingFloat.bestMatching fl floatTruth floatPredicted false = .ok (p, r, f) ∧ 86 / 100 ≤ p ∧ r ≤ 63 / 100 := by
  constructor
  · obtain ⟨best, hb, heq⟩ := best_matching_eq float_comparable
    have b1 : best [1, 2, 3, 4] = [1, 2, 3, 5, 6, 7, 8, 9, 10, 11, 12] := by
      obtain ⟨⟨hm, _, _⟩, pre, x, post, ht, hx, hpre⟩ := hb [1, 2, 3, 4] (by decide)
      simp only [floatPredicted, List.mem_cons, List.not_mem_nil, or_false] at hm
      rcases hm with e | e
      · exact e
      · exfalso
        rw [e] at hx hpre
        have hx4 : x = 4 := by simpa using hx
        subst hx4
        have h1 : (1 : Nat) ∈ pre := by
          cases pre with
          | nil => simp at ht
          | cons y pre =>
              rw [List.cons_append, List.cons.injEq] at ht
              rw [← ht.1]
              simp
        have := hpre 1 h1 [1, 2, 3, 5, 6, 7, 8, 9, 10, 11, 12] (by decide) (by decide)
        norm_num [f1, hits, known, floatTruth] at this
    have b2 : best [5, 6, 7, 8, 9, 10, 11, 12] = [1, 2, 3, 5, 6, 7, 8, 9, 10, 11, 12] := by
      obtain ⟨⟨hm, hh, _⟩, _⟩ := hb [5, 6, 7, 8, 9, 10, 11, 12] (by decide)
      simp only [floatPredicted, List.mem_cons, List.not_mem_nil, or_false] at hm
      rcases hm with e | e
      · exact e
      · rw [e] at hh
        exact absurd hh (by decide)
    rw [heq]
    have e : ∀ g : List Nat → Rat, floatTruth.map g = [g [1, 2, 3, 4], g [5, 6, 7, 8, 9, 10, 11, 12]] := fun _ => rfl
    simp only [e, b1, b2]
    norm_num [mean, precision, recall, f1, hits, known, floatTruth]
  · obtain ⟨best, hb, heq⟩ := bestMatching_eq hfl float_comparable (fun t ht => (float_sizes.1 t ht).2.trans (by norm_num))
      (fun c hc => (float_sizes.2 c hc).trans (by norm_num))
    have s1 : scoresOf fl floatTruth [1, 2, 3, 4] [1, 2, 3, 5, 6, 7, 8, 9, 10, 11, 12] = scoresFloat fl 3 11 4 := by
      norm_num [scoresOf, hits, known, floatTruth]
    have s2 : scoresOf fl floatTruth [1, 2, 3, 4] [4] = scoresFloat fl 1 1 4 := by norm_num [scoresOf, hits, known, floatTruth]
    have s3 : scoresOf fl floatTruth [5, 6, 7, 8, 9, 10, 11, 12] [1, 2, 3, 5, 6, 7, 8, 9, 10, 11, 12] = scoresFloat fl 8 11 8 := by
      norm_num [scoresOf, hits, known, floatTruth]
    have p1 : fl (3 / 11) = (4913017775313268 : ℤ) * (2 : ℝ) ^ (-54 : ℤ) :=
      hfl.eq_of_near (by norm_num) (by norm_num) (by norm_num) (by rw [abs_lt]; norm_num)
    have d1 : IsDouble (3 / 4) := ⟨3, -2, by norm_num, by norm_num, by norm_num⟩
    have d2 : IsDouble (1 / 4) := ⟨1, -2, by norm_num, by norm_num, by norm_num⟩
    have r1 : fl (3 / 4) = 3 / 4 := hfl.of_double d1
    have r2 : fl (1 / 4) = 1 / 4 := hfl.of_double d2
    have t1 : fl (2 * fl (3 / 11)) = 2 * fl (3 / 11) := hfl.of_double (isDouble_two (hfl.double _))
    have n1 : fl (2 * fl (3 / 11) * (3 / 4)) = (7369526662969902 : ℤ) * (2 : ℝ) ^ (-54 : ℤ) := by
      rw [p1]
      exact hfl.eq_of_near (by norm_num) (by norm_num) (by norm_num) (by rw [abs_lt]; norm_num)
    have q1 : fl (fl (3 / 11) + 3 / 4) = (4605954164356189 : ℤ) * (2 : ℝ) ^ (-52 : ℤ) := by
      rw [p1]
      exact hfl.eq_of_near (by norm_num) (by norm_num) (by norm_num) (by rw [abs_lt]; norm_num)
    have f1' : (scoresFloat fl 3 11 4).2.2 = (7205759403792793 : ℤ) * (2 : ℝ) ^ (-54 : ℤ) := by
      simp only [scoresFloat, f1Float, Nat.cast_ofNat, r1, t1, n1, q1]
      exact hfl.eq_of_near (by norm_num) (by norm_num) (by norm_num) (by rw [abs_lt]; norm_num)
    have f2' : (scoresFloat fl 1 1 4).2.2 = (7205759403792794 : ℤ) * (2 : ℝ) ^ (-54 : ℤ) := by
      have a1 : fl 2 = 2 := by simpa using hfl.nat (n := 2) (by norm_num)
      have a2 : fl (2 * (1 / 4)) = 1 / 2 := by
        have : IsDouble (1 / 2) := ⟨1, -1, by norm_num, by norm_num, by norm_num⟩
        rw [show (2 * (1 / 4) : ℝ) = 1 / 2 by norm_num]
        exact hfl.of_double this
      have a3 : fl (1 + 1 / 4) = 5 / 4 := by
        have : IsDouble (5 / 4) := ⟨5, -2, by norm_num, by norm_num, by norm_num⟩
        rw [show (1 + 1 / 4 : ℝ) = 5 / 4 by norm_num]
        exact hfl.of_double this
      simp only [scoresFloat, f1Float, Nat.cast_ofNat, Nat.cast_one, div_one, hfl.one, r2, mul_one, a1, a2, a3]
      exact hfl.eq_of_near (by norm_num) (by norm_num) (by norm_num) (by rw [abs_lt]; norm_num)
    have b1 : best [1, 2, 3, 4] = [4] := by
      obtain ⟨hm, _, hmax⟩ := hb [1, 2, 3, 4] (by decide)
      simp only [floatPredicted, List.mem_cons, List.not_mem_nil, or_false] at hm
      rcases hm with e | e
      · exfalso
        have := hmax [4] (by decide) (by decide)
        rw [e, s1, s2, f1', f2'] at this
        norm_num at this
      · exact e
    have b2 : best [5, 6, 7, 8, 9, 10, 11, 12] = [1, 2, 3, 5, 6, 7, 8, 9, 10, 11, 12] := by
      obtain ⟨hm, hh, _⟩ := hb [5, 6, 7, 8, 9, 10, 11, 12] (by decide)
      simp only [floatPredicted, List.mem_cons, List.not_mem_nil, or_false] at hm
      rcases hm with e | e
      · exact e
      · rw [e] at hh
        exact absurd hh (by decide)
    have e : ∀ g : List Nat → ℝ, floatTruth.map g = [g [1, 2, 3, 4], g [5, 6, 7, 8, 9, 10, 11, 12]] := fun _ => rfl
    refine ⟨_, _, _, heq, ?_, ?_⟩
    · have h1 : ∀ t ∈ floatTruth, 0 ≤ (scoresOf fl floatTruth t (best t)).1 ∧ (scoresOf fl floatTruth t (best t)).1 ≤ 1 := fun t ht =>
        ratio_range hfl (hits_le_known ht (float_sizes.1 t ht).1 _)
      have h2 := meanFloat_err hfl (l := floatTruth.map fun t => (scoresOf fl floatTruth t (best t)).1) (by simp [floatTruth])
        (by simpa using h1) (by norm_num [floatTruth])
      have h3 := ratio_near hfl (show 8 ≤ 11 by norm_num)
      simp only [e, b1, b2, s2, s3, List.sum_cons, List.sum_nil, List.length_cons, List.length_nil, scoresFloat] at h2 ⊢
      rw [abs_le] at h2 h3
      have hu := ulp_small
      have o : fl ((1 : Nat) / (1 : Nat) : ℝ) = 1 := by norm_num [hfl.one]
      rw [o] at h2
      push_cast at h2 h3
      rw [o]
      linarith [h2.1, h3.1]
    · have h1 : ∀ t ∈ floatTruth, 0 ≤ (scoresOf fl floatTruth t (best t)).2.1 ∧ (scoresOf fl floatTruth t (best t)).2.1 ≤ 1 := fun t ht =>
        ratio_range hfl (hits_le_length _ _)
      have h2 := meanFloat_err hfl (l := floatTruth.map fun t => (scoresOf fl floatTruth t (best t)).2.1) (by simp [floatTruth])
        (by simpa using h1) (by norm_num [floatTruth])
      simp only [e, b1, b2, s2, s3, List.sum_cons, List.sum_nil, List.length_cons, List.length_nil, scoresFloat] at h2 ⊢
      rw [abs_le] at h2
      have hu := ulp_small
      have o1 : fl ((1 : Nat) / (4 : Nat) : ℝ) = 1 / 4 := by simpa using r2
      have o2 : fl ((8 : Nat) / (8 : Nat) : ℝ) = 1 := by norm_num [hfl.one]
      rw [o1, o2] at h2 ⊢
      push_cast at h2
      linarith [h2.2]

end Fog.Props
