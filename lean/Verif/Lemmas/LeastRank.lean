import Verif.Lemmas.Chance
import Mathlib.Data.Fintype.BigOperators
import Mathlib.Algebra.BigOperators.Group.Finset.Piecewise
import Mathlib.Logic.Equiv.Basic
import Mathlib.Algebra.BigOperators.Field
import Mathlib.Tactic.FieldSimp
import Mathlib.Tactic.Linarith
import Mathlib.Tactic.Ring
import Mathlib.Data.Finset.Max

/-!
# The least of independent ranks over two sets

To each index is given, independently, a value of `D` among which all are as likely; `X` is the rank of a value. What is the chance that
the least rank over the indices of `A` is the least rank over those of `B`?
-/

namespace Fog.LeastRank

open Fog.Spec Finset

variable {ι D : Type _} [Fintype ι] [DecidableEq ι] [Fintype D]

theorem share_pi (P : ι → D → Prop) : share (fun o : ι → D => ∀ i, P i (o i)) = ∏ i, share (P i) := by
  classical
  rw [share_of_card (E := fun o : ι → D => ∀ i, P i (o i)) (s := Fintype.piFinset fun i => univ.filter (P i)) (by simp)]
  rw [Finset.prod_congr rfl fun i _ => share_of_card (E := P i) (s := univ.filter (P i)) (by simp)]
  rw [Fintype.card_piFinset, Fintype.card_fun, Finset.prod_div_distrib, Finset.prod_const, Finset.card_univ]
  push_cast
  rfl

theorem share_true [Nonempty D] : share (fun _ : D => True) = 1 := by
  rw [share_of_card (s := univ) (by simp), Finset.card_univ, div_self]
  exact_mod_cast Fintype.card_ne_zero

/-- The least rank over `A` is at least `u`, and that over `B` at least `w`. -/
def Above (X : D → Nat) (A B : Finset ι) (u w : Nat) (o : ι → D) : Prop := (∀ t ∈ A, u ≤ X (o t)) ∧ ∀ t ∈ B, w ≤ X (o t)

theorem share_above [Nonempty D] (X : D → Nat) (A B : Finset ι) (u w : Nat) :
    share (Above X A B u w) = share (fun d => u ≤ X d) ^ (A \ B).card * share (fun d => w ≤ X d) ^ (B \ A).card *
      share (fun d => max u w ≤ X d) ^ (A ∩ B).card := by
  rw [share_congr (F := fun o : ι → D => ∀ i, (i ∈ A → u ≤ X (o i)) ∧ (i ∈ B → w ≤ X (o i))) (by
    intro o
    unfold Above
    exact ⟨fun h i => ⟨h.1 i, h.2 i⟩, fun h => ⟨fun i => (h i).1, fun i => (h i).2⟩⟩)]
  rw [share_pi fun i d => (i ∈ A → u ≤ X d) ∧ (i ∈ B → w ≤ X d)]
  have e : ∀ i, share (fun d => (i ∈ A → u ≤ X d) ∧ (i ∈ B → w ≤ X d)) =
      (if i ∈ A \ B then share (fun d => u ≤ X d) else 1) * (if i ∈ B \ A then share (fun d => w ≤ X d) else 1) *
        (if i ∈ A ∩ B then share (fun d => max u w ≤ X d) else 1) := by
    intro i
    by_cases hA : i ∈ A <;> by_cases hB : i ∈ B
    · simp only [hA, hB, mem_sdiff, mem_inter, not_true_eq_false, and_false, if_false, and_self, if_true, one_mul]
      apply share_congr
      intro d
      simp
    · simp only [hA, hB, mem_sdiff, mem_inter, not_true_eq_false, and_false, if_false, and_true, and_self, if_true,
        not_false_eq_true, mul_one, false_and]
      apply share_congr
      intro d
      simp
    · simp only [hA, hB, mem_sdiff, mem_inter, not_true_eq_false, and_false, if_false, and_true, and_self, if_true,
        not_false_eq_true, mul_one, false_and, one_mul]
      apply share_congr
      intro d
      simp
    · simp only [hA, hB, mem_sdiff, mem_inter, if_false, false_and, mul_one]
      rw [← share_true (D := D)]
      apply share_congr
      intro d
      simp
  simp only [e, Finset.prod_mul_distrib, Finset.prod_ite_mem, univ_inter, Finset.prod_const]

theorem share_exists {Ω : Type _} [Fintype Ω] (E : Nat → Ω → Prop) (M : Nat)
    (hE : ∀ v < M, ∀ w < M, ∀ o, E v o → E w o → v = w) :
    share (fun o => ∃ v < M, E v o) = ∑ v ∈ range M, share (E v) := by
  classical
  rw [share_of_card (E := fun o => ∃ v < M, E v o) (s := (range M).biUnion fun v => univ.filter (E v)) (by simp)]
  rw [Finset.sum_congr rfl fun v _ => share_of_card (E := E v) (s := univ.filter (E v)) (by simp)]
  rw [Finset.card_biUnion, ← Finset.sum_div]
  · push_cast; rfl
  · intro v hv w hw hne
    rw [Function.onFun, Finset.disjoint_left]
    intro o h1 h2
    simp only [mem_filter, mem_univ, true_and] at h1 h2
    exact hne (hE v (mem_range.mp hv) w (mem_range.mp hw) o h1 h2)

/-- The least ranks over `A` and over `B` are the same, or both sets are empty. -/
def SameLeast (X : D → Nat) (A B : Finset ι) (o : ι → D) : Prop := ∀ v, (∃ t ∈ A, X (o t) ≤ v) ↔ ∃ t ∈ B, X (o t) ≤ v

theorem average_sub {Ω : Type _} [Fintype Ω] (X Y : Ω → ℝ) : average (fun o => X o - Y o) = average X - average Y := by
  unfold average
  rw [Finset.sum_sub_distrib, sub_div]

theorem average_le {Ω : Type _} [Fintype Ω] {X Y : Ω → ℝ} (h : ∀ o, X o ≤ Y o) : average X ≤ average Y := by
  unfold average
  exact div_le_div_of_nonneg_right (Finset.sum_le_sum fun o _ => h o) (by positivity)

theorem share_least [Nonempty D] (X : D → Nat) (A B : Finset ι) (v : Nat) :
    share (fun o => Above X A B v v o ∧ (∃ t ∈ A, X (o t) ≤ v) ∧ ∃ t ∈ B, X (o t) ≤ v) =
      share (Above X A B v v) - share (Above X A B (v + 1) v) - share (Above X A B v (v + 1)) + share (Above X A B (v + 1) (v + 1)) := by
  classical
  simp only [← average_indicator]
  rw [← average_sub, ← average_sub, ← average_add]
  congr 1
  funext o
  have h1 : (∃ t ∈ A, X (o t) ≤ v) ↔ ¬ ∀ t ∈ A, v + 1 ≤ X (o t) := by
    push Not
    simp only [Nat.lt_succ_iff]
  have h2 : (∃ t ∈ B, X (o t) ≤ v) ↔ ¬ ∀ t ∈ B, v + 1 ≤ X (o t) := by
    push Not
    simp only [Nat.lt_succ_iff]
  have k1 : (∀ t ∈ A, v + 1 ≤ X (o t)) → ∀ t ∈ A, v ≤ X (o t) := fun h t ht => le_trans (Nat.le_succ v) (h t ht)
  have k2 : (∀ t ∈ B, v + 1 ≤ X (o t)) → ∀ t ∈ B, v ≤ X (o t) := fun h t ht => le_trans (Nat.le_succ v) (h t ht)
  unfold Above
  rw [h1, h2]
  clear h1 h2
  generalize (∀ t ∈ A, v + 1 ≤ X (o t)) = a at *
  generalize (∀ t ∈ B, v + 1 ≤ X (o t)) = b at *
  generalize (∀ t ∈ A, v ≤ X (o t)) = a' at *
  generalize (∀ t ∈ B, v ≤ X (o t)) = b' at *
  by_cases ha : a <;> by_cases hb : b <;> by_cases ha' : a' <;> by_cases hb' : b' <;>
    first
      | exact absurd (k1 ha) ha'
      | exact absurd (k2 hb) hb'
      | simp [ha, hb, ha', hb']

/-- The chance that the least ranks are the same. -/
theorem share_sameLeast [Nonempty D] {X : D → Nat} {M : Nat} (hX : ∀ d, X d < M) {A B : Finset ι} (hne : (A ∪ B).Nonempty) :
    share (SameLeast X A B) = ∑ v ∈ range M,
      (share (Above X A B v v) - share (Above X A B (v + 1) v) - share (Above X A B v (v + 1)) + share (Above X A B (v + 1) (v + 1))) := by
  classical
  simp only [← share_least]
  rw [← share_exists]
  · apply share_congr
    intro o
    constructor
    · intro h
      obtain ⟨s, hs, hmin⟩ := Finset.exists_min_image (A ∪ B) (fun t => X (o t)) hne
      refine ⟨X (o s), hX _, ⟨fun t ht => hmin t (mem_union_left _ ht), fun t ht => hmin t (mem_union_right _ ht)⟩, ?_⟩
      rcases mem_union.mp hs with hs | hs
      · exact ⟨⟨s, hs, le_refl _⟩, (h _).mp ⟨s, hs, le_refl _⟩⟩
      · exact ⟨(h _).mpr ⟨s, hs, le_refl _⟩, ⟨s, hs, le_refl _⟩⟩
    · rintro ⟨v, _, ⟨h1, h2⟩, ⟨s, hs, hsv⟩, ⟨t, ht, htv⟩⟩ w
      constructor
      · rintro ⟨a, ha, haw⟩
        exact ⟨t, ht, htv.trans ((h1 a ha).trans haw)⟩
      · rintro ⟨a, ha, haw⟩
        exact ⟨s, hs, hsv.trans ((h2 a ha).trans haw)⟩
  · rintro v _ w _ o ⟨⟨h1, _⟩, ⟨s, hs, hsv⟩, _⟩ ⟨⟨h3, _⟩, ⟨t, ht, htw⟩, _⟩
    have := h1 t ht
    have := h3 s hs
    omega

/-- It is at least the share of the common indices: the index of least rank is any of them, and the ranks are the same when it is a
common one. -/
theorem sameLeast_ge [Nonempty D] (X : D → Nat) {A B : Finset ι} (hne : (A ∪ B).Nonempty) :
    ((A ∩ B).card : ℝ) / (A ∪ B).card ≤ share (SameLeast X A B) := by
  classical
  let least (o : ι → D) : Finset ι := (A ∪ B).filter fun t => ∀ s ∈ A ∪ B, X (o t) ≤ X (o s)
  let f (t : ι) (o : ι → D) : ℝ := if t ∈ least o then ((least o).card : ℝ)⁻¹ else 0
  have hpos : ∀ o, (0 : ℝ) < (least o).card := by
    intro o
    obtain ⟨s, hs, hmin⟩ := Finset.exists_min_image (A ∪ B) (fun t => X (o t)) hne
    have : s ∈ least o := by simp only [least, mem_filter]; exact ⟨hs, hmin⟩
    exact_mod_cast Finset.card_pos.mpr ⟨s, this⟩
  have hsum : ∀ o, ∑ t ∈ A ∪ B, f t o = 1 := by
    intro o
    simp only [f, Finset.sum_ite_mem]
    rw [Finset.inter_eq_right.mpr (Finset.filter_subset _ _), Finset.sum_const, nsmul_eq_mul, mul_inv_cancel₀ (hpos o).ne']
  have hsym : ∀ s ∈ A ∪ B, ∀ t ∈ A ∪ B, average (f s) = average (f t) := by
    intro s hs t ht
    let e : (ι → D) ≃ (ι → D) := Equiv.arrowCongr (Equiv.swap s t) (Equiv.refl D)
    have he : ∀ o i, e o i = o (Equiv.swap s t i) := fun o i => rfl
    have hmem : ∀ i, Equiv.swap s t i ∈ A ∪ B ↔ i ∈ A ∪ B := by
      intro i
      by_cases h1 : i = s
      · subst h1; simp only [Equiv.swap_apply_left]; exact ⟨fun _ => hs, fun _ => ht⟩
      · by_cases h2 : i = t
        · subst h2; simp only [Equiv.swap_apply_right]; exact ⟨fun _ => ht, fun _ => hs⟩
        · rw [Equiv.swap_apply_of_ne_of_ne h1 h2]
    have hl : ∀ o i, i ∈ least (e o) ↔ Equiv.swap s t i ∈ least o := by
      intro o i
      simp only [least, mem_filter, hmem, he]
      refine and_congr_right fun _ => ⟨fun h j hj => ?_, fun h j hj => h _ ((hmem j).mpr hj)⟩
      have := h (Equiv.swap s t j) ((hmem j).mpr hj)
      rwa [Equiv.swap_apply_self] at this
    have hc : ∀ o, (least (e o)).card = (least o).card := by
      intro o
      refine Finset.card_bij (fun i _ => Equiv.swap s t i) (fun i hi => (hl o i).mp hi) (fun _ _ _ _ h => (Equiv.swap s t).injective h) ?_
      intro i hi
      exact ⟨Equiv.swap s t i, (hl o _).mpr (by rwa [Equiv.swap_apply_self]), Equiv.swap_apply_self _ _ _⟩
    have hf : ∀ o, f s (e o) = f t o := by
      intro o
      simp only [f, hc, hl, Equiv.swap_apply_left]
    unfold average
    rw [← Equiv.sum_comp e]
    simp only [hf]
  obtain ⟨u, hu⟩ := hne
  have hcard : (0 : ℝ) < (A ∪ B).card := by exact_mod_cast Finset.card_pos.mpr ⟨u, hu⟩
  have hav : ∀ s ∈ A ∪ B, average (f s) = ((A ∪ B).card : ℝ)⁻¹ := by
    intro s hs
    have h1 : ∑ t ∈ A ∪ B, average (f t) = 1 := by
      have : average (fun o => ∑ t ∈ A ∪ B, f t o) = ∑ t ∈ A ∪ B, average (f t) := by
        unfold average
        rw [Finset.sum_comm, Finset.sum_div]
      rw [← this]
      simp only [hsum]
      exact average_const 1
    rw [Finset.sum_congr rfl fun t ht => hsym t ht s hs, Finset.sum_const, nsmul_eq_mul] at h1
    exact eq_inv_of_mul_eq_one_right h1
  have hle : average (fun o => ∑ t ∈ A ∩ B, f t o) ≤ share (SameLeast X A B) := by
    rw [← average_indicator]
    apply average_le
    intro o
    by_cases hs : ∃ t ∈ A ∩ B, t ∈ least o
    · have hsame : SameLeast X A B o := by
        obtain ⟨t, ht, hl⟩ := hs
        simp only [least, mem_filter] at hl
        rw [mem_inter] at ht
        intro v
        constructor
        · rintro ⟨a, ha, hv⟩
          exact ⟨t, ht.2, (hl.2 a (mem_union_left _ ha)).trans hv⟩
        · rintro ⟨a, ha, hv⟩
          exact ⟨t, ht.1, (hl.2 a (mem_union_right _ ha)).trans hv⟩
      rw [if_pos hsame, ← hsum o]
      refine Finset.sum_le_sum_of_subset_of_nonneg (Finset.inter_subset_left.trans Finset.subset_union_left) fun t _ _ => ?_
      simp only [f]
      split
      · exact inv_nonneg.mpr (hpos o).le
      · exact le_refl _
    · have h0 : ∑ t ∈ A ∩ B, f t o = 0 := by
        apply Finset.sum_eq_zero
        intro t ht
        simp only [f]
        rw [if_neg fun h => hs ⟨t, ht, h⟩]
      rw [h0]
      split <;> norm_num
  refine le_trans (le_of_eq ?_) hle
  have : average (fun o => ∑ t ∈ A ∩ B, f t o) = ∑ t ∈ A ∩ B, average (f t) := by
    unfold average
    rw [Finset.sum_comm, Finset.sum_div]
  rw [this, Finset.sum_congr rfl fun t ht => hav t (mem_union_left _ (mem_inter.mp ht).1), Finset.sum_const, nsmul_eq_mul,
    div_eq_mul_inv]

/-- When both sets have an index of rank zero the least ranks are the same. -/
theorem sameLeast_ge_zero [Nonempty D] (X : D → Nat) (A B : Finset ι) :
    1 - share (fun d => 1 ≤ X d) ^ A.card - share (fun d => 1 ≤ X d) ^ B.card + share (fun d => 1 ≤ X d) ^ (A ∪ B).card ≤
      share (SameLeast X A B) := by
  classical
  have h := share_least X A B 0
  simp only [Nat.zero_add] at h
  have e0 : share (Above X A B 0 0) = 1 := by
    rw [← share_true (D := ι → D)]
    exact share_congr fun o => by simp [Above]
  have t1 : share (fun d : D => 0 ≤ X d) = 1 := by
    rw [← share_true (D := D)]
    exact share_congr fun o => by simp
  rw [e0, share_above, share_above, share_above, t1] at h
  simp only [one_pow, one_mul, mul_one, Nat.max_zero, Nat.zero_max, max_self] at h
  rw [← pow_add, ← pow_add, ← pow_add, ← pow_add, Finset.card_sdiff_add_card_inter, Finset.inter_comm A B,
    Finset.card_sdiff_add_card_inter] at h
  have hu : (A \ B).card + (B \ A).card + (B ∩ A).card = (A ∪ B).card := by
    rw [add_assoc, Finset.card_sdiff_add_card_inter, Finset.card_sdiff_add_card]
  rw [hu] at h
  rw [← h]
  unfold share
  apply div_le_div_of_nonneg_right _ (by positivity)
  norm_cast
  apply Finset.card_le_card
  intro o
  simp only [mem_filter, mem_univ, true_and]
  rintro ⟨_, ⟨s, hs, hsv⟩, ⟨t, ht, htv⟩⟩ v
  exact ⟨fun _ => ⟨t, ht, htv.trans (Nat.zero_le v)⟩, fun _ => ⟨s, hs, hsv.trans (Nat.zero_le v)⟩⟩

end Fog.LeastRank
