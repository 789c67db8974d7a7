import Verif.Spec.Chance
import Mathlib.Data.Fintype.BigOperators
import Mathlib.Data.Fintype.Pi
import Mathlib.Algebra.BigOperators.Field
import Mathlib.Algebra.BigOperators.Ring.Finset
import Mathlib.Data.Fintype.CardEmbedding
import Mathlib.Logic.Equiv.Fin.Basic
import Mathlib.Tactic.FieldSimp
import Mathlib.Tactic.Linarith
import Mathlib.Tactic.Ring
import Mathlib.Tactic.Positivity
import Mathlib.Tactic.GCongr
import Mathlib.Tactic.SplitIfs

/-!
# Counting tuples: bands, distinct draws, means
-/

namespace Fog.Spec

variable {σ : Type _} [Fintype σ]

theorem share_congr {Ω : Type _} [Fintype Ω] {E F : Ω → Prop} (h : ∀ o, E o ↔ F o) : share E = share F := by
  unfold share
  congr 3
  ext o
  simp [h o]

theorem share_of_card {Ω : Type _} [Fintype Ω] {E : Ω → Prop} {s : Finset Ω} (h : ∀ o, o ∈ s ↔ E o) :
    share E = (s.card : ℝ) / Fintype.card Ω := by
  classical
  unfold share
  congr 3
  ext o
  simp [h o]

theorem share_nonneg {Ω : Type _} [Fintype Ω] (E : Ω → Prop) : 0 ≤ share E := by unfold share; positivity

theorem share_pos {Ω : Type _} [Fintype Ω] {E : Ω → Prop} {o : Ω} (h : E o) : 0 < share E := by
  classical
  have : Nonempty Ω := ⟨o⟩
  rw [share_of_card (s := Finset.univ.filter E) (by simp)]
  apply div_pos
  · have : 0 < (Finset.univ.filter E).card := Finset.card_pos.mpr ⟨o, by simpa using h⟩
    exact_mod_cast this
  · exact_mod_cast Fintype.card_pos

theorem share_le_one {Ω : Type _} [Fintype Ω] (E : Ω → Prop) : share E ≤ 1 := by
  classical
  unfold share
  apply div_le_one_of_le₀ _ (by positivity)
  exact_mod_cast Finset.card_filter_le _ _

theorem share_not {Ω : Type _} [Fintype Ω] [Nonempty Ω] (E : Ω → Prop) : share (fun o => ¬ E o) = 1 - share E := by
  classical
  unfold share
  have h : (Finset.univ.filter E).card + (Finset.univ.filter fun o => ¬ E o).card = Fintype.card Ω :=
    Finset.card_filter_add_card_filter_not (s := Finset.univ) E
  have hp : (0 : ℝ) < Fintype.card Ω := by exact_mod_cast Fintype.card_pos
  rw [eq_sub_iff_add_eq, ← add_div, div_eq_one_iff_eq hp.ne', ← Nat.cast_add, Nat.cast_inj, ← h, add_comm]
  congr!

/-- Transport along a bijection. -/
theorem share_equiv {Ω Ω' : Type _} [Fintype Ω] [Fintype Ω'] (e : Ω ≃ Ω') (E : Ω' → Prop) : share (fun o => E (e o)) = share E := by
  classical
  unfold share
  rw [Fintype.card_congr e]
  congr 2
  refine Finset.card_bij (fun o _ => e o) (by simp) (fun _ _ _ _ h => e.injective h) ?_
  intro o ho
  exact ⟨e.symm o, by simpa using ho, by simp⟩

theorem share_all (ι : Type _) [Fintype ι] [DecidableEq ι] (G : σ → Prop) : share (fun f : ι → σ => ∀ i, G (f i)) = share G ^ Fintype.card ι := by
  classical
  rw [share_of_card (E := fun f : ι → σ => ∀ i, G (f i)) (s := Fintype.piFinset fun _ => Finset.univ.filter G) (by simp),
    share_of_card (E := G) (s := Finset.univ.filter G) (by simp)]
  rw [Fintype.card_piFinset, Finset.prod_const, Finset.card_univ, Fintype.card_fun]
  push_cast
  rw [div_pow]

theorem share_fst {Ω Ω' : Type _} [Fintype Ω] [Fintype Ω'] [Nonempty Ω'] (E : Ω → Prop) : share (fun o : Ω × Ω' => E o.1) = share E := by
  classical
  unfold share
  rw [show (Finset.univ.filter fun o : Ω × Ω' => E o.1) = (Finset.univ.filter E) ×ˢ Finset.univ by ext o; simp]
  rw [Finset.card_product, Fintype.card_prod, Finset.card_univ]
  push_cast
  have hp : (Fintype.card Ω' : ℝ) ≠ 0 := by exact_mod_cast Fintype.card_ne_zero
  rw [mul_div_mul_right _ _ hp]

/-- A tuple cut into `b` bands of `r` places, and `e` places which are left. -/
def cutBands (σ : Type _) (b r e : Nat) : (Fin b → Fin r → σ) × (Fin e → σ) ≃ (Fin (b * r + e) → σ) :=
  (Equiv.prodCongr ((Equiv.curry (Fin b) (Fin r) σ).symm.trans (Equiv.arrowCongr finProdFinEquiv (Equiv.refl σ)))
    (Equiv.refl (Fin e → σ))).trans (Fin.appendEquiv (b * r) e)

omit [Fintype σ] in
theorem cutBands_apply (b r e : Nat) (x : (Fin b → Fin r → σ) × (Fin e → σ)) (i : Fin b) (j : Fin r) (h : i.val * r + j.val < b * r + e) :
    cutBands σ b r e x ⟨i.val * r + j.val, h⟩ = x.1 i j := by
  have : (⟨i.val * r + j.val, h⟩ : Fin (b * r + e)) = Fin.castAdd e (finProdFinEquiv (i, j)) := by
    ext
    simp [finProdFinEquiv, Nat.mul_comm, Nat.add_comm]
  rw [this]
  simp [cutBands, Fin.appendEquiv]

/-- The share of the tuples which have a band all of whose places are good. -/
theorem share_band [Nonempty σ] (G : σ → Prop) (b r e : Nat) :
    share (fun f : Fin (b * r + e) → σ => ∃ i < b, ∀ j < r, ∃ h : i * r + j < b * r + e, G (f ⟨i * r + j, h⟩)) =
      1 - (1 - share G ^ r) ^ b := by
  have hlt : ∀ (i : Fin b) (j : Fin r), i.val * r + j.val < b * r + e := by
    intro i j
    have h1 : (i.val + 1) * r ≤ b * r := Nat.mul_le_mul_right r i.isLt
    have h2 := j.isLt
    rw [Nat.add_mul, Nat.one_mul] at h1
    omega
  rw [← share_equiv (cutBands σ b r e)]
  rw [share_congr (F := fun x : (Fin b → Fin r → σ) × (Fin e → σ) => ¬ ∀ i, ¬ ∀ j, G (x.1 i j)), share_not,
    share_fst (fun g : Fin b → Fin r → σ => ∀ i, ¬ ∀ j, G (g i j)), share_all (Fin b) (fun u : Fin r → σ => ¬ ∀ j, G (u j)), share_not,
    share_all, Fintype.card_fin, Fintype.card_fin]
  intro x
  push Not
  constructor
  · rintro ⟨i, hi, h⟩
    refine ⟨⟨i, hi⟩, fun j => ?_⟩
    obtain ⟨h1, h2⟩ := h j j.isLt
    rwa [cutBands_apply b r e x ⟨i, hi⟩ j h1] at h2
  · rintro ⟨i, h⟩
    refine ⟨i, i.isLt, fun j hj => ⟨hlt i ⟨j, hj⟩, ?_⟩⟩
    rw [cutBands_apply b r e x i ⟨j, hj⟩ (hlt i ⟨j, hj⟩)]
    exact h ⟨j, hj⟩

/-- Outcomes which are kept only when `D` holds: the share of `E` among those is close to its share among all. -/
theorem share_given {Ω Δ : Type _} [Fintype Ω] [Fintype Δ] [Nonempty Δ] (D : Ω → Prop) (e : Δ → Ω) (he : Function.Injective e)
    (hD : ∀ o, D o ↔ ∃ d, e d = o) (E : Ω → Prop) :
    |share (fun d => E (e d)) - share E| ≤ 1 - share D := by
  classical
  have hΩ : Nonempty Ω := Nonempty.map e inferInstance
  have h1 : (Finset.univ.filter fun d => E (e d)).card = (Finset.univ.filter fun o => D o ∧ E o).card := by
    refine Finset.card_bij (fun d _ => e d) ?_ (fun _ _ _ _ h => he h) ?_
    · intro d hd
      simp only [Finset.mem_filter, Finset.mem_univ, true_and] at hd ⊢
      exact ⟨(hD _).mpr ⟨d, rfl⟩, hd⟩
    · intro o ho
      simp only [Finset.mem_filter, Finset.mem_univ, true_and] at ho
      obtain ⟨d, rfl⟩ := (hD o).mp ho.1
      exact ⟨d, by simpa using ho.2, rfl⟩
  have h2 : Fintype.card Δ = (Finset.univ.filter D).card := by
    rw [← Finset.card_univ]
    refine Finset.card_bij (fun d _ => e d) ?_ (fun _ _ _ _ h => he h) ?_
    · intro d _
      simp only [Finset.mem_filter, Finset.mem_univ, true_and]
      exact (hD _).mpr ⟨d, rfl⟩
    · intro o ho
      simp only [Finset.mem_filter, Finset.mem_univ, true_and] at ho
      obtain ⟨d, rfl⟩ := (hD o).mp ho
      exact ⟨d, Finset.mem_univ _, rfl⟩
  have h3 : (Finset.univ.filter fun o => D o ∧ E o).card ≤ (Finset.univ.filter E).card :=
    Finset.card_le_card fun o ho => by simp at ho ⊢; exact ho.2
  have h4 : (Finset.univ.filter E).card ≤ (Finset.univ.filter fun o => D o ∧ E o).card + (Finset.univ.filter fun o => ¬ D o).card := by
    rw [← Finset.card_union_of_disjoint]
    · exact Finset.card_le_card fun o ho => by simp at ho ⊢; grind
    · rw [Finset.disjoint_left]
      intro o; simp; grind
  have h5 : (Finset.univ.filter D).card + (Finset.univ.filter fun o => ¬ D o).card = Fintype.card Ω :=
    Finset.card_filter_add_card_filter_not (s := Finset.univ) D
  have h6 : (Finset.univ.filter fun o => D o ∧ E o).card ≤ (Finset.univ.filter D).card :=
    Finset.card_le_card fun o ho => by simp at ho ⊢; exact ho.1
  have h7 : 0 < Fintype.card Δ := Fintype.card_pos
  have e1 : share (fun d => E (e d)) = ((Finset.univ.filter fun o => D o ∧ E o).card : ℝ) / (Finset.univ.filter D).card := by
    rw [← h1, ← h2]; unfold share; congr!
  have e2 : share E = ((Finset.univ.filter E).card : ℝ) / Fintype.card Ω := by unfold share; congr!
  have e3 : share D = ((Finset.univ.filter D).card : ℝ) / Fintype.card Ω := by unfold share; congr!
  rw [e1, e2, e3]
  rw [h2] at h7
  generalize (Finset.univ.filter fun o => D o ∧ E o).card = x at *
  generalize (Finset.univ.filter D).card = d at *
  generalize (Finset.univ.filter E).card = y at *
  generalize (Finset.univ.filter fun o => ¬ D o).card = z at *
  generalize Fintype.card Ω = n at *
  have hd : (0 : ℝ) < d := by exact_mod_cast h7
  have hn : (0 : ℝ) < n := by exact_mod_cast (by omega : 0 < n)
  have g3 : (x : ℝ) ≤ y := by exact_mod_cast h3
  have g4 : (y : ℝ) ≤ x + z := by exact_mod_cast h4
  have g5 : (d : ℝ) + z = n := by exact_mod_cast h5
  have g6 : (x : ℝ) ≤ d := by exact_mod_cast h6
  have gx : (0 : ℝ) ≤ x := by positivity
  have gz : (0 : ℝ) ≤ z := by positivity
  have key : (x : ℝ) / d - y / n = (x * n - y * d) / (d * n) := by field_simp
  have key2 : 1 - (d : ℝ) / n = z * d / (d * n) := by field_simp; linarith
  have hdn : (0 : ℝ) < d * n := mul_pos hd hn
  have m1 : (x : ℝ) * z ≤ d * z := mul_le_mul_of_nonneg_right g6 gz
  have m2 : (x : ℝ) * d ≤ y * d := mul_le_mul_of_nonneg_right g3 hd.le
  have m3 : (y : ℝ) * d ≤ (x + z) * d := mul_le_mul_of_nonneg_right g4 hd.le
  have m4 : (0 : ℝ) ≤ x * z := mul_nonneg gx gz
  rw [key, key2, abs_div, abs_of_pos hdn]
  apply div_le_div_of_nonneg_right _ hdn.le
  rw [← g5, abs_le]
  constructor <;> nlinarith

/-- Draws among `n` values are all different with a chance close to one. -/
theorem distinct_le (n h : Nat) (hn : 0 < n) (hh : h ≤ n) :
    1 - (n.descFactorial h : ℝ) / (n : ℝ) ^ h ≤ (h : ℝ) * (h - 1) / 2 / n := by
  have hp : (0 : ℝ) < n := by exact_mod_cast hn
  induction h with
  | zero => simp
  | succ h ih =>
      have ih := ih (by omega)
      have hd : (n.descFactorial h : ℝ) / (n : ℝ) ^ h ≤ 1 := by
        apply div_le_one_of_le₀ _ (by positivity)
        exact_mod_cast Nat.descFactorial_le_pow n h
      rw [Nat.descFactorial_succ, Nat.cast_mul, Nat.cast_sub (by omega : h ≤ n), pow_succ,
        show ((n : ℝ) - h) * (n.descFactorial h : ℝ) / ((n : ℝ) ^ h * n) = (n.descFactorial h : ℝ) / (n : ℝ) ^ h * (1 - h / n) by field_simp]
      have hq : (0 : ℝ) ≤ h / n := by positivity
      have e : ((h + 1 : ℕ) : ℝ) * ((h + 1 : ℕ) - 1) / 2 / n = (h : ℝ) * (h - 1) / 2 / n + h / n := by push_cast; ring
      rw [e]
      nlinarith

/-- The share of an event among the tuples of different values is close to its share among all the tuples. -/
theorem share_embedding [Nonempty σ] {h : Nat} (hh : h ≤ Fintype.card σ) (E : (Fin h → σ) → Prop) :
    |share (fun f : Fin h ↪ σ => E f) - share E| ≤ (h : ℝ) * (h - 1) / 2 / Fintype.card σ := by
  classical
  have hne : Nonempty (Fin h ↪ σ) := by
    rw [Function.Embedding.nonempty_iff_card_le]
    simpa using hh
  refine le_trans (share_given (fun f : Fin h → σ => Function.Injective f) (fun f : Fin h ↪ σ => (f : Fin h → σ))
    (fun f g h => DFunLike.coe_injective h) (fun f => ⟨fun hf => ⟨⟨f, hf⟩, rfl⟩, fun ⟨g, hg⟩ => hg ▸ g.injective⟩) E) ?_
  refine le_trans (le_of_eq ?_) (distinct_le (Fintype.card σ) h Fintype.card_pos hh)
  congr 1
  rw [share_of_card (s := Finset.univ.map ⟨fun f : Fin h ↪ σ => (f : Fin h → σ), fun f g h => DFunLike.coe_injective h⟩)]
  · rw [Finset.card_map, Finset.card_univ, Fintype.card_embedding_eq, Fintype.card_fun, Fintype.card_fin]
    push_cast
    rfl
  · intro f
    simp only [Finset.mem_map, Finset.mem_univ, true_and]
    exact ⟨fun ⟨g, hg⟩ => hg ▸ g.injective, fun hf => ⟨⟨f, hf⟩, rfl⟩⟩

open Classical in
theorem average_indicator {Ω : Type _} [Fintype Ω] (E : Ω → Prop) : average (fun o => if E o then (1 : ℝ) else 0) = share E := by
  unfold average share
  rw [Finset.sum_boole]

theorem average_sum {Ω ι : Type _} [Fintype Ω] [Fintype ι] (X : ι → Ω → ℝ) : average (fun o => ∑ i, X i o) = ∑ i, average (X i) := by
  unfold average
  rw [Finset.sum_comm, Finset.sum_div]

theorem average_div {Ω : Type _} [Fintype Ω] (X : Ω → ℝ) (c : ℝ) : average (fun o => X o / c) = average X / c := by
  unfold average
  rw [← Finset.sum_div, div_div, div_div, mul_comm]

theorem share_prod {Ω Ω' : Type _} [Fintype Ω] [Fintype Ω'] (E : Ω → Prop) (F : Ω' → Prop) :
    share (fun o : Ω × Ω' => E o.1 ∧ F o.2) = share E * share F := by
  classical
  rw [share_of_card (E := fun o : Ω × Ω' => E o.1 ∧ F o.2) (s := Finset.univ.filter E ×ˢ Finset.univ.filter F) (by simp),
    share_of_card (E := E) (s := Finset.univ.filter E) (by simp), share_of_card (E := F) (s := Finset.univ.filter F) (by simp),
    Finset.card_product, Fintype.card_prod]
  push_cast
  rw [div_mul_div_comm]

/-- One place of a tuple is good with the chance of a value. -/
theorem share_place [Nonempty σ] {ι : Type _} [Fintype ι] [DecidableEq ι] (i : ι) (G : σ → Prop) :
    share (fun f : ι → σ => G (f i)) = share G := by
  classical
  rw [← share_equiv (Equiv.funSplitAt i σ).symm, share_congr (F := fun x : σ × ({j // j ≠ i} → σ) => G x.1), share_fst]
  intro x
  simp

/-- Two places of a tuple are independent. -/
theorem share_places [Nonempty σ] {ι : Type _} [Fintype ι] [DecidableEq ι] {i j : ι} (hij : j ≠ i) (G : σ → Prop) :
    share (fun f : ι → σ => G (f i) ∧ G (f j)) = share G * share G := by
  classical
  rw [← share_equiv (Equiv.funSplitAt i σ).symm,
    share_congr (F := fun x : σ × ({j // j ≠ i} → σ) => G x.1 ∧ (fun r : {j // j ≠ i} → σ => G (r ⟨j, hij⟩)) x.2), share_prod G (fun r : {j // j ≠ i} → σ => G (r ⟨j, hij⟩)), share_place]
  intro x
  simp [hij]

theorem average_mul {Ω : Type _} [Fintype Ω] (X : Ω → ℝ) (c : ℝ) : average (fun o => c * X o) = c * average X := by
  unfold average
  rw [← Finset.mul_sum, mul_div_assoc]

theorem average_add {Ω : Type _} [Fintype Ω] (X Y : Ω → ℝ) : average (fun o => X o + Y o) = average X + average Y := by
  unfold average
  rw [Finset.sum_add_distrib, add_div]

theorem average_const {Ω : Type _} [Fintype Ω] [Nonempty Ω] (c : ℝ) : average (fun _ : Ω => c) = c := by
  unfold average
  have hp : (Fintype.card Ω : ℝ) ≠ 0 := by exact_mod_cast Fintype.card_ne_zero
  rw [Finset.sum_const, Finset.card_univ, nsmul_eq_mul]
  field_simp

/-- The share of the good places of a tuple is, in the mean, the chance of a good value. -/
theorem average_places [Nonempty σ] {h : Nat} (hh : 0 < h) (G : σ → Prop) [DecidablePred G] :
    average (fun f : Fin h → σ => (∑ i, if G (f i) then (1 : ℝ) else 0) / h) = share G := by
  have hp : (h : ℝ) ≠ 0 := by exact_mod_cast hh.ne'
  rw [average_div, average_sum, Finset.sum_congr rfl (g := fun _ => share G)]
  · rw [Finset.sum_const, Finset.card_univ, Fintype.card_fin, nsmul_eq_mul]
    field_simp
  · intro i _
    rw [← share_place i G, ← average_indicator]
    congr!

/-- And its variance is that of `h` independent draws. -/
theorem variance_places [Nonempty σ] {h : Nat} (hh : 0 < h) (G : σ → Prop) [DecidablePred G] :
    average (fun f : Fin h → σ => ((∑ i, if G (f i) then (1 : ℝ) else 0) / h - share G) ^ 2) = share G * (1 - share G) / h := by
  classical
  have hp : (h : ℝ) ≠ 0 := by exact_mod_cast hh.ne'
  have e : ∀ f : Fin h → σ, ((∑ i, if G (f i) then (1 : ℝ) else 0) / h - share G) ^ 2 =
      (∑ i : Fin h, ∑ j : Fin h, if G (f i) ∧ G (f j) then (1 : ℝ) else 0) / (h : ℝ) ^ 2 +
      ((-2 * share G) * ((∑ i, if G (f i) then (1 : ℝ) else 0) / h) + share G ^ 2) := by
    intro f
    have : (∑ i : Fin h, ∑ j : Fin h, if G (f i) ∧ G (f j) then (1 : ℝ) else 0) =
        (∑ i, if G (f i) then (1 : ℝ) else 0) * (∑ i, if G (f i) then (1 : ℝ) else 0) := by
      rw [Finset.sum_mul_sum]
      refine Finset.sum_congr rfl fun i _ => Finset.sum_congr rfl fun j _ => ?_
      by_cases h1 : G (f i) <;> by_cases h2 : G (f j) <;> simp [h1, h2]
    rw [this]
    field_simp
    ring
  have two : ∀ i j : Fin h, average (fun f : Fin h → σ => if G (f i) ∧ G (f j) then (1 : ℝ) else 0) =
      share G * share G + if i = j then share G * (1 - share G) else 0 := by
    intro i j
    by_cases hij : i = j
    · subst hij
      rw [if_pos rfl]
      have : average (fun f : Fin h → σ => if G (f i) ∧ G (f i) then (1 : ℝ) else 0) = share G := by
        rw [← share_place i G, ← average_indicator]
        congr!
        simp
      rw [this]
      ring
    · rw [if_neg hij, add_zero, ← share_places (fun h => hij h.symm) G, ← average_indicator]
      congr!
  simp only [e]
  rw [average_add, average_add, average_mul, average_places hh, average_const, average_div, average_sum]
  simp only [average_sum, two, Finset.sum_add_distrib, Finset.sum_const, Finset.card_univ, Fintype.card_fin, nsmul_eq_mul, Finset.sum_ite_eq,
    Finset.mem_univ, if_true]
  field_simp
  ring

/-- Chebyshev's inequality. -/
theorem chebyshev {Ω : Type _} [Fintype Ω] (X : Ω → ℝ) (m : ℝ) {ε : ℝ} (hε : 0 < ε) :
    share (fun o => ε ≤ |X o - m|) ≤ average (fun o => (X o - m) ^ 2) / ε ^ 2 := by
  classical
  rw [le_div_iff₀ (by positivity), mul_comm, ← average_indicator, ← average_mul]
  unfold average
  apply div_le_div_of_nonneg_right _ (by positivity)
  apply Finset.sum_le_sum
  intro o _
  by_cases h : ε ≤ |X o - m|
  · rw [if_pos h, mul_one, ← sq_abs (X o - m)]
    exact pow_le_pow_left₀ hε.le h 2
  · rw [if_neg h, mul_zero]
    positivity

/-- And so among the tuples of different values. -/
theorem share_place_embedding {h : Nat} (hh : h ≤ Fintype.card σ) (i : Fin h) (G : σ → Prop) :
    share (fun f : Fin h ↪ σ => G (f i)) = share G := by
  classical
  have hne : Nonempty (Fin h ↪ σ) := by
    rw [Function.Embedding.nonempty_iff_card_le]
    simpa using hh
  have hσ : Nonempty σ := Nonempty.map (fun f : Fin h ↪ σ => f i) hne
  obtain ⟨c₀⟩ := hσ
  have fib : ∀ c : σ, (Finset.univ.filter fun f : Fin h ↪ σ => f i = c).card = (Finset.univ.filter fun f : Fin h ↪ σ => f i = c₀).card := by
    intro c
    refine Finset.card_bij (fun f _ => f.trans (Equiv.swap c c₀).toEmbedding) ?_ ?_ ?_
    · intro f hf
      simp only [Finset.mem_filter, Finset.mem_univ, true_and] at hf ⊢
      simp [hf]
    · intro f _ g _ hfg
      ext k
      have := DFunLike.congr_fun hfg k
      simpa using this
    · intro f hf
      simp only [Finset.mem_filter, Finset.mem_univ, true_and] at hf
      refine ⟨f.trans (Equiv.swap c c₀).toEmbedding, ?_, ?_⟩
      · simp [hf]
      · ext k; simp
  have tot : ∀ s : Finset σ, (Finset.univ.filter fun f : Fin h ↪ σ => f i ∈ s).card =
      s.card * (Finset.univ.filter fun f : Fin h ↪ σ => f i = c₀).card := by
    intro s
    rw [Finset.card_eq_sum_card_fiberwise (f := fun f : Fin h ↪ σ => f i) (t := s) (fun f hf => by simpa using hf)]
    rw [Finset.sum_congr rfl (g := fun _ => (Finset.univ.filter fun f : Fin h ↪ σ => f i = c₀).card), Finset.sum_const, smul_eq_mul]
    intro c hc
    rw [← fib c]
    congr 1
    ext f
    simp only [Finset.mem_filter, Finset.mem_univ, true_and]
    grind
  have t1 := tot Finset.univ
  have t2 := tot (Finset.univ.filter G)
  simp only [Finset.mem_univ, Finset.filter_true, Finset.card_univ] at t1
  rw [share_of_card (E := fun f : Fin h ↪ σ => G (f i)) (s := Finset.univ.filter fun f : Fin h ↪ σ => f i ∈ Finset.univ.filter G) (by simp),
    share_of_card (E := G) (s := Finset.univ.filter G) (by simp), t2, t1]
  have hK : ((Finset.univ.filter fun f : Fin h ↪ σ => f i = c₀).card : ℝ) ≠ 0 := by
    intro h0
    have h0 : (Finset.univ.filter fun f : Fin h ↪ σ => f i = c₀).card = 0 := by exact_mod_cast h0
    rw [h0, Nat.mul_zero] at t1
    exact Fintype.card_ne_zero t1
  push_cast
  rw [mul_div_mul_right _ _ hK]

theorem average_places_embedding {h : Nat} (hh : 0 < h) (hc : h ≤ Fintype.card σ) (G : σ → Prop) [DecidablePred G] :
    average (fun f : Fin h ↪ σ => (∑ i, if G (f i) then (1 : ℝ) else 0) / h) = share G := by
  have hp : (h : ℝ) ≠ 0 := by exact_mod_cast hh.ne'
  rw [average_div, average_sum, Finset.sum_congr rfl (g := fun _ => share G)]
  · rw [Finset.sum_const, Finset.card_univ, Fintype.card_fin, nsmul_eq_mul]
    field_simp
  · intro i _
    rw [← share_place_embedding hc i G, ← average_indicator]
    congr!

end Fog.Spec
