import Verif.Lemmas.QuickjoinChances
import Mathlib.Algebra.BigOperators.Intervals
import Mathlib.Logic.Equiv.Fintype
import Mathlib.Data.Fintype.CardEmbedding

/-!
# Drawing until `h` different values are gathered
-/

namespace Fog.Spec

/-! ### A loop which draws at each turn -/

section Chain

variable {S Δ : Type _} [Fintype Δ] [Nonempty Δ]

/-- The state after `s` turns. -/
def runAll (step : S → Δ → S) : (s : Nat) → (Fin s → Δ) → S → S
  | 0, _, st => st
  | s + 1, o, st => runAll step s (Fin.tail o) (step st (o 0))

open Classical in
/-- The turns which are made among the next `s` ones. -/
noncomputable def busy (step : S → Δ → S) (live : S → Prop) : (s : Nat) → (Fin s → Δ) → S → Nat
  | 0, _, _ => 0
  | s + 1, o, st => (if live st then 1 else 0) + busy step live s (Fin.tail o) (step st (o 0))

open Classical in
/-- When a turn brings the end nearer by one in the mean, the turns made and those to come make the first estimate. -/
theorem average_busy {step : S → Δ → S} {live Inv : S → Prop} {Φ : S → ℝ} (hInv : ∀ st d, Inv st → Inv (step st d))
    (hΦ : ∀ st, Inv st → average (fun d => Φ (step st d)) = Φ st - if live st then 1 else 0) : ∀ (s : Nat) (st : S), Inv st →
    average (fun o : Fin s → Δ => (busy step live s o st : ℝ)) + average (fun o : Fin s → Δ => Φ (runAll step s o st)) = Φ st := by
  intro s
  induction s with
  | zero =>
      intro st _
      simp only [busy, runAll]
      rw [average_const, average_const]
      simp
  | succ s ih =>
      intro st hst
      rw [average_cons, average_cons]
      simp only [busy, runAll, Fin.tail_cons, Fin.cons_zero, Nat.cast_add]
      have h1 : ∀ d : Δ, average (fun o : Fin s → Δ =>
          (((if live st then 1 else 0 : Nat) : ℝ) + (busy step live s o (step st d) : ℝ))) =
          ((if live st then 1 else 0 : Nat) : ℝ) + average (fun o : Fin s → Δ => (busy step live s o (step st d) : ℝ)) := by
        intro d
        rw [average_add, average_const]
      simp only [h1]
      rw [average_add, average_const, add_assoc, ← average_add]
      simp only [fun d : Δ => ih _ (hInv st d hst)]
      rw [hΦ st hst]
      split <;> simp

omit [Fintype Δ] [Nonempty Δ] in
theorem runAll_inv {step : S → Δ → S} {Inv : S → Prop} (hInv : ∀ st d, Inv st → Inv (step st d)) : ∀ (s : Nat) (o : Fin s → Δ) (st : S),
    Inv st → Inv (runAll step s o st) := by
  intro s
  induction s with
  | zero => intro o st h; exact h
  | succ s ih => intro o st h; exact ih _ _ (hInv _ _ h)

omit [Fintype Δ] [Nonempty Δ] in
/-- When it is not over, all turns were made. -/
theorem busy_all {step : S → Δ → S} {live : S → Prop} (hlive : ∀ st d, ¬ live st → ¬ live (step st d)) : ∀ (s : Nat) (o : Fin s → Δ)
    (st : S), live (runAll step s o st) → busy step live s o st = s := by
  intro s
  induction s with
  | zero => intro o st _; rfl
  | succ s ih =>
      intro o st h
      have hst : live st := by
        by_contra h0
        exact runAll_inv hlive (s + 1) o st h0 h
      simp only [busy, if_pos hst]
      rw [ih _ _ h]
      omega

open Classical in
/-- So the share of the outcomes for which it is not over goes to zero. -/
theorem share_live {step : S → Δ → S} {live Inv : S → Prop} {Φ : S → ℝ} (hInv : ∀ st d, Inv st → Inv (step st d))
    (hΦ : ∀ st, Inv st → average (fun d => Φ (step st d)) = Φ st - if live st then 1 else 0) (h0 : ∀ st, Inv st → 0 ≤ Φ st)
    (hlive : ∀ st d, ¬ live st → ¬ live (step st d)) (s : Nat) (hs : 0 < s) (st : S) (hst : Inv st) :
    share (fun o : Fin s → Δ => live (runAll step s o st)) ≤ Φ st / s := by
  have hpos : (0 : ℝ) < s := by exact_mod_cast hs
  have h := average_busy hInv hΦ s st hst
  have hm : 0 ≤ average (fun o : Fin s → Δ => Φ (runAll step s o st)) := by
    unfold average
    exact div_nonneg (Finset.sum_nonneg fun o _ => h0 _ (runAll_inv hInv _ _ _ hst)) (by positivity)
  rw [le_div_iff₀ hpos, mul_comm]
  refine (markov (fun o : Fin s → Δ => (busy step live s o st : ℝ)) (fun o => by positivity) (s : ℝ) _ ?_).trans (by linarith)
  intro o ho
  rw [busy_all hlive _ _ _ ho]

end Chain

/-! ### Gathering different values -/

section Gather

variable {D : Type _} [Fintype D] [DecidableEq D]

/-- What a draw adds, as long as there are less than `h` values. -/
def gather (h : Nat) (S : List D) (d : D) : List D := if S.length < h then if d ∈ S then S else S ++ [d] else S

/-- The mean number of draws to come. -/
noncomputable def toGather (D : Type _) [Fintype D] (h m : Nat) : ℝ := ∑ x ∈ Finset.Ico m h, (Fintype.card D : ℝ) / (Fintype.card D - x)

omit [Fintype D] in
theorem gather_inv {h : Nat} (S : List D) (d : D) (hS : S.Nodup ∧ S.length ≤ h) : (gather h S d).Nodup ∧ (gather h S d).length ≤ h := by
  unfold gather
  split
  · next hl =>
      split
      · exact hS
      · next hd =>
          refine ⟨?_, by simp; omega⟩
          rw [List.nodup_append]
          refine ⟨hS.1, by simp, ?_⟩
          rintro a ha b hb rfl
          rw [List.mem_singleton] at hb
          exact hd (hb ▸ ha)
  · exact hS

omit [DecidableEq D] in
theorem toGather_nonneg {h : Nat} (hh : h ≤ Fintype.card D) (m : Nat) : 0 ≤ toGather D h m := by
  unfold toGather
  apply Finset.sum_nonneg
  intro x hx
  rw [Finset.mem_Ico] at hx
  apply div_nonneg (by positivity)
  have : (x : ℝ) ≤ Fintype.card D := by exact_mod_cast (show x ≤ Fintype.card D by omega)
  linarith

open Classical in
theorem average_gather {h : Nat} (hh : h ≤ Fintype.card D) (S : List D) (hS : S.Nodup ∧ S.length ≤ h) :
    average (fun d => toGather D h (gather h S d).length) = toGather D h S.length - if S.length < h then 1 else 0 := by
  by_cases hl : S.length < h
  · have hD : Nonempty D := Fintype.card_pos_iff.mp (by omega)
    rw [if_pos hl]
    have hval : ∀ d : D, toGather D h (gather h S d).length =
        toGather D h S.length - (Fintype.card D : ℝ) / (Fintype.card D - S.length) * if d ∈ S then 0 else 1 := by
      intro d
      unfold gather
      rw [if_pos hl]
      by_cases hd : d ∈ S
      · rw [if_pos hd, if_pos hd]; ring
      · rw [if_neg hd, if_neg hd, List.length_append, List.length_singleton]
        unfold toGather
        rw [Finset.sum_eq_sum_Ico_succ_bot hl]
        ring
    simp only [hval]
    rw [Fog.LeastRank.average_sub, average_const, average_mul]
    congr 1
    have hmean : average (fun d : D => if d ∈ S then (0 : ℝ) else 1) = (Fintype.card D - S.length) / Fintype.card D := by
      unfold average
      congr 1
      have hsum : ∑ d : D, (if d ∈ S then (0 : ℝ) else 1) = ∑ d : D, (1 - if d ∈ S then (1 : ℝ) else 0) := by
        apply Finset.sum_congr rfl
        intro d _
        split <;> simp
      have hcard : (Finset.univ.filter fun d => d ∈ S).card = S.length := by
        have : (Finset.univ.filter fun d => d ∈ S) = S.toFinset := by ext x; simp
        rw [this, List.toFinset_card_of_nodup hS.1]
      rw [hsum, Finset.sum_sub_distrib, Finset.sum_boole, hcard]
      simp
    have hpos : (0 : ℝ) < Fintype.card D - S.length := by
      have : (S.length : ℝ) + 1 ≤ Fintype.card D := by exact_mod_cast (show S.length + 1 ≤ Fintype.card D by omega)
      linarith
    have hN : (0 : ℝ) < Fintype.card D := by exact_mod_cast (show 0 < Fintype.card D by omega)
    rw [hmean]
    field_simp
  · rw [if_neg hl]
    have hval : ∀ d : D, toGather D h (gather h S d).length = 0 := by
      intro d
      unfold gather toGather
      rw [if_neg hl, Finset.Ico_eq_empty (by omega), Finset.sum_empty]
    have : toGather D h S.length = 0 := by
      unfold toGather
      rw [Finset.Ico_eq_empty (by omega), Finset.sum_empty]
    simp only [hval]
    unfold average
    simp [this]

theorem share_gather [Nonempty D] {h : Nat} (hh : h ≤ Fintype.card D) (s : Nat) (hs : 0 < s) :
    share (fun o : Fin s → D => (runAll (gather h) s o []).length < h) ≤ toGather D h 0 / s := by
  have := share_live (step := gather h) (live := fun S : List D => S.length < h) (Inv := fun S => S.Nodup ∧ S.length ≤ h)
    (Φ := fun S => toGather D h S.length) (fun S d => gather_inv S d) (fun S hS => by rw [average_gather hh S hS]; congr)
    (fun S _ => toGather_nonneg hh _) (fun S d hS => by unfold gather; rw [if_neg hS]; exact hS) s hs [] (by simp)
  exact this

omit [Fintype D] in
/-- Permuting the values permutes what is gathered. -/
theorem runAll_perm (σ : Equiv.Perm D) (h : Nat) : ∀ (s : Nat) (o : Fin s → D) (S : List D),
    runAll (gather h) s (fun i => σ (o i)) (S.map σ) = (runAll (gather h) s o S).map σ := by
  intro s
  induction s with
  | zero => intro o S; rfl
  | succ s ih =>
      intro o S
      have hstep : gather h (S.map σ) (σ (o 0)) = (gather h S (o 0)).map σ := by
        unfold gather
        rw [List.length_map]
        by_cases hl : S.length < h
        · rw [if_pos hl, if_pos hl]
          by_cases hd : o 0 ∈ S
          · rw [if_pos hd, if_pos (List.mem_map_of_mem hd)]
          · rw [if_neg hd, if_neg (by simpa using hd)]
            simp
        · rw [if_neg hl, if_neg hl]
      simp only [runAll]
      rw [hstep]
      exact ih _ _

/-- Some permutation sends a tuple of different values to another one. -/
theorem exists_perm_embedding {h : Nat} (e e' : Fin h ↪ D) : ∃ σ : Equiv.Perm D, ∀ i, σ (e i) = e' i := by
  let f := (Equiv.ofInjective e e.injective).symm.trans (Equiv.ofInjective e' e'.injective)
  refine ⟨(f : { x // x ∈ Set.range e } ≃ { x // x ∈ Set.range e' }).extendSubtype, fun i => ?_⟩
  rw [Equiv.extendSubtype_apply_of_mem _ (e i) ⟨i, rfl⟩]
  show ((Equiv.ofInjective e' e'.injective) ((Equiv.ofInjective e e.injective).symm ⟨e i, ⟨i, rfl⟩⟩)).val = e' i
  have : (Equiv.ofInjective e e.injective).symm ⟨e i, ⟨i, rfl⟩⟩ = i := by
    rw [Equiv.symm_apply_eq]
    rfl
  rw [this]
  rfl

/-- All lists of `h` different values are as likely. -/
theorem share_gathered {h : Nat} (s : Nat) (e e' : Fin h ↪ D) :
    share (fun o : Fin s → D => runAll (gather h) s o [] = List.ofFn e) = share (fun o : Fin s → D => runAll (gather h) s o [] = List.ofFn e') := by
  obtain ⟨σ, hσ⟩ := exists_perm_embedding e e'
  rw [← share_equiv (Equiv.arrowCongr (Equiv.refl (Fin s)) σ) (fun o : Fin s → D => runAll (gather h) s o [] = List.ofFn e')]
  apply share_congr
  intro o
  have h1 : runAll (gather h) s (fun i => σ (o i)) [] = (runAll (gather h) s o []).map σ := runAll_perm σ h s o []
  have h2 : List.ofFn e' = (List.ofFn e).map σ := by
    rw [List.map_ofFn]
    congr 1
    funext i
    exact (hσ i).symm
  show _ ↔ runAll (gather h) s (fun i => σ (o i)) [] = List.ofFn e'
  rw [h1, h2]
  exact (List.map_injective_iff.mpr σ.injective).eq_iff.symm

open Classical in
/-- The mean of what depends on the list of `h` different values, over the drawings which gather it. -/
theorem average_gathered {h : Nat} (hh : h ≤ Fintype.card D) (s : Nat) (X : List D → ℝ) :
    average (fun o : Fin s → D => if (runAll (gather h) s o []).length < h then 0 else X (runAll (gather h) s o [])) =
      share (fun o : Fin s → D => ¬ (runAll (gather h) s o []).length < h) * average (fun e : Fin h ↪ D => X (List.ofFn e)) := by
  have hne : Nonempty (Fin h ↪ D) := by
    rw [Function.Embedding.nonempty_iff_card_le]
    simpa using hh
  obtain ⟨e₀⟩ := hne
  have inj : ∀ e e' : Fin h ↪ D, List.ofFn e = List.ofFn e' → e = e' := by
    intro e e' h
    exact DFunLike.coe_injective (List.ofFn_injective h)
  have surj : ∀ S : List D, S.Nodup → S.length = h → ∃ e : Fin h ↪ D, S = List.ofFn e := by
    rintro S hS rfl
    exact ⟨⟨S.get, List.nodup_iff_injective_get.mp hS⟩, (List.ofFn_get S).symm⟩
  have key : ∀ Y : List D → ℝ, (fun o : Fin s → D => if (runAll (gather h) s o []).length < h then 0 else Y (runAll (gather h) s o [])) =
      fun o => ∑ e : Fin h ↪ D, Y (List.ofFn e) * if runAll (gather h) s o [] = List.ofFn e then 1 else 0 := by
    intro Y
    funext o
    have hinv := runAll_inv (step := gather h) (Inv := fun S : List D => S.Nodup ∧ S.length ≤ h) (fun S d => gather_inv S d) s o [] (by simp)
    generalize runAll (gather h) s o [] = S at hinv
    by_cases hl : S.length < h
    · rw [if_pos hl]
      symm
      apply Finset.sum_eq_zero
      intro e _
      rw [if_neg, mul_zero]
      rintro rfl
      simp at hl
    · rw [if_neg hl]
      obtain ⟨e, rfl⟩ := surj S hinv.1 (by omega)
      rw [Finset.sum_eq_single e]
      · simp
      · intro e' _ hne
        rw [if_neg, mul_zero]
        intro heq
        exact hne (inj _ _ heq).symm
      · simp
  have mean : ∀ Y : List D → ℝ, average (fun o : Fin s → D => if (runAll (gather h) s o []).length < h then 0 else Y (runAll (gather h) s o [])) =
      (∑ e : Fin h ↪ D, Y (List.ofFn e)) * share (fun o : Fin s → D => runAll (gather h) s o [] = List.ofFn e₀) := by
    intro Y
    rw [key Y, average_sum, Finset.sum_mul]
    apply Finset.sum_congr rfl
    intro e _
    rw [average_mul, ← share_gathered s e e₀, ← average_indicator]
    congr!
  have hover : share (fun o : Fin s → D => ¬ (runAll (gather h) s o []).length < h) =
      (Fintype.card (Fin h ↪ D) : ℝ) * share (fun o : Fin s → D => runAll (gather h) s o [] = List.ofFn e₀) := by
    have := mean fun _ => 1
    rw [Finset.sum_const, Finset.card_univ, nsmul_eq_mul, mul_one] at this
    rw [← this, ← average_indicator]
    congr 1
    funext o
    simp only [not_lt]
    by_cases hl : (runAll (gather h) s o []).length < h <;> simp [hl]
  rw [mean X, hover]
  unfold average
  have : (Fintype.card (Fin h ↪ D) : ℝ) ≠ 0 := by
    have : 0 < Fintype.card (Fin h ↪ D) := Fintype.card_pos_iff.mpr ⟨e₀⟩
    exact_mod_cast this.ne'
  field_simp

end Gather

end Fog.Spec
