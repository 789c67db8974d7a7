import Verif.Lemmas.Chance
import Mathlib.Tactic.FieldSimp
import Mathlib.Tactic.Ring
import Mathlib.Data.Finset.Prod

/-!
# The variance of the share of good values among different ones
-/

namespace Fog.Spec

variable {σ : Type _} [Fintype σ]

/-- The chance that two values of a tuple of different values are good. -/
theorem share_places_embedding {h : Nat} (hh : h ≤ Fintype.card σ) {i j : Fin h} (hij : i ≠ j) (G : σ → Prop) :
    share (fun f : Fin h ↪ σ => G (f i) ∧ G (f j)) =
      share G * (Fintype.card σ * share G - 1) / (Fintype.card σ - 1) := by
  classical
  have hne : Nonempty (Fin h ↪ σ) := by
    rw [Function.Embedding.nonempty_iff_card_le]
    simpa using hh
  obtain ⟨f₀⟩ := hne
  obtain ⟨c₀, d₀, hcd₀, hc₀, hd₀⟩ : ∃ c₀ d₀ : σ, c₀ ≠ d₀ ∧ f₀ i = c₀ ∧ f₀ j = d₀ :=
    ⟨f₀ i, f₀ j, fun h => hij (f₀.injective h), rfl, rfl⟩
  have hn : 2 ≤ Fintype.card σ := by
    have h1 := i.isLt
    have h2 := j.isLt
    have h3 : i.val ≠ j.val := fun h => hij (Fin.ext h)
    omega
  have fib : ∀ c d : σ, c ≠ d → (Finset.univ.filter fun f : Fin h ↪ σ => f i = c ∧ f j = d).card =
      (Finset.univ.filter fun f : Fin h ↪ σ => f i = c₀ ∧ f j = d₀).card := by
    intro c d hcd
    obtain ⟨π, hπc, hπd⟩ : ∃ π : Equiv.Perm σ, π c = c₀ ∧ π d = d₀ := by
      have h1 : Equiv.swap c c₀ d ≠ c₀ := by
        intro h
        have := congrArg (Equiv.swap c c₀) h
        rw [Equiv.swap_apply_self, Equiv.swap_apply_right] at this
        exact hcd this.symm
      refine ⟨(Equiv.swap c c₀).trans (Equiv.swap (Equiv.swap c c₀ d) d₀), ?_, ?_⟩
      · rw [Equiv.trans_apply, Equiv.swap_apply_left, Equiv.swap_apply_of_ne_of_ne h1.symm hcd₀]
      · rw [Equiv.trans_apply, Equiv.swap_apply_left]
    refine Finset.card_bij (fun f _ => f.trans π.toEmbedding) ?_ ?_ ?_
    · intro f hf
      simp only [Finset.mem_filter, Finset.mem_univ, true_and] at hf ⊢
      simp [hf, hπc, hπd]
    · intro f _ g _ hfg
      ext k
      have := DFunLike.congr_fun hfg k
      simpa using this
    · intro f hf
      simp only [Finset.mem_filter, Finset.mem_univ, true_and] at hf
      refine ⟨f.trans π.symm.toEmbedding, ?_, ?_⟩
      · simp [hf, Equiv.symm_apply_eq, hπc, hπd]
      · ext k; simp
  have tot : ∀ s : Finset σ, (Finset.univ.filter fun f : Fin h ↪ σ => f i ∈ s ∧ f j ∈ s).card =
      s.offDiag.card * (Finset.univ.filter fun f : Fin h ↪ σ => f i = c₀ ∧ f j = d₀).card := by
    intro s
    rw [Finset.card_eq_sum_card_fiberwise (f := fun f : Fin h ↪ σ => (f i, f j)) (t := s.offDiag) (fun f hf => by
      have := (f.injective.ne hij : f i ≠ f j)
      simpa [this] using hf)]
    rw [Finset.sum_congr rfl (g := fun _ => (Finset.univ.filter fun f : Fin h ↪ σ => f i = c₀ ∧ f j = d₀).card), Finset.sum_const, smul_eq_mul]
    rintro ⟨c, d⟩ hcd
    rw [Finset.mem_offDiag] at hcd
    rw [← fib c d hcd.2.2]
    congr 1
    ext f
    simp only [Finset.mem_filter, Finset.mem_univ, true_and, Prod.mk.injEq]
    grind
  have t1 := tot Finset.univ
  have t2 := tot (Finset.univ.filter G)
  simp only [Finset.mem_univ, and_self, Finset.filter_true, Finset.card_univ] at t1
  have hK : ((Finset.univ.filter fun f : Fin h ↪ σ => f i = c₀ ∧ f j = d₀).card : ℝ) ≠ 0 := by
    have : 0 < (Finset.univ.filter fun f : Fin h ↪ σ => f i = c₀ ∧ f j = d₀).card :=
      Finset.card_pos.mpr ⟨f₀, by simp [hc₀, hd₀]⟩
    exact_mod_cast this.ne'
  rw [share_of_card (E := fun f : Fin h ↪ σ => G (f i) ∧ G (f j))
      (s := Finset.univ.filter fun f : Fin h ↪ σ => f i ∈ Finset.univ.filter G ∧ f j ∈ Finset.univ.filter G) (by simp),
    share_of_card (E := G) (s := Finset.univ.filter G) (by simp), t2, t1]
  push_cast
  rw [mul_div_mul_right _ _ hK]
  have off : ∀ s : Finset σ, ((s.offDiag.card : ℕ) : ℝ) = s.card * (s.card - 1) := by
    intro s
    rw [Finset.offDiag_card]
    have : s.card ≤ s.card * s.card := Nat.le_mul_self _
    push_cast [this]
    ring
  rw [off, off, Finset.card_univ]
  have h1 : (Fintype.card σ : ℝ) ≠ 0 := by
    have : Fintype.card σ ≠ 0 := by omega
    exact_mod_cast this
  have h2 : (Fintype.card σ : ℝ) - 1 ≠ 0 := by
    have : (2 : ℝ) ≤ Fintype.card σ := by exact_mod_cast hn
    intro h
    linarith
  field_simp

/-- The variance of the share of the good values: less than for independent draws. -/
theorem variance_places_embedding {h : Nat} (hh : 0 < h) (hc : h ≤ Fintype.card σ) (hn : 2 ≤ Fintype.card σ) (G : σ → Prop)
    [DecidablePred G] :
    average (fun f : Fin h ↪ σ => ((∑ i, if G (f i) then (1 : ℝ) else 0) / h - share G) ^ 2) =
      share G * (1 - share G) / h * ((Fintype.card σ - h) / (Fintype.card σ - 1)) := by
  classical
  have hp : (h : ℝ) ≠ 0 := by exact_mod_cast hh.ne'
  have hne : Nonempty (Fin h ↪ σ) := by
    rw [Function.Embedding.nonempty_iff_card_le]
    simpa using hc
  have h2 : (Fintype.card σ : ℝ) - 1 ≠ 0 := by
    have : (2 : ℝ) ≤ Fintype.card σ := by exact_mod_cast hn
    intro h
    linarith
  have e : ∀ f : Fin h ↪ σ, ((∑ i, if G (f i) then (1 : ℝ) else 0) / h - share G) ^ 2 =
      (∑ i : Fin h, ∑ j : Fin h, if G (f i) ∧ G (f j) then (1 : ℝ) else 0) / (h : ℝ) ^ 2 +
      ((-2 * share G) * ((∑ i, if G (f i) then (1 : ℝ) else 0) / h) + share G ^ 2) := by
    intro f
    have : (∑ i : Fin h, ∑ j : Fin h, if G (f i) ∧ G (f j) then (1 : ℝ) else 0) =
        (∑ i, if G (f i) then (1 : ℝ) else 0) * (∑ i, if G (f i) then (1 : ℝ) else 0) := by
      rw [Finset.sum_mul_sum]
      refine Finset.sum_congr rfl fun i _ => Finset.sum_congr rfl fun j _ => ?_
      by_cases h1 : G (f i) <;> by_cases h2 : G (f j) <;> simp [h1, h2]
    rw [this]
    field_simp
    ring
  have two : ∀ i j : Fin h, average (fun f : Fin h ↪ σ => if G (f i) ∧ G (f j) then (1 : ℝ) else 0) =
      share G * (Fintype.card σ * share G - 1) / (Fintype.card σ - 1) +
        if i = j then share G - share G * (Fintype.card σ * share G - 1) / (Fintype.card σ - 1) else 0 := by
    intro i j
    by_cases hij : i = j
    · subst hij
      rw [if_pos rfl]
      have : average (fun f : Fin h ↪ σ => if G (f i) ∧ G (f i) then (1 : ℝ) else 0) = share G := by
        rw [← share_place_embedding hc i G, ← average_indicator]
        congr!
        simp
      rw [this]
      ring
    · rw [if_neg hij, add_zero, ← share_places_embedding hc hij G, ← average_indicator]
      congr!
  simp only [e]
  rw [average_add, average_add, average_mul, average_places_embedding hh hc, average_const, average_div, average_sum]
  simp only [average_sum, two, Finset.sum_add_distrib, Finset.sum_const, Finset.card_univ, Fintype.card_fin, nsmul_eq_mul, Finset.sum_ite_eq,
    Finset.mem_univ, if_true]
  field_simp
  ring

end Fog.Spec
