import Verif.Props.SuperMinhashFloat
import Verif.Props.Thresholds
import Mathlib.Tactic.CongrExclamation

/-!
# C140: the chance that the SuperMinHash signature in double precision is not the exact one

A product may be rounded up to the next integer as well as a sum. Both are rare, and the mean of the similarities in double precision is
near the exact one.
-/

namespace Fog.Props

open Fog.Spec Fog.SuperMinhashFloat Finset
open Fog.LeastRank (average_sub average_le)

variable {τ : Type} {fl : ℝ → ℝ}

/-! ### Which products are rounded up -/

/-- The product of `k / 2 ** 53` by `n` is so close to the integer `i` that it may be rounded up to it. -/
def NearInteger (n k i : Nat) : Prop := k * n < i * 2 ^ 53 ∧ i * 2 ^ 53 < k * n + i

theorem floor_product (hfl : IsRounding fl) {k n : Nat} (hk : k < 2 ^ 53) (hn : 1 ≤ n) (hn' : n ≤ 2 ^ 53)
    (h : ∀ i, 1 ≤ i → i < n → ¬ NearInteger n k i) : ⌊fl ((k : ℝ) / 2 ^ 53 * n)⌋ = ⌊(k : ℝ) / 2 ^ 53 * n⌋ := by
  have hp : (0 : ℝ) < 2 ^ 53 := by positivity
  have hx0 : (0 : ℝ) ≤ (k : ℝ) / 2 ^ 53 * n := by positivity
  have hn1 : (1 : ℝ) ≤ n := by exact_mod_cast hn
  have hlt := rounded_product_lt hfl (r := (k : ℝ) / 2 ^ 53) ⟨k, hk, rfl⟩ hn1
  obtain ⟨f, hf⟩ := Int.eq_ofNat_of_zero_le (Int.floor_nonneg.mpr hx0)
  have h1 : (f : ℝ) ≤ (k : ℝ) / 2 ^ 53 * n := by
    have := Int.floor_le ((k : ℝ) / 2 ^ 53 * n)
    rw [hf] at this
    exact_mod_cast this
  have h2 : (k : ℝ) / 2 ^ 53 * n < f + 1 := by
    have := Int.lt_floor_add_one ((k : ℝ) / 2 ^ 53 * n)
    rw [hf] at this
    exact_mod_cast this
  have hkn : (k : ℝ) / 2 ^ 53 < 1 := by
    rw [div_lt_one hp]
    exact_mod_cast hk
  have hfn : f < n := by
    have : (f : ℝ) < n := lt_of_le_of_lt h1 (by nlinarith)
    exact_mod_cast this
  rw [hf, Int.floor_eq_iff]
  have h3 := hfl.mono h1
  rw [hfl.nat (by omega)] at h3
  refine ⟨by exact_mod_cast h3, ?_⟩
  push_cast
  by_contra hc
  rw [not_lt] at hc
  have hi : f + 1 < n := by
    have : ((f + 1 : Nat) : ℝ) < n := by push_cast; linarith
    exact_mod_cast this
  apply h (f + 1) (by omega) hi
  have e1 : (k : ℝ) / 2 ^ 53 * n * 2 ^ 53 = k * n := by field_simp
  constructor
  · have : (k : ℝ) * n < (f + 1) * 2 ^ 53 := by
      rw [← e1]
      exact mul_lt_mul_of_pos_right h2 hp
    exact_mod_cast this
  · rcases lt_or_ge ((k : ℝ) / 2 ^ 53 * n) ((2 : ℝ) ^ (-1022 : ℤ)) with h4 | h4
    · exfalso
      have h5 := hfl.mono h4.le
      rw [hfl.of_double (isDouble_zpow (by norm_num))] at h5
      have h6 : (2 : ℝ) ^ (-1022 : ℤ) < 1 := zpow_lt_one_of_neg₀ (by norm_num) (by norm_num)
      have : (0 : ℝ) ≤ f := Nat.cast_nonneg f
      linarith
    · have h5 := (abs_le.mp (hfl.relative h4)).2
      have h6 : ((f : ℝ) + 1) < (k : ℝ) / 2 ^ 53 * n + (f + 1) / 2 ^ 53 := by
        have : (k : ℝ) / 2 ^ 53 * n / 2 ^ 53 < (f + 1) / 2 ^ 53 := div_lt_div_of_pos_right h2 hp
        linarith
      have h7 : ((f : ℝ) + 1) * 2 ^ 53 < k * n + (f + 1) := by
        have := mul_lt_mul_of_pos_right h6 hp
        rw [add_mul, add_mul, e1, div_mul_cancel₀ _ hp.ne'] at this
        linarith
      exact_mod_cast h7

theorem share_mono {Ω : Type _} [Fintype Ω] {E F : Ω → Prop} (h : ∀ o, E o → F o) : share E ≤ share F := by
  classical
  unfold share
  apply div_le_div_of_nonneg_right _ (Nat.cast_nonneg _)
  norm_cast
  refine Finset.card_le_card fun g => ?_
  simp only [mem_filter, mem_univ, true_and]
  exact h g

theorem share_or_le {Ω : Type _} [Fintype Ω] (E F : Ω → Prop) : share (fun o => E o ∨ F o) ≤ share E + share F := by
  refine le_trans (share_mono fun o h => ?_) ((share_some_le [true, false] (fun i o => if i then E o else F o)
    (fun i => if i then share E else share F) ?_).trans (le_of_eq (by simp)))
  · rcases h with h | h
    · exact ⟨true, by simp, by simpa using h⟩
    · exact ⟨false, by simp, by simpa using h⟩
  · intro i _
    cases i <;> simp

theorem share_near (N n : Nat) (hn : 1 ≤ n) :
    share (fun k : Fin N => ∃ i, 1 ≤ i ∧ i < n ∧ k.val * n < i * N ∧ i * N < k.val * n + i) ≤ ((n : ℝ) - 1) / N := by
  classical
  rw [share_of_card (s := univ.filter fun k : Fin N => ∃ i, 1 ≤ i ∧ i < n ∧ k.val * n < i * N ∧ i * N < k.val * n + i) (by simp),
    Fintype.card_fin]
  apply div_le_div_of_nonneg_right _ (Nat.cast_nonneg N)
  set s := univ.filter fun k : Fin N => ∃ i, 1 ≤ i ∧ i < n ∧ k.val * n < i * N ∧ i * N < k.val * n + i
  have hs : ∀ k ∈ s, ∃ i, 1 ≤ i ∧ i < n ∧ k.val * n < i * N ∧ i * N < k.val * n + i := by
    intro k hk
    simpa [s] using hk
  have : s.card ≤ (Finset.Ico 1 n).card := by
    refine Finset.card_le_card_of_injOn (fun k => if h : k ∈ s then (hs k h).choose else 0) ?_ ?_
    · intro k hk
      have hk' : k ∈ s := hk
      obtain ⟨h1, h2, _⟩ := (hs k hk').choose_spec
      simp only [dif_pos hk', coe_Ico, Set.mem_Ico]
      exact ⟨h1, h2⟩
    · intro k hk k' hk' he
      have hk1 : k ∈ s := hk
      have hk2 : k' ∈ s := hk'
      simp only [dif_pos hk1, dif_pos hk2] at he
      obtain ⟨_, h2, h3, h4⟩ := (hs k hk1).choose_spec
      obtain ⟨_, h6, h7, h8⟩ := (hs k' hk2).choose_spec
      rw [← he] at h6 h7 h8
      generalize (hs k hk1).choose = i at h2 h3 h4 h6 h7 h8
      apply Fin.ext
      rcases lt_trichotomy k.val k'.val with h | h | h
      · have : (k.val + 1) * n ≤ k'.val * n := Nat.mul_le_mul_right n h
        rw [Nat.add_mul] at this
        omega
      · exact h
      · have : (k'.val + 1) * n ≤ k.val * n := Nat.mul_le_mul_right n h
        rw [Nat.add_mul] at this
        omega
  rw [Nat.card_Ico] at this
  have h2 : ((n - 1 : Nat) : ℝ) = (n : ℝ) - 1 := by rw [Nat.cast_sub hn, Nat.cast_one]
  rw [← h2]
  exact_mod_cast this

/-! ### The chance that the signature is not the exact one -/

/-- The number `k / 2 ** 53`, drawn at turn `j`, may be rounded up to an integer. -/
def Unlucky (m j k : Nat) : Prop := 2 ^ 53 ≤ k + j ∨ ∃ i, 1 ≤ i ∧ i < m - j ∧ NearInteger (m - j) k i

/-- Without unlucky numbers, the signature is the exact one. -/
theorem super_minhash_float_exact (hfl : IsRounding fl) {ord : List Nat → List Nat} (ho : LawfulOrder ord) (hash : τ → Nat) {T : Nat}
    {m : Nat} (hm : 0 < m) (hm' : m ≤ 2 ^ 53) (sequence : List τ) (hT : ∀ x ∈ sequence, hash x < T) (g : Fin T → Fin m → Fin (2 ^ 53))
    (hg : ∀ x ∈ sequence, ∀ j < m, ∀ h : hash x < T ∧ j < m, ¬ Unlucky m j (g ⟨hash x, h.1⟩ ⟨j, h.2⟩).val) :
    SuperMinhashFloat.createSignature fl ord hash (drawnNumbers g) m sequence = SuperMinhash.createSignature ord hash (seeded g) m sequence := by
  have hval : ∀ x ∈ sequence, ∀ j (hj : j < m) (h : hash x < T), drawnNumbers g (hash x) j = ((g ⟨hash x, h⟩ ⟨j, hj⟩).val : ℝ) / 2 ^ 53 := by
    intro x _ j hj h
    unfold drawnNumbers
    rw [dif_pos ⟨h, hj⟩]
  obtain ⟨s, es, hs⟩ := super_minhash_float_partial hfl ho hash (drawnNumbers_random g) hm hm' sequence (by
    intro x hx j hj
    rw [hval x hx j hj (hT x hx)]
    apply sum_rounds_up hfl
    by_contra hc
    exact hg x hx j hj ⟨hT x hx, hj⟩ (.inl (by omega)))
  obtain ⟨t, et, ht⟩ := super_minhash_eq ho hash (seeded_lawful g) hm sequence
  rw [es, et]
  congr 1
  refine rank_signature_unique (fun _ => Iff.rfl) hs (rank_congr ?_ (rank_of_super (seeded_lawful g) ht))
  intro token htok j hj
  obtain ⟨x, hx, rfl⟩ := List.mem_map.mp htok
  have hx' := hT x hx
  unfold Spec.drawn roundedDraw
  congr 2
  rw [hval x hx j hj hx']
  have e1 : seeded g (hash x) j = ((g ⟨hash x, hx'⟩ ⟨j, hj⟩).val : ℚ) / 2 ^ 53 := by
    unfold seeded numbers
    rw [dif_pos hx', dif_pos hj]
    norm_num
  have e2 : (m : ℝ) - j = ((m - j : Nat) : ℝ) := by rw [Nat.cast_sub hj.le]
  have e3 : (m : ℚ) - j = ((m - j : Nat) : ℚ) := by rw [Nat.cast_sub hj.le]
  rw [e1, e2, e3, floor_product hfl (Fin.isLt _) (by omega) (by omega)
    (fun i h1 h2 h3 => hg x hx j hj ⟨hx', hj⟩ (.inr ⟨i, h1, h2, h3⟩)), ← Rat.floor_cast (α := ℝ)]
  push_cast
  rfl

theorem share_unlucky {m j : Nat} (hj : j < m) : share (fun k : Fin (2 ^ 53) => Unlucky m j k.val) ≤ ((m : ℝ) - 1) / 2 ^ 53 := by
  refine (share_or_le _ _).trans ?_
  have h1 := share_large (2 ^ 53) j
  have h2 := share_near (2 ^ 53) (m - j) (by omega)
  rw [show (((2 ^ 53 : Nat)) : ℝ) = 2 ^ 53 by norm_cast] at h1 h2
  refine (add_le_add h1 h2).trans (le_of_eq ?_)
  rw [Nat.cast_sub hj.le]
  ring

theorem share_unlucky_some (hash : τ → Nat) (T : Nat) {m : Nat} (sequence : List τ) (hT : ∀ x ∈ sequence, hash x < T) :
    share (fun g : Fin T → Fin m → Fin (2 ^ 53) => ∃ x ∈ sequence, ∃ j ∈ List.range m, ∃ h : hash x < T ∧ j < m,
      Unlucky m j (g ⟨hash x, h.1⟩ ⟨j, h.2⟩).val) ≤ (sequence.length : ℝ) * (m * (m - 1) / 2 ^ 53) := by
  have hne : Nonempty (Fin (2 ^ 53)) := ⟨⟨0, by norm_num⟩⟩
  refine (share_some_le sequence _ (fun _ => (m * (m - 1) / 2 ^ 53 : ℝ)) ?_).trans (le_of_eq (by simp [List.map_const', nsmul_eq_mul]))
  intro x hx
  refine (share_some_le (List.range m) _ (fun _ => ((m : ℝ) - 1) / 2 ^ 53) ?_).trans (le_of_eq (by
    simp [List.map_const', nsmul_eq_mul, mul_div_assoc]))
  intro j hj
  rw [List.mem_range] at hj
  refine le_trans (le_of_eq ?_) (share_unlucky hj)
  rw [share_congr (F := fun g : Fin T → Fin m → Fin (2 ^ 53) =>
    (fun f : Fin m → Fin (2 ^ 53) => Unlucky m j (f ⟨j, hj⟩).val) (g ⟨hash x, hT x hx⟩))]
  · rw [share_place (⟨hash x, hT x hx⟩ : Fin T) (fun f : Fin m → Fin (2 ^ 53) => Unlucky m j (f ⟨j, hj⟩).val),
      share_place (⟨j, hj⟩ : Fin m) (fun k : Fin (2 ^ 53) => Unlucky m j k.val)]
  · exact fun g => ⟨fun ⟨_, h⟩ => h, fun h => ⟨⟨hT x hx, hj⟩, h⟩⟩

/-- **C140**: over all the generators, the share of those for which the signature in double precision is not the exact one is at most
`n * m * (m - 1) / 2 ** 53`, for a sequence of length `n`. -/
theorem super_minhash_float_same_chance (hfl : IsRounding fl) {ord : List Nat → List Nat} (ho : LawfulOrder ord) (hash : τ → Nat) (T : Nat)
    {m : Nat} (hm : 0 < m) (hm' : m ≤ 2 ^ 53) (sequence : List τ) (hT : ∀ x ∈ sequence, hash x < T) :
    share (fun g : Fin T → Fin m → Fin (2 ^ 53) => SuperMinhashFloat.createSignature fl ord hash (drawnNumbers g) m sequence ≠
      SuperMinhash.createSignature ord hash (seeded g) m sequence) ≤ (sequence.length : ℝ) * (m * (m - 1) / 2 ^ 53) := by
  refine (share_mono fun g hg => ?_).trans (share_unlucky_some hash T sequence hT)
  by_contra hc
  push Not at hc
  exact hg (super_minhash_float_exact hfl ho hash hm hm' sequence hT g fun x hx j hj h => hc x hx j (List.mem_range.mpr hj) h)

/-- `minhash_similarity` of the two signatures, in double precision. -/
noncomputable def superSimilarityFloat {T m : Nat} (fl : ℝ → ℝ) (ord : List Nat → List Nat) (hash : τ → Nat) (x y : List τ)
    (g : Fin T → Fin m → Fin (2 ^ 53)) : Py ℝ := do
  let a ← SuperMinhashFloat.createSignature fl ord hash (drawnNumbers g) m x
  let b ← SuperMinhashFloat.createSignature fl ord hash (drawnNumbers g) m y
  LshFloat.minhashSimilarity fl a b

open Minhash in
theorem similarity_near (hfl : IsRounding fl) {A B : List Int} (h : A.length = B.length) (hne : A ≠ []) :
    ∃ (s : ℚ) (s' : ℝ), minhashSimilarity A B = .ok s ∧ LshFloat.minhashSimilarity fl A B = .ok s' ∧ 0 ≤ s ∧ s ≤ 1 ∧ 0 ≤ s' ∧ s' ≤ 1 ∧
      |s' - s| ≤ 1 / 2 ^ 53 := by
  have hl : 0 < A.length := List.length_pos_iff.mpr hne
  obtain ⟨s, h1, _, h2, h3, h4, _⟩ := minhash_similarity_eq h hne
  have hd : (A.zip B).countP (fun p => p.1 ≠ p.2) ≤ A.length := by
    refine List.countP_le_length.trans ?_
    rw [List.length_zip]
    omega
  have hlr : (0 : ℝ) < A.length := by exact_mod_cast hl
  have hs : s = ((A.length - (A.zip B).countP (fun p => p.1 ≠ p.2) : ℕ) : ℚ) / A.length := by
    have h3 := h1
    simp only [minhashSimilarity, similarity_loop A B 0 h, if_neg hl.ne', Nat.zero_add] at h3
    injection h3 with h3
    have hlq : (A.length : ℚ) ≠ 0 := by exact_mod_cast hl.ne'
    rw [← h3, Nat.cast_sub hd, sub_div, div_self hlq]
  have hq0 : 0 ≤ fl (((A.zip B).countP (fun p => p.1 ≠ p.2) : ℝ) / A.length) := hfl.nonneg (by positivity)
  have hq1 : fl (((A.zip B).countP (fun p => p.1 ≠ p.2) : ℝ) / A.length) ≤ 1 := by
    have := hfl.mono (show ((A.zip B).countP (fun p => p.1 ≠ p.2) : ℝ) / A.length ≤ 1 by
      rw [div_le_one hlr]
      exact_mod_cast hd)
    rwa [hfl.one] at this
  refine ⟨s, fl (1 - fl (((A.zip B).countP (fun p => p.1 ≠ p.2) : ℝ) / A.length)), h1, ?_, h3, h4, hfl.nonneg (by linarith), ?_, ?_⟩
  · simp only [LshFloat.minhashSimilarity, similarity_loop A B 0 h, if_neg hl.ne', Nat.zero_add]
  · have := hfl.mono (show 1 - fl (((A.zip B).countP (fun p => p.1 ≠ p.2) : ℝ) / A.length) ≤ 1 by linarith)
    rwa [hfl.one] at this
  · have := complement_near hfl hl hd
    rw [hs]
    push_cast
    exact this

/-- **C140**: nothing is raised, and the mean over all the generators of the similarity in double precision is near the exact one. -/
theorem super_minhash_float_average (hfl : IsRounding fl) {ord : List Nat → List Nat} (ho : LawfulOrder ord) (hash : τ → Nat) {T m : Nat}
    (hm : 0 < m) (hm' : m ≤ 2 ^ 53) (x y : List τ) (hx : ∀ c ∈ x, hash c < T) (hy : ∀ c ∈ y, hash c < T) :
    ∃ (X : (Fin T → Fin m → Fin (2 ^ 53)) → ℚ) (Y : (Fin T → Fin m → Fin (2 ^ 53)) → ℝ),
      (∀ g, superSimilarity ord hash x y g = .ok (X g)) ∧ (∀ g, superSimilarityFloat fl ord hash x y g = .ok (Y g)) ∧
      |average Y - average (fun g => (X g : ℝ))| ≤ ((x.length : ℝ) + y.length) * (m * (m - 1) / 2 ^ 53) + 1 / 2 ^ 53 := by
  classical
  have hne : Nonempty (Fin (2 ^ 53)) := ⟨⟨0, by norm_num⟩⟩
  have main : ∀ g : Fin T → Fin m → Fin (2 ^ 53), ∃ (s : ℚ) (s' : ℝ), superSimilarity ord hash x y g = .ok s ∧
      superSimilarityFloat fl ord hash x y g = .ok s' ∧ |s' - s| ≤ 1 ∧
      ((∀ l ∈ [x, y], SuperMinhashFloat.createSignature fl ord hash (drawnNumbers g) m l = SuperMinhash.createSignature ord hash (seeded g) m l) →
        |s' - s| ≤ 1 / 2 ^ 53) := by
    intro g
    obtain ⟨a, e1, h1⟩ := super_minhash_eq ho hash (seeded_lawful g) hm x
    obtain ⟨b, e2, h2⟩ := super_minhash_eq ho hash (seeded_lawful g) hm y
    obtain ⟨a', e3, h3, _⟩ := super_minhash_float_total hfl ord hash (drawnNumbers_random g) hm x
    obtain ⟨b', e4, h4, _⟩ := super_minhash_float_total hfl ord hash (drawnNumbers_random g) hm y
    have hnil : ∀ l : List Int, l.length = m → l ≠ [] := by
      rintro l hl rfl
      simp at hl
      omega
    obtain ⟨s, t, f1, f2, p1, p2, p3, p4, p5⟩ := similarity_near hfl (A := a) (B := b) (by rw [h1.1, h2.1]) (hnil a h1.1)
    obtain ⟨s', t', f1', f2', q1, q2, q3, q4, q5⟩ := similarity_near hfl (A := a') (B := b') (by rw [h3, h4]) (hnil a' h3)
    refine ⟨s, t', ?_, ?_, ?_, ?_⟩
    · unfold superSimilarity
      simp only [e1, e2, bind, Except.bind, f1]
    · unfold superSimilarityFloat
      simp only [e3, e4, bind, Except.bind, f2']
    · have p1' : (0 : ℝ) ≤ s := by exact_mod_cast p1
      have p2' : (s : ℝ) ≤ 1 := by exact_mod_cast p2
      rw [abs_le]
      constructor <;> linarith
    · intro hsame
      have ha : a' = a := by
        have := hsame x (by simp)
        rw [e1, e3] at this
        exact Except.ok.inj this
      have hb : b' = b := by
        have := hsame y (by simp)
        rw [e2, e4] at this
        exact Except.ok.inj this
      rw [ha, hb, f1] at f1'
      rw [Except.ok.inj f1']
      exact q5
  choose X Y hX hY hle hnear using main
  refine ⟨X, Y, hX, hY, ?_⟩
  let bad : (Fin T → Fin m → Fin (2 ^ 53)) → Prop := fun g => ¬ ∀ l ∈ [x, y],
    SuperMinhashFloat.createSignature fl ord hash (drawnNumbers g) m l = SuperMinhash.createSignature ord hash (seeded g) m l
  have hbad : share bad ≤ ((x.length : ℝ) + y.length) * (m * (m - 1) / 2 ^ 53) := by
    have h1 := super_minhash_float_same_chance hfl ho hash T hm hm' x hx
    have h2 := super_minhash_float_same_chance hfl ho hash T hm hm' y hy
    rw [add_mul]
    refine le_trans (share_mono fun g hg => ?_) ((share_or_le _ _).trans (add_le_add h1 h2))
    by_contra hc
    push Not at hc
    apply hg
    intro l hl
    simp only [List.mem_cons, List.not_mem_nil, or_false] at hl
    rcases hl with rfl | rfl
    · exact hc.1
    · exact hc.2
  have hb : ∀ g, |Y g - X g| ≤ (if bad g then (1 : ℝ) else 0) - -(1 / 2 ^ 53) := by
    intro g
    by_cases hg : bad g
    · rw [if_pos hg]
      have := hle g
      have : (0 : ℝ) ≤ 1 / 2 ^ 53 := by positivity
      linarith
    · rw [if_neg hg]
      have := hnear g (not_not.mp hg)
      linarith
  have hav : average (fun g => (if bad g then (1 : ℝ) else 0) - -(1 / 2 ^ 53)) ≤
      ((x.length : ℝ) + y.length) * (m * (m - 1) / 2 ^ 53) + 1 / 2 ^ 53 := by
    have hi : average (fun g => if bad g then (1 : ℝ) else 0) = share bad := by
      rw [← average_indicator]
      congr!
    rw [average_sub, hi]
    have : average (fun _ : Fin T → Fin m → Fin (2 ^ 53) => -(1 / 2 ^ 53 : ℝ)) = -(1 / 2 ^ 53) := by
      unfold average
      rw [Finset.sum_const, nsmul_eq_mul, Finset.card_univ, mul_div_assoc, mul_div_cancel₀]
      exact_mod_cast Fintype.card_ne_zero
    rw [this]
    linarith
  rw [← average_sub, abs_le]
  constructor
  · have h1 := average_le (X := fun g => (X g : ℝ) - Y g) (fun g => (le_abs_self _).trans ((abs_sub_comm _ _).le.trans (hb g)))
    rw [average_sub] at h1 ⊢
    linarith
  · exact (average_le fun g => (le_abs_self _).trans (hb g)).trans hav

/-- **C140**: with the default `h=256`, two sequences of a thousand tokens without any in common have in double precision too a mean
similarity of more than 19 / 20. -/
theorem super_minhash_float_disjoint_similar (hfl : IsRounding fl) {ord : List Nat → List Nat} (ho : LawfulOrder ord) (hash : τ → Nat) {T : Nat}
    (x y : List τ) (hx : ∀ c ∈ x, hash c < T) (hy : ∀ c ∈ y, hash c < T) (hxn : 1000 ≤ (x.map hash).toFinset.card)
    (hyn : 1000 ≤ (y.map hash).toFinset.card) (hlen : x.length + y.length ≤ 2 ^ 30) :
    ∃ Y : (Fin T → Fin 256 → Fin (2 ^ 53)) → ℝ, (∀ g, superSimilarityFloat fl ord hash x y g = .ok (Y g)) ∧ 19 / 20 < average Y := by
  obtain ⟨X, Y, hX, hY, hav⟩ := super_minhash_float_average hfl ho hash (m := 256) (by decide) (by norm_num) x y hx hy
  obtain ⟨X', hX', hlt⟩ := super_minhash_disjoint_similar ho hash x y hx hy hxn hyn
  have e : X' = X := by
    funext g
    have := hX' g
    rw [hX g] at this
    exact (Except.ok.inj this).symm
  rw [e] at hlt
  refine ⟨Y, hY, ?_⟩
  have h1 := (abs_le.mp hav).1
  have h2 : ((x.length : ℝ) + y.length) ≤ 2 ^ 30 := by exact_mod_cast hlen
  have h3 : ((x.length : ℝ) + y.length) * (((256 : ℕ) : ℝ) * ((256 : ℕ) - 1) / 2 ^ 53) ≤ 2 ^ 30 * (((256 : ℕ) : ℝ) * ((256 : ℕ) - 1) / 2 ^ 53) :=
    mul_le_mul_of_nonneg_right h2 (by norm_num)
  have h4 : (2 : ℝ) ^ 30 * (((256 : ℕ) : ℝ) * ((256 : ℕ) - 1) / 2 ^ 53) + 1 / 2 ^ 53 < 1 / 100 := by norm_num
  linarith

example (hfl : IsRounding fl) : ∃ Y : (Fin 2000 → Fin 256 → Fin (2 ^ 53)) → ℝ,
    (∀ g, superSimilarityFloat fl id (fun n : Nat => n) (List.range 1000) (List.range' 1000 1000) g = .ok (Y g)) ∧ 19 / 20 < average Y := by
  apply super_minhash_float_disjoint_similar hfl (fun l => List.Perm.refl l)
  · intro c hc; rw [List.mem_range] at hc; omega
  · intro c hc; rw [List.mem_range'_1] at hc; omega
  · rw [List.map_id', List.toFinset_card_of_nodup List.nodup_range]; simp
  · rw [List.map_id', List.toFinset_card_of_nodup List.nodup_range']; simp
  · simp

/-- With 256 integers and a thousand tokens, less than once in `2 ** 27` generators. -/
example (hfl : IsRounding fl) (sequence : List Nat) (hl : sequence.length = 1000) (hT : ∀ x ∈ sequence, x < 2 ^ 32) :
    share (fun g : Fin (2 ^ 32) → Fin 256 → Fin (2 ^ 53) =>
      SuperMinhashFloat.createSignature fl List.reverse (fun n : Nat => n) (drawnNumbers g) 256 sequence ≠
        SuperMinhash.createSignature List.reverse (fun n : Nat => n) (seeded g) 256 sequence) ≤ 1 / 2 ^ 27 := by
  refine (super_minhash_float_same_chance hfl List.reverse_perm _ (2 ^ 32) (by decide) (by norm_num) sequence hT).trans ?_
  rw [hl]
  norm_num

end Fog.Props
