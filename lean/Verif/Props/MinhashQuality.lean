import Verif.Props.MinhashBias
import Mathlib.Data.Nat.Prime.Int

/-!
# C114: how far the mean of `minhash_similarity` may be from the Jaccard similarity

The hash functions are affine maps modulo a prime, drawn among nearly all of them: two tokens have nearly independent hashes, which is
enough for each token of the union to be the least one at least a fourth as often as it should.
-/

namespace Fog.Props

open Minhash Spec

variable {τ : Type _}

/-- The coefficients drawn by the constructor of `MinHash` (minhash.py l. 79-85). -/
@[irreducible] def allCoefficients : Finset (Nat × Nat) := Finset.Icc 1 maxUint32 ×ˢ Finset.Icc 0 maxUint32

theorem mem_allCoefficients (c : Nat × Nat) : c ∈ allCoefficients ↔ Drawn c := by
  unfold allCoefficients Drawn
  rw [Finset.mem_product, Finset.mem_Icc, Finset.mem_Icc, show maxUint32 = 2 ^ 32 - 1 from rfl]
  omega

theorem card_allCoefficients : (allCoefficients.card : ℝ) = 4294967295 * 4294967296 := by
  unfold allCoefficients
  rw [Finset.card_product, Nat.card_Icc, Nat.card_Icc]
  norm_num [maxUint32]

/-! ### Counting coefficients -/

theorem count_below {p M t c : Nat} (ht : t ≤ p) (hM : M < p) :
    t ≤ ((Finset.Icc 0 M).filter fun b => (c + b) % p < t).card + (p - 1 - M) := by
  classical
  have hp : 0 < p := by omega
  have key : (Finset.range t).card ≤ ((Finset.Icc 0 M).filter (fun b => (c + b) % p < t) ∪ Finset.Ioo M p).card := by
    refine Finset.card_le_card_of_injOn (fun v => (v + (p - c % p)) % p) ?_ ?_
    · intro v hv
      rw [Finset.coe_range, Set.mem_Iio] at hv
      have hc := Nat.mod_lt c hp
      have h1 : (c + (v + (p - c % p)) % p) % p = v := by
        rw [Nat.add_mod, Nat.mod_mod, ← Nat.add_mod, show c + (v + (p - c % p)) = v + (c - c % p) + p by
          have := Nat.mod_le c p; omega, Nat.add_mod_right]
        have h2 : c - c % p = p * (c / p) := by
          have := Nat.div_add_mod c p; omega
        rw [h2, Nat.add_mul_mod_self_left, Nat.mod_eq_of_lt (by omega)]
      have h3 := Nat.mod_lt (v + (p - c % p)) hp
      simp only [Finset.coe_union, Finset.coe_filter, Finset.mem_Icc, Finset.coe_Ioo, Set.mem_union, Set.mem_setOf_eq, Set.mem_Ioo]
      by_cases h : (v + (p - c % p)) % p ≤ M
      · exact .inl ⟨⟨Nat.zero_le _, h⟩, by rw [h1]; exact hv⟩
      · exact .inr ⟨by omega, h3⟩
    · intro v hv w hw h
      rw [Finset.coe_range, Set.mem_Iio] at hv hw
      have h1 : v ≡ w [MOD p] := Nat.ModEq.add_right_cancel' _ h
      have h2 : v % p = w % p := h1
      rwa [Nat.mod_eq_of_lt (by omega), Nat.mod_eq_of_lt (by omega)] at h2
  rw [Finset.card_range] at key
  refine key.trans ((Finset.card_union_le _ _).trans ?_)
  rw [Nat.card_Ioo]
  omega

/-- Two hashes determine the coefficients. -/
theorem coefficients_inj {c d : Nat × Nat} (hc : c ∈ allCoefficients) (hd : d ∈ allCoefficients) {x y : Nat} (hx : x < 2 ^ 32) (hy : y < 2 ^ 32)
    (hxy : x ≠ y) (h1 : universalHash c.1 c.2 x = universalHash d.1 d.2 x) (h2 : universalHash c.1 c.2 y = universalHash d.1 d.2 y) : c = d := by
  rw [mem_allCoefficients] at hc hd
  unfold Drawn at hc hd
  unfold universalHash at h1 h2
  have h1' : ((c.1 : ℤ) * x + c.2) ≡ ((d.1 : ℤ) * x + d.2) [ZMOD 4294967311] := by
    have := Int.natCast_modEq_iff.mpr (show c.1 * x + c.2 ≡ d.1 * x + d.2 [MOD 4294967311] from h1)
    exact_mod_cast this
  have h2' : ((c.1 : ℤ) * y + c.2) ≡ ((d.1 : ℤ) * y + d.2) [ZMOD 4294967311] := by
    have := Int.natCast_modEq_iff.mpr (show c.1 * y + c.2 ≡ d.1 * y + d.2 [MOD 4294967311] from h2)
    exact_mod_cast this
  have h3 := (h1'.sub h2').dvd
  have h4 : (4294967311 : ℤ) ∣ ((d.1 : ℤ) - c.1) * ((x : ℤ) - y) := by
    have e : (d.1 : ℤ) * x + d.2 - (d.1 * y + d.2) - (c.1 * x + c.2 - (c.1 * y + c.2)) = ((d.1 : ℤ) - c.1) * ((x : ℤ) - y) := by ring
    rwa [e] at h3
  have hpr : Prime (4294967311 : ℤ) := by
    have := Nat.prime_iff_prime_int.mp next_prime
    exact_mod_cast this
  have ha : c.1 = d.1 := by
    rcases hpr.dvd_or_dvd h4 with ⟨k, hk⟩ | ⟨k, hk⟩
    · have : k = 0 := by omega
      subst this
      omega
    · have : k = 0 := by omega
      subst this
      omega
  have hb : c.2 = d.2 := by
    rw [ha] at h1
    have h5 : c.2 ≡ d.2 [MOD 4294967311] := Nat.ModEq.add_left_cancel' _ h1
    have h6 : c.2 % 4294967311 = d.2 % 4294967311 := h5
    omega
  exact Prod.ext ha hb

open Classical in
/-- The coefficients for which the hash of `z` is below `t`, and it is the only one of `U` to be. -/
noncomputable def onlyBelow (U : Finset Nat) (t z : Nat) : Finset (Nat × Nat) :=
  allCoefficients.filter fun c => universalHash c.1 c.2 z < t ∧ ∀ y ∈ U, y ≠ z → t ≤ universalHash c.1 c.2 y

theorem onlyBelow_card {U : Finset Nat} (hU : ∀ x ∈ U, x < 2 ^ 32) {t z : Nat} (ht : t ≤ 2 ^ 32) (hz : z ∈ U) :
    maxUint32 * t ≤ (onlyBelow U t z).card + (U.card - 1) * (t * t) + maxUint32 * 15 := by
  classical
  have hF : maxUint32 * t ≤ (allCoefficients.filter fun c => universalHash c.1 c.2 z < t).card + maxUint32 * 15 := by
    unfold allCoefficients
    rw [card_filter_box]
    have h1 : ∀ a ∈ Finset.Icc 1 maxUint32, t ≤ ((Finset.Icc 0 maxUint32).filter fun b => universalHash a b z < t).card + 15 := by
      intro a _
      exact count_below (p := 4294967311) (M := maxUint32) (t := t) (c := a * z) (by omega) (by decide)
    have h2 := Finset.sum_le_sum h1
    rw [Finset.sum_add_distrib, Finset.sum_const, Finset.sum_const, Nat.card_Icc, smul_eq_mul, smul_eq_mul] at h2
    exact h2
  have hG : ∀ y ∈ U.erase z, (allCoefficients.filter fun c => universalHash c.1 c.2 z < t ∧ universalHash c.1 c.2 y < t).card ≤ t * t := by
    intro y hy
    have : (Finset.range t ×ˢ Finset.range t).card = t * t := by rw [Finset.card_product, Finset.card_range]
    rw [← this]
    refine Finset.card_le_card_of_injOn (fun c => (universalHash c.1 c.2 z, universalHash c.1 c.2 y)) ?_ ?_
    · intro c hc
      rw [Finset.coe_filter] at hc
      simp only [Finset.coe_product, Finset.coe_range, Set.mem_prod, Set.mem_Iio]
      exact hc.2
    · intro c hc d hd h
      rw [Finset.coe_filter] at hc hd
      simp only [Prod.mk.injEq] at h
      exact coefficients_inj hc.1 hd.1 (hU z hz) (hU y (Finset.mem_of_mem_erase hy)) (Finset.ne_of_mem_erase hy).symm h.1 h.2
  have hsub : (allCoefficients.filter fun c => universalHash c.1 c.2 z < t) ⊆ onlyBelow U t z ∪
      (U.erase z).biUnion fun y => allCoefficients.filter fun c => universalHash c.1 c.2 z < t ∧ universalHash c.1 c.2 y < t := by
    intro c hc
    rw [Finset.mem_filter] at hc
    rw [Finset.mem_union, Finset.mem_biUnion]
    by_cases h : ∀ y ∈ U, y ≠ z → t ≤ universalHash c.1 c.2 y
    · left
      unfold onlyBelow
      rw [Finset.mem_filter]
      exact ⟨hc.1, hc.2, h⟩
    · right
      push Not at h
      obtain ⟨y, h1, h2, h3⟩ := h
      exact ⟨y, Finset.mem_erase.mpr ⟨h2, h1⟩, Finset.mem_filter.mpr ⟨hc.1, hc.2, h3⟩⟩
  have h3 := (Finset.card_le_card hsub).trans (Finset.card_union_le _ _)
  have h4 := (Finset.card_biUnion_le (s := U.erase z)
    (t := fun y => allCoefficients.filter fun c => universalHash c.1 c.2 z < t ∧ universalHash c.1 c.2 y < t)).trans (Finset.sum_le_sum hG)
  rw [Finset.sum_const, Finset.card_erase_of_mem hz, smul_eq_mul] at h4
  omega

theorem onlyBelow_disjoint {U : Finset Nat} {t z z' : Nat} (hz' : z' ∈ U) (h : z ≠ z') : Disjoint (onlyBelow U t z) (onlyBelow U t z') := by
  classical
  rw [Finset.disjoint_left]
  intro c hc hc'
  unfold onlyBelow at hc hc'
  rw [Finset.mem_filter] at hc hc'
  have := hc.2.2 z' hz' h.symm
  have := hc'.2.1
  omega

/-- With a good threshold, each token is the only one below for more than a fourth of its share of the coefficients. -/
theorem onlyBelow_share {U : Finset Nat} (hU : ∀ x ∈ U, x < 2 ^ 32) (hcard : U.card ≤ 8000) {z : Nat} (hz : z ∈ U) :
    (4294967295 * 4294967296 : ℝ) ≤ 4 * U.card * (onlyBelow U (2 ^ 32 / (2 * U.card)) z).card := by
  have hn : 1 ≤ U.card := Finset.card_pos.mpr ⟨z, hz⟩
  obtain ⟨t, ht⟩ : ∃ t, t = 2 ^ 32 / (2 * U.card) := ⟨_, rfl⟩
  rw [← ht]
  have ht1 : 2 * U.card * t ≤ 2 ^ 32 := by rw [ht]; exact Nat.mul_div_le _ _
  have ht2 : 2 ^ 32 < 2 * U.card * (t + 1) := by
    rw [ht]
    have := Nat.lt_mul_div_succ (2 ^ 32) (show 0 < 2 * U.card by omega)
    exact this
  have ht3 : t ≤ 2 ^ 32 := by rw [ht]; exact Nat.div_le_self _ _
  have h := onlyBelow_card hU ht3 hz
  generalize (onlyBelow U t z).card = e at h ⊢
  generalize U.card = n at *
  have hn' : (1 : ℝ) ≤ n := by exact_mod_cast hn
  have hc' : (n : ℝ) ≤ 8000 := by exact_mod_cast hcard
  have h1 : (2 * n * t : ℝ) ≤ 2 ^ 32 := by exact_mod_cast ht1
  have h2 : (2 ^ 32 : ℝ) < 2 * n * (t + 1) := by exact_mod_cast ht2
  have h3 : (4294967295 * t : ℝ) ≤ e + (n - 1) * (t * t) + 4294967295 * 15 := by
    have h' : 4294967295 * t ≤ e + (n - 1) * (t * t) + 4294967295 * 15 := h
    have : ((4294967295 * t : Nat) : ℝ) ≤ ((e + (n - 1) * (t * t) + 4294967295 * 15 : Nat) : ℝ) := by exact_mod_cast h'
    rw [Nat.cast_add, Nat.cast_add, Nat.cast_mul, Nat.cast_mul (n - 1), Nat.cast_sub hn] at this
    push_cast at this
    linarith
  have ht0 : (0 : ℝ) ≤ t := Nat.cast_nonneg t
  have e0 : (0 : ℝ) ≤ e := Nat.cast_nonneg e
  -- 4 n e ≥ 2 * (2 n t) * (M - 1) - (n - 1) / n * (2 n t)² - 60 n (M - 1)
  obtain ⟨q, hq⟩ : ∃ q : ℝ, q = 2 * n * t := ⟨_, rfl⟩
  have h4 : n * (4 * n * e) ≥ 2 * n * q * 4294967295 - (n - 1) * q ^ 2 - 60 * n ^ 2 * 4294967295 := by
    rw [hq]
    nlinarith [mul_le_mul_of_nonneg_left h3 (show (0 : ℝ) ≤ 4 * n ^ 2 by positivity)]
  rw [← hq] at h1
  have h2' : (2 ^ 32 : ℝ) - 2 * n < q := by rw [hq]; linarith
  have h5 : n * (4 * n * (e : ℝ)) ≥ n * (4294967295 * 4294967296) := by
    have hmono : 2 * n * q * 4294967295 - (n - 1) * q ^ 2 ≥
        2 * n * (2 ^ 32 - 2 * n) * 4294967295 - (n - 1) * (2 ^ 32 - 2 * n : ℝ) ^ 2 := by
      have d1 : 0 ≤ q - (2 ^ 32 - 2 * n) := by linarith
      have d2 : 0 ≤ 2 * n * 4294967295 - (n - 1) * (q + (2 ^ 32 - 2 * n)) := by nlinarith
      nlinarith [mul_nonneg d1 d2]
    have hfin : 2 * n * (2 ^ 32 - 2 * n) * 4294967295 - (n - 1) * (2 ^ 32 - 2 * n : ℝ) ^ 2 - 60 * n ^ 2 * 4294967295 ≥
        n * (4294967295 * 4294967296) := by
      have hsq : (n : ℝ) ^ 2 ≤ 8000 ^ 2 := by nlinarith
      nlinarith
    linarith
  have hnp : (0 : ℝ) < n := by linarith
  exact le_of_mul_le_mul_left h5 hnp

/-! ### What is drawn and what agrees -/

theorem agree_of_onlyBelow {setOrd : List Nat → List Nat} (hso : LawfulOrder setOrd) {hash : τ → Nat} {A : List τ} {U : Finset Nat} {t z : Nat}
    (ht : t ≤ maxUint32) (hA : ∀ a ∈ A, hash a ∈ U) {c : Nat × Nat} (hc : c ∈ onlyBelow U t z) (hne : A ≠ []) :
    ∃ n, createSignature setOrd hash [c] A = [n] ∧ ((∃ a ∈ A, hash a = z) → n = universalHash c.1 c.2 z) ∧
      (¬ (∃ a ∈ A, hash a = z) → t ≤ n) := by
  classical
  unfold onlyBelow at hc
  rw [Finset.mem_filter] at hc
  obtain ⟨_, h1, h2⟩ := hc
  obtain ⟨hl, _, hv⟩ := create_signature_values hso hash [c] A
  obtain ⟨n, hn, n1, n2⟩ := hv hne 0 c rfl
  have hmax : maxUint32 = 2 ^ 32 - 1 := rfl
  refine ⟨n, ?_, ?_, ?_⟩
  · obtain ⟨m, hm⟩ := List.length_eq_one_iff.mp hl
    rw [hm] at hn ⊢
    simpa using hn
  · rintro ⟨a, ha, rfl⟩
    have h3 := n2 a ha
    rcases n1 with n1 | ⟨b, hb, n1⟩
    · omega
    · by_cases h : hash b = hash a
      · rw [← n1, h]
      · have := h2 _ (hA b hb) h
        omega
  · intro hno
    rcases n1 with n1 | ⟨b, hb, n1⟩
    · omega
    · rw [← n1]
      exact h2 _ (hA b hb) fun h => hno ⟨b, hb, h⟩

theorem card_sum_onlyBelow {U S : Finset Nat} (hU : ∀ x ∈ U, x < 2 ^ 32) (hcard : U.card ≤ 8000) (hS : S ⊆ U) :
    (4294967295 * 4294967296 : ℝ) * S.card ≤ 4 * U.card * (S.biUnion (onlyBelow U (2 ^ 32 / (2 * U.card)))).card := by
  classical
  rw [Finset.card_biUnion (fun z _ z' hz' h => onlyBelow_disjoint (hS hz') h), Nat.cast_sum, Finset.mul_sum, mul_comm, ← nsmul_eq_mul,
    ← Finset.sum_const]
  exact Finset.sum_le_sum fun z hz => onlyBelow_share hU hcard (hS hz)

theorem quarter_low {k n w u M : ℝ} (hn : 0 < n) (hM : 0 < M) (h1 : M * k ≤ 4 * n * w) (h3 : w ≤ u) : k / n / 4 ≤ u / M := by
  rw [div_div, div_le_div_iff₀ (by positivity) hM]
  have := mul_le_mul_of_nonneg_left h3 (show 0 ≤ 4 * n by positivity)
  linarith

theorem quarter_high {k n w u v M : ℝ} (hn : 0 < n) (hM : 0 < M) (h1 : M * (n - k) ≤ 4 * n * w) (h3 : w ≤ v) (h4 : u + v = M) :
    (1 - k / n) / 4 ≤ 1 - u / M := by
  have e1 : 1 - k / n = (n - k) / n := by rw [sub_div, div_self hn.ne']
  have e2 : 1 - u / M = v / M := by
    rw [eq_div_iff hM.ne', sub_mul, div_mul_cancel₀ _ hM.ne']
    linarith
  rw [e1, e2]
  exact quarter_low hn hM h1 h3

/-- **C114**: for two sequences which have at most 8000 tokens in all, the share of the coefficients on which they agree, which is the mean of
`minhash_similarity`, is at least a fourth of their Jaccard similarity, and what it lacks to one is at least a fourth of what the Jaccard
similarity lacks. -/
theorem agreeing_quarter {setOrd : List Nat → List Nat} (hso : LawfulOrder setOrd) {hash : τ → Nat} {x y : List τ} (hx : x ≠ []) (hy : y ≠ [])
    {A B : Finset Nat} (hA : A = (x.map hash).toFinset) (hB : B = (y.map hash).toFinset) (hA32 : ∀ t ∈ A ∪ B, t < 2 ^ 32)
    (hcard : (A ∪ B).card ≤ 8000) :
    ((A ∩ B).card / (A ∪ B).card : ℝ) / 4 ≤ agreeing allCoefficients setOrd hash x y ∧
    (1 - (A ∩ B).card / (A ∪ B).card : ℝ) / 4 ≤ 1 - agreeing allCoefficients setOrd hash x y := by
  classical
  obtain ⟨a, ha⟩ := List.exists_mem_of_ne_nil x hx
  have hxA : ∀ a ∈ x, hash a ∈ A ∪ B := by
    intro a ha
    rw [hA]
    exact Finset.mem_union_left _ (List.mem_toFinset.mpr (List.mem_map.mpr ⟨a, ha, rfl⟩))
  have hyB : ∀ a ∈ y, hash a ∈ A ∪ B := by
    intro a ha
    rw [hB]
    exact Finset.mem_union_right _ (List.mem_toFinset.mpr (List.mem_map.mpr ⟨a, ha, rfl⟩))
  have memA : ∀ z, z ∈ A ↔ ∃ a ∈ x, hash a = z := by intro z; rw [hA, List.mem_toFinset, List.mem_map]
  have memB : ∀ z, z ∈ B ↔ ∃ a ∈ y, hash a = z := by intro z; rw [hB, List.mem_toFinset, List.mem_map]
  have hn : 1 ≤ (A ∪ B).card := Finset.card_pos.mpr ⟨_, hxA a ha⟩
  have hnr : (0 : ℝ) < (A ∪ B).card := by exact_mod_cast hn
  have ht : 2 ^ 32 / (2 * (A ∪ B).card) ≤ maxUint32 := by
    have : 2 ^ 32 / (2 * (A ∪ B).card) ≤ 2 ^ 32 / 2 := Nat.div_le_div_left (by omega) (by decide)
    exact this.trans (by decide)
  obtain ⟨t, et⟩ : ∃ t, t = 2 ^ 32 / (2 * (A ∪ B).card) := ⟨_, rfl⟩
  rw [← et] at ht
  have hbox := card_allCoefficients
  have hin : ∀ S : Finset Nat, S.biUnion (onlyBelow (A ∪ B) t) ⊆ allCoefficients := by
    intro S c hc
    rw [Finset.mem_biUnion] at hc
    obtain ⟨z, _, hc⟩ := hc
    exact (Finset.mem_filter.mp hc).1
  have hag : agreeing allCoefficients setOrd hash x y =
      ((allCoefficients.filter fun c => createSignature setOrd hash [c] x = createSignature setOrd hash [c] y).card : ℝ) / allCoefficients.card := by
    unfold agreeing
    rw [share_finset allCoefficients (fun c => createSignature setOrd hash [c] x = createSignature setOrd hash [c] y)]
  have hbpos : (0 : ℝ) < 4294967295 * 4294967296 := by norm_num
  constructor
  · have h1 := card_sum_onlyBelow hA32 hcard (S := A ∩ B) (Finset.inter_subset_left.trans Finset.subset_union_left)
    rw [← et] at h1
    have h2 : ((A ∩ B).biUnion (onlyBelow (A ∪ B) t)).card ≤
        (allCoefficients.filter fun c => createSignature setOrd hash [c] x = createSignature setOrd hash [c] y).card := by
      apply Finset.card_le_card
      intro c hc
      rw [Finset.mem_filter]
      refine ⟨hin _ hc, ?_⟩
      rw [Finset.mem_biUnion] at hc
      obtain ⟨z, hz, hc⟩ := hc
      rw [Finset.mem_inter, memA, memB] at hz
      obtain ⟨n, e1, p1, _⟩ := agree_of_onlyBelow hso ht hxA hc hx
      obtain ⟨m, e2, p2, _⟩ := agree_of_onlyBelow hso ht hyB hc hy
      rw [e1, e2, p1 hz.1, p2 hz.2]
    have h3 : (((A ∩ B).biUnion (onlyBelow (A ∪ B) t)).card : ℝ) ≤
        ((allCoefficients.filter fun c => createSignature setOrd hash [c] x = createSignature setOrd hash [c] y).card : ℝ) := by exact_mod_cast h2
    rw [hag, hbox]
    exact quarter_low hnr hbpos h1 h3
  · have h1 := card_sum_onlyBelow hA32 hcard (S := (A ∪ B) \ (A ∩ B)) Finset.sdiff_subset
    rw [← et] at h1
    have h2 : (((A ∪ B) \ (A ∩ B)).biUnion (onlyBelow (A ∪ B) t)).card ≤
        (allCoefficients.filter fun c => ¬ createSignature setOrd hash [c] x = createSignature setOrd hash [c] y).card := by
      apply Finset.card_le_card
      intro c hc
      rw [Finset.mem_filter]
      refine ⟨hin _ hc, ?_⟩
      rw [Finset.mem_biUnion] at hc
      obtain ⟨z, hz, hc⟩ := hc
      rw [Finset.mem_sdiff, Finset.mem_union, Finset.mem_inter, memA, memB] at hz
      obtain ⟨n, e1, p1, q1⟩ := agree_of_onlyBelow hso ht hxA hc hx
      obtain ⟨m, e2, p2, q2⟩ := agree_of_onlyBelow hso ht hyB hc hy
      have hlt : universalHash c.1 c.2 z < t := (Finset.mem_filter.mp hc).2.1
      rw [e1, e2]
      intro h
      have h := List.singleton_inj.mp h
      by_cases h4 : ∃ a ∈ x, hash a = z
      · have h5 : ¬ ∃ a ∈ y, hash a = z := fun h5 => hz.2 ⟨h4, h5⟩
        have := p1 h4
        have := q2 h5
        omega
      · have h5 : ∃ a ∈ y, hash a = z := hz.1.resolve_left h4
        have := q1 h4
        have := p2 h5
        omega
    have h3 : ((((A ∪ B) \ (A ∩ B)).biUnion (onlyBelow (A ∪ B) t)).card : ℝ) ≤
        ((allCoefficients.filter fun c => ¬ createSignature setOrd hash [c] x = createSignature setOrd hash [c] y).card : ℝ) := by exact_mod_cast h2
    have h4 : ((allCoefficients.filter fun c => createSignature setOrd hash [c] x = createSignature setOrd hash [c] y).card : ℝ) +
        ((allCoefficients.filter fun c => ¬ createSignature setOrd hash [c] x = createSignature setOrd hash [c] y).card : ℝ) =
        4294967295 * 4294967296 := by
      rw [← hbox]
      exact_mod_cast Finset.card_filter_add_card_filter_not _
    have h5 : (((A ∪ B) \ (A ∩ B)).card : ℝ) = (A ∪ B).card - (A ∩ B).card := by
      have hs : A ∩ B ⊆ A ∪ B := Finset.inter_subset_left.trans Finset.subset_union_left
      rw [Finset.card_sdiff_of_subset hs, Nat.cast_sub (Finset.card_le_card hs)]
    rw [h5] at h1
    rw [hag, hbox]
    exact quarter_high hnr hbpos h1 h3 h4

/-- **C114**: with the coefficients of the constructor, which are different, the mean of `minhash_similarity` over their draws is at least a
fourth of the Jaccard similarity, and what it lacks to one is at least a fourth of what the Jaccard similarity lacks. -/
theorem minhash_mean_quarter {setOrd : List Nat → List Nat} (hso : LawfulOrder setOrd) {hash : τ → Nat} {h : Nat} (h1 : 1 ≤ h) (h32 : h ≤ 2 ^ 32)
    {x y : List τ} (hx : x ≠ []) (hy : y ≠ []) {A B : Finset Nat} (hA : A = (x.map hash).toFinset) (hB : B = (y.map hash).toFinset)
    (hA32 : ∀ t ∈ A ∪ B, t < 2 ^ 32) (hcard : (A ∪ B).card ≤ 8000) :
    ∃ X : (Fin h ↪ allCoefficients) → ℚ,
      (∀ f : Fin h ↪ allCoefficients,
        minhashSimilarity (createSignature setOrd hash (drawn f) x) (createSignature setOrd hash (drawn f) y) = .ok (X f)) ∧
      ((A ∩ B).card / (A ∪ B).card : ℝ) / 4 ≤ average (fun f => (X f : ℝ)) ∧
      (1 - (A ∩ B).card / (A ∪ B).card : ℝ) / 4 ≤ 1 - average (fun f => (X f : ℝ)) := by
  have hc : allCoefficients.card = 4294967295 * 4294967296 := by
    have := card_allCoefficients
    exact_mod_cast this
  obtain ⟨X, hX, hav, _⟩ := minhash_similarity_estimates_distinct_partial (C := allCoefficients) setOrd hash h1 (by rw [hc]; omega)
    (by rw [hc]; omega) x y
  refine ⟨X, hX, ?_⟩
  rw [hav]
  exact agreeing_quarter hso hx hy hA hB hA32 hcard

/-- `abcd` and `bcde` have three letters in common of five. -/
example : ∃ X : (Fin 256 ↪ allCoefficients) → ℚ,
    (∀ f : Fin 256 ↪ allCoefficients, minhashSimilarity (createSignature List.reverse (fun c : Char => c.toNat) (drawn f) ['a', 'b', 'c', 'd'])
      (createSignature List.reverse (fun c : Char => c.toNat) (drawn f) ['b', 'c', 'd', 'e']) = .ok (X f)) ∧
    3 / 20 ≤ average (fun f => (X f : ℝ)) ∧ average (fun f => (X f : ℝ)) ≤ 9 / 10 := by
  obtain ⟨X, h1, h2, h3⟩ := minhash_mean_quarter (setOrd := List.reverse) (hash := fun c : Char => c.toNat) (h := 256) List.reverse_perm (by decide)
    (by decide) (x := ['a', 'b', 'c', 'd']) (y := ['b', 'c', 'd', 'e']) (by simp) (by simp) (A := {97, 98, 99, 100}) (B := {98, 99, 100, 101})
    (by decide) (by decide) (by decide) (by decide)
  have e1 : (({97, 98, 99, 100} ∩ {98, 99, 100, 101} : Finset Nat)).card = 3 := by decide
  have e2 : (({97, 98, 99, 100} ∪ {98, 99, 100, 101} : Finset Nat)).card = 5 := by decide
  rw [e1, e2] at h2 h3
  refine ⟨X, h1, le_trans (le_of_eq (by norm_num)) h2, ?_⟩
  norm_num at h3
  linarith

end Fog.Props
