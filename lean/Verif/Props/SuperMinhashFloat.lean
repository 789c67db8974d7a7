import Verif.Lemmas.SuperMinhashFloat
import Verif.Props.SuperMinhashChances

/-!
# C140: SuperMinHash in double precision

The sum `r + j` may be rounded to `j + 1`. Then the signature may hold an integer which is not a rank, and is not the least rank of the
position. It happens with a chance that is bounded here, never raises, and otherwise the signature is made of the least ranks.
-/

namespace Fog.Props

open Fog.Spec Fog.SuperMinhashFloat Finset

variable {τ : Type} {fl : ℝ → ℝ}

/-- **C140**: whatever the random numbers, nothing is raised, and there are `m` integers between `0` and `m + 1`. -/
theorem super_minhash_float_total (hfl : IsRounding fl) (ord : List Nat → List Nat) (hash : τ → Nat) {rand : Nat → Nat → ℝ}
    (hr : ∀ token j, IsRandomNumber (rand token j)) {m : Nat} (hm : 0 < m) (sequence : List τ) :
    ∃ signature, SuperMinhashFloat.createSignature fl ord hash rand m sequence = .ok signature ∧ signature.length = m ∧
      ∀ x ∈ signature, 0 ≤ x ∧ x ≤ (m : Int) + 1 := by
  obtain ⟨s, e, hs⟩ := outer_total (fl := fl) (rand := rand) (fun t j hj => roundedDraw_lt hfl (hr t j) hj)
    (fun t j _ => hfl.nonneg (add_nonneg (random_nonneg (hr t j)) (Nat.cast_nonneg j)))
    (Minhash.tokenSet ord hash sequence).zipIdx (SuperMinhashFloat.start m) (start_sane hm)
  refine ⟨s.h.map fun v => ⌊v⌋, ?_, by simp [hs.lh], ?_⟩
  · unfold SuperMinhashFloat.createSignature
    rw [if_neg (by omega), e]
  · intro x hx
    obtain ⟨v, hv, rfl⟩ := List.mem_map.mp hx
    obtain ⟨h1, h2⟩ := hs.h v hv
    refine ⟨Int.floor_nonneg.mpr h1, ?_⟩
    have := Int.floor_le v
    have h3 : (⌊v⌋ : ℝ) ≤ ((m : Int) + 1 : Int) := by push_cast; linarith
    exact_mod_cast h3

/-- With exact sums, the integer parts of the least values are the least ranks. -/
theorem rank_of_super {rand : Nat → Nat → ℚ} (hl : LawfulRandom rand) {m : Nat} {tokens : List Nat} {signature : List Int}
    (h1 : IsSuperSignature rand m tokens signature) : IsRankSignature (fun token => Spec.drawn (rand token) m) m tokens signature := by
  refine ⟨h1.1, ?_⟩
  intro pos hpos
  obtain ⟨v, hv, hsig⟩ := h1.2 pos hpos
  have hfloor : ∀ token j, ⌊rand token j + (j : ℚ)⌋ = (j : Int) := by
    intro token j
    rw [Int.floor_eq_iff]
    push_cast
    obtain ⟨h2, h3⟩ := hl token j
    constructor <;> linarith
  constructor
  · intro hnil
    rw [hsig]
    rcases hv.1 with e | ⟨token, ht, _⟩
    · have := Int.floor_intCast (R := ℚ) ((m : Int) + 1)
      push_cast at this
      rw [e, this]
    · rw [hnil] at ht
      cases ht
  · intro hne
    obtain ⟨token, ht⟩ := List.exists_mem_of_ne_nil _ hne
    have hlt : ∀ token j, j < m → rand token j + (j : ℚ) < m := by
      intro token j hj
      have h2 := (hl token j).2
      have : (j : ℚ) + 1 ≤ m := by exact_mod_cast hj
      linarith
    rcases hv.1 with e | ⟨token', ht', j, hj, hget, e⟩
    · exfalso
      have h2 := getElem?_rankOf (r := rand token) (fun j => (hl token j).1) (fun j => (hl token j).2) hpos
      have h3 := rankOf_lt (r := rand token) (fun j => (hl token j).1) (fun j => (hl token j).2) hpos
      have h4 := hv.2 (.inr ⟨token, ht, _, h3, h2, rfl⟩)
      have h5 := hlt token _ h3
      rw [e] at h4
      linarith
    · refine ⟨j, ⟨⟨hj, token', ht', hget⟩, ?_⟩, by rw [hsig, e, hfloor]⟩
      rintro i ⟨hi, token'', ht'', hget'⟩
      have h4 := Int.floor_le_floor (hv.2 (.inr ⟨token'', ht'', i, hi, hget', rfl⟩))
      rw [e, hfloor, hfloor] at h4
      exact_mod_cast h4

/-- Only what the tokens draw counts. -/
theorem rank_congr {pick pick' : Nat → Nat → Nat} {m : Nat} {tokens : List Nat} (h : ∀ t ∈ tokens, ∀ j < m, pick t j = pick' t j)
    {signature : List Int} (h1 : IsRankSignature pick m tokens signature) : IsRankSignature pick' m tokens signature := by
  have e : ∀ pos, ranksGiven pick m tokens pos = ranksGiven pick' m tokens pos := by
    intro pos
    unfold ranksGiven
    ext j
    simp only [Set.mem_setOf_eq]
    refine and_congr_right fun _ => exists_congr fun t => and_congr_right fun ht => ?_
    rw [fisherYates_congr (h t ht)]
  refine ⟨h1.1, fun pos hpos => ?_⟩
  rw [← e]
  exact h1.2 pos hpos

/-- **C140** (when no sum of a token is rounded up to the next integer; false otherwise, see below): at each position, the signature holds
the least of the ranks given by the shuffles of the tokens, whose positions are drawn by the rounded products. -/
theorem super_minhash_float_partial (hfl : IsRounding fl) {ord : List Nat → List Nat} (ho : LawfulOrder ord) (hash : τ → Nat)
    {rand : Nat → Nat → ℝ} (hr : ∀ token j, IsRandomNumber (rand token j)) {m : Nat} (hm : 0 < m) (hm' : m ≤ 2 ^ 53) (sequence : List τ)
    (hs : ∀ x ∈ sequence, ∀ j < m, fl (rand (hash x) j + j) < j + 1) :
    ∃ signature, SuperMinhashFloat.createSignature fl ord hash rand m sequence = .ok signature ∧
      IsRankSignature (fun token j => roundedDraw fl (rand token j) m j) m (sequence.map hash) signature := by
  have hl : LawfulRandom (alike fl m rand) := alike_lawful hfl hr
  obtain ⟨t, et, _, _⟩ := super_values hl hm (Minhash.tokenSet ord hash sequence)
  have hmem : ∀ p ∈ (Minhash.tokenSet ord hash sequence).zipIdx, ∃ x ∈ sequence, hash x = p.1 := by
    intro p hp
    have := List.fst_mem_of_mem_zipIdx hp
    rw [mem_tokenSet ho] at this
    obtain ⟨x, hx, e⟩ := this
    exact ⟨x, hx, e⟩
  obtain ⟨s, es, hf⟩ := outer_follows (fl := fl) (rand := rand) (rand' := alike fl m rand) (fun t j => (hl t j).1) (fun t j => (hl t j).2)
    (Minhash.tokenSet ord hash sequence).zipIdx (by
      intro p hp j hj
      obtain ⟨x, hx, e⟩ := hmem p hp
      rw [← e]
      exact floor_sum hfl (hr _ j) (by omega) (hs x hx j hj)) (fun p _ j hj => alike_floor p.1 hj) _ _ t (start_follows hm) et
  obtain ⟨signature, e1, h1⟩ := super_minhash_eq ho hash hl hm sequence
  have e2 : signature = t.h.map fun v => ⌊v⌋ := by
    unfold SuperMinhash.createSignature at e1
    simp only [if_neg (show m ≠ 0 by omega), et, bind, Except.bind, pure, Except.pure, Except.ok.injEq] at e1
    exact e1.symm
  refine ⟨signature, ?_, rank_congr (fun t _ j hj => drawn_alike t hj) (rank_of_super hl h1)⟩
  unfold SuperMinhashFloat.createSignature
  rw [if_neg (by omega), es, e2, ← hf.h]

/-- The signatures made of the least ranks depend only on the set of tokens. -/
theorem rank_signature_unique {pick : Nat → Nat → Nat} {m : Nat} {tokens tokens' : List Nat} (h : ∀ t, t ∈ tokens ↔ t ∈ tokens')
    {x y : List Int} (hx : IsRankSignature pick m tokens x) (hy : IsRankSignature pick m tokens' y) : x = y := by
  apply List.ext_getElem?
  intro pos
  by_cases hpos : pos < m
  · have hc : ranksGiven pick m tokens pos = ranksGiven pick m tokens' pos := by
      unfold ranksGiven
      simp only [h]
    by_cases hn : tokens = []
    · have hn' : tokens' = [] := by
        rw [List.eq_nil_iff_forall_not_mem]
        intro t ht
        rw [← h, hn] at ht
        cases ht
      rw [(hx.2 pos hpos).1 hn, (hy.2 pos hpos).1 hn']
    · have hn' : tokens' ≠ [] := by
        rintro rfl
        apply hn
        rw [List.eq_nil_iff_forall_not_mem]
        intro t ht
        rw [h] at ht
        cases ht
      obtain ⟨i, hi, e1⟩ := (hx.2 pos hpos).2 hn
      obtain ⟨j, hj, e2⟩ := (hy.2 pos hpos).2 hn'
      rw [hc] at hi
      rw [e1, e2, hi.unique hj]
  · rw [List.getElem?_eq_none (by rw [hx.1]; omega), List.getElem?_eq_none (by rw [hy.1]; omega)]

/-- **C140**: in double precision too, the signature is a function of the set of tokens, when no sum is rounded up to the next integer. -/
theorem super_minhash_float_set (hfl : IsRounding fl) {ord ord' : List Nat → List Nat} (ho : LawfulOrder ord) (ho' : LawfulOrder ord')
    (hash : τ → Nat) {rand : Nat → Nat → ℝ} (hr : ∀ token j, IsRandomNumber (rand token j)) {m : Nat} (hm : 0 < m) (hm' : m ≤ 2 ^ 53)
    {s s' : List τ} (hss : ∀ x, x ∈ s ↔ x ∈ s') (hs : ∀ x ∈ s, ∀ j < m, fl (rand (hash x) j + j) < j + 1) :
    SuperMinhashFloat.createSignature fl ord hash rand m s = SuperMinhashFloat.createSignature fl ord' hash rand m s' := by
  obtain ⟨x, e1, h1⟩ := super_minhash_float_partial hfl ho hash hr hm hm' s hs
  obtain ⟨y, e2, h2⟩ := super_minhash_float_partial hfl ho' hash hr hm hm' s' (fun x hx => hs x ((hss x).mpr hx))
  rw [e1, e2, rank_signature_unique (by simp [hss]) h1 h2]

/-! ### Which sums are rounded up -/

theorem sum_rounds_up (hfl : IsRounding fl) {k j : Nat} (hk : k + j < 2 ^ 53) : fl ((k : ℝ) / 2 ^ 53 + j) < j + 1 := by
  have hk' : (k : ℝ) + j + 1 ≤ 2 ^ 53 := by exact_mod_cast hk
  have hp : (0 : ℝ) < 2 ^ 53 := by positivity
  have hx : (k : ℝ) / 2 ^ 53 + j ≤ (j + 1) - ((j : ℝ) + 1) / 2 ^ 53 := by
    have : (k : ℝ) / 2 ^ 53 + ((j : ℝ) + 1) / 2 ^ 53 ≤ 1 := by
      rw [← add_div, div_le_one hp]
      linarith
    linarith
  have hj : (0 : ℝ) ≤ j := Nat.cast_nonneg j
  rcases lt_or_ge ((k : ℝ) / 2 ^ 53 + j) ((2 : ℝ) ^ (-1022 : ℤ)) with h | h
  · have h2 := hfl.mono h.le
    rw [hfl.of_double (isDouble_zpow (by norm_num))] at h2
    have h3 : (2 : ℝ) ^ (-1022 : ℤ) < 1 := zpow_lt_one_of_neg₀ (by norm_num) (by norm_num)
    linarith
  · have h2 := (abs_le.mp (hfl.relative h)).2
    have h4 : fl ((k : ℝ) / 2 ^ 53 + j) ≤ ((j + 1) - ((j : ℝ) + 1) / 2 ^ 53) * (1 + 1 / 2 ^ 53) := by
      calc fl ((k : ℝ) / 2 ^ 53 + j) ≤ ((k : ℝ) / 2 ^ 53 + j) * (1 + 1 / 2 ^ 53) := by linarith
        _ ≤ _ := mul_le_mul_of_nonneg_right hx (by positivity)
    have h5 : ((j + 1) - ((j : ℝ) + 1) / 2 ^ 53) * (1 + 1 / 2 ^ 53) = (j + 1) - ((j : ℝ) + 1) / 2 ^ 106 := by ring
    rw [h5] at h4
    have h6 : 0 < ((j : ℝ) + 1) / 2 ^ 106 := by positivity
    linarith

/-- The last number below 1, added to 2, is rounded to 3. -/
theorem sum_rounds_to_three (hfl : IsRounding fl) : fl ((1 - 1 / 2 ^ 53) + (2 : Nat)) = 3 := by
  have := hfl.eq_of_near (x := (1 - 1 / 2 ^ 53) + (2 : Nat)) (n := 3 * 2 ^ 51) (k := -51) (by norm_num) (by norm_num) (by norm_num) (by
    norm_num [abs_lt])
  rw [this]
  norm_num

theorem settle_stop {b : List Int} {a : Nat} {x : Int} (h : b[a]? = some x) (hx : x ≠ 0) : SuperMinhashFloat.settle b (a : Int) = .ok (a : Int) := by
  rw [SuperMinhashFloat.settle, if_neg (by omega), itemAt_eq h]
  simp only
  rw [if_neg hx]

/-- The numbers of the generator of the witness. -/
noncomputable def unlucky (_ j : Nat) : ℝ := if j = 2 then 1 - 1 / 2 ^ 53 else 0

theorem unlucky_random (token j : Nat) : IsRandomNumber (unlucky token j) := by
  unfold unlucky
  split
  · exact ⟨2 ^ 53 - 1, by norm_num, by norm_num⟩
  · exact ⟨0, by norm_num, by norm_num⟩

/-- **C140**, negation: with three positions and one token, the signature may be `[0, 1, 3]`, which are not ranks. -/
theorem super_minhash_float_false (hfl : IsRounding fl) :
    SuperMinhashFloat.createSignature fl id (fun n : Nat => n) unlucky 3 [7] = .ok [0, 1, 3] ∧
      ¬ IsRankSignature (fun token j => roundedDraw fl (unlucky token j) 3 j) 3 [7] [0, 1, 3] := by
  have f3 := sum_rounds_to_three hfl
  have f1 : fl 1 = 1 := hfl.one
  have f0 : fl 0 = 0 := hfl.zero
  have g2 : fl (1 - 1 / 2 ^ 53) = 1 - 1 / 2 ^ 53 := by
    have : (1 - 1 / 2 ^ 53 : ℝ) = ((2 ^ 53 - 1 : ℤ) : ℝ) * (2 : ℝ) ^ (-53 : ℤ) := by norm_num
    rw [this]
    exact hfl.of_double (isDouble_of_le (by norm_num) (by norm_num))
  have k2 : ⌊fl ((1 - 1 / 2 ^ 53) * (((3 : Nat) : ℝ) - (2 : Nat)))⌋ = 0 := by
    rw [show ((1 - 1 / 2 ^ 53) * (((3 : Nat) : ℝ) - (2 : Nat))) = 1 - 1 / 2 ^ 53 by norm_num, g2, Int.floor_eq_iff]
    norm_num
  constructor
  · have z0 : ∀ n : ℝ, ⌊fl (0 * n)⌋ = 0 := by
      intro n
      rw [zero_mul, f0, Int.floor_zero]
    have fl4 : ⌊(4 : ℝ)⌋ = 4 := by exact_mod_cast Int.floor_intCast (R := ℝ) 4
    have s0 : SuperMinhashFloat.settle [1, 0, 2] 2 = .ok 2 := settle_stop (a := 2) (x := 2) rfl (by decide)
    have s1 : SuperMinhashFloat.settle [1, 1, 1] 2 = .ok 2 := settle_stop (a := 2) (x := 1) rfl (by decide)
    have e0 : SuperMinhashFloat.start 3 = ⟨[4, 4, 4], [0, 0, 0], [-1, -1, -1], [0, 0, 3], 2⟩ := by
      simp [SuperMinhashFloat.start, List.replicate]
      norm_num
    have t0 : SuperMinhashFloat.turn fl 3 0 0 0 ⟨[4, 4, 4], [0, 0, 0], [-1, -1, -1], [0, 0, 3], 2⟩ =
        .ok ⟨[0, 4, 4], [0, 0, 0], [0, -1, -1], [1, 0, 2], 2⟩ := by
      simp only [SuperMinhashFloat.turn, z0]
      simp [SuperMinhashFloat.refresh, SuperMinhash.item, SuperMinhashFloat.improve, f0]
      rw [s0]
    have t1 : SuperMinhashFloat.turn fl 3 0 1 0 ⟨[0, 4, 4], [0, 0, 0], [0, -1, -1], [1, 0, 2], 2⟩ =
        .ok ⟨[0, 1, 4], [0, 1, 0], [0, 0, -1], [1, 1, 1], 2⟩ := by
      simp only [SuperMinhashFloat.turn, z0]
      simp [SuperMinhashFloat.refresh, SuperMinhash.item, SuperMinhashFloat.improve, f1]
      rw [s1]
    have t2 : SuperMinhashFloat.turn fl 3 0 2 (1 - 1 / 2 ^ 53) ⟨[0, 1, 4], [0, 1, 0], [0, 0, -1], [1, 1, 1], 2⟩ =
        .ok ⟨[0, 1, 3], [0, 1, 2], [0, 0, 0], [1, 1, 1], 2⟩ := by
      simp only [SuperMinhashFloat.turn, k2]
      simp only [SuperMinhashFloat.improve, f3]
      simp [SuperMinhashFloat.refresh, SuperMinhash.item, fl4]
      norm_num
    have hset : Minhash.tokenSet id (fun n : Nat => n) [7] = [7] := by decide
    have u0 : unlucky 7 0 = 0 := by simp [unlucky]
    have u1 : unlucky 7 1 = 0 := by simp [unlucky]
    have u2 : unlucky 7 2 = 1 - 1 / 2 ^ 53 := by simp [unlucky]
    have i3 : SuperMinhashFloat.inner fl 3 0 (unlucky 7) 0 (SuperMinhashFloat.start 3) =
        .ok ⟨[0, 1, 3], [0, 1, 2], [0, 0, 0], [1, 1, 1], 2⟩ := by
      rw [e0, SuperMinhashFloat.inner, if_pos (by decide), if_pos (by decide), u0, t0]
      simp only
      rw [SuperMinhashFloat.inner, if_pos (by decide), if_pos (by decide), u1, t1]
      simp only
      rw [SuperMinhashFloat.inner, if_pos (by decide), if_pos (by decide), u2, t2]
      simp only
      rw [SuperMinhashFloat.inner, if_neg (by decide)]
    unfold SuperMinhashFloat.createSignature
    rw [if_neg (by decide), hset]
    simp only [List.zipIdx_cons, List.zipIdx_nil, SuperMinhashFloat.outer]
    rw [i3]
    have fl3 : ⌊(3 : ℝ)⌋ = 3 := by exact_mod_cast Int.floor_intCast (R := ℝ) 3
    simp [fl3]
  · intro h
    obtain ⟨j, hj, e⟩ := (h.2 2 (by decide)).2 (by decide)
    have h1 : j < 3 := hj.1.1
    simp only [List.getElem?_cons_succ, List.getElem?_cons_zero, Option.some.injEq] at e
    omega

example (hfl : IsRounding fl) : ∃ signature, SuperMinhashFloat.createSignature fl List.reverse (fun n : Nat => n) unlucky 3 [5, 2, 7] = .ok signature ∧
    signature.length = 3 ∧ ∀ x ∈ signature, 0 ≤ x ∧ x ≤ ((3 : Nat) : Int) + 1 :=
  super_minhash_float_total hfl _ _ unlucky_random (by decide) _

/-- Numbers whose sums are not rounded up. -/
noncomputable def lucky (token j : Nat) : ℝ := (((token + j) % 4 * 2 ^ 51 : Nat) : ℝ) / 2 ^ 53

theorem lucky_random (token j : Nat) : IsRandomNumber (lucky token j) := ⟨_, by omega, rfl⟩

example (hfl : IsRounding fl) : ∃ signature, SuperMinhashFloat.createSignature fl List.reverse (fun n : Nat => n) lucky 3 [5, 2, 7] = .ok signature ∧
    IsRankSignature (fun token j => roundedDraw fl (lucky token j) 3 j) 3 ([5, 2, 7].map fun n => n) signature :=
  super_minhash_float_partial hfl List.reverse_perm _ lucky_random (by decide) (by norm_num) _
    (fun x _ j hj => sum_rounds_up hfl (by omega))

example (hfl : IsRounding fl) : SuperMinhashFloat.createSignature fl List.reverse (fun n : Nat => n) lucky 3 [5, 2, 7] =
    SuperMinhashFloat.createSignature fl id (fun n : Nat => n) lucky 3 [7, 7, 2, 5] :=
  super_minhash_float_set hfl List.reverse_perm List.Perm.refl _ lucky_random (by decide) (by norm_num) (by intro x; grind)
    (fun x _ j hj => sum_rounds_up hfl (by omega))

/-! ### The chance that it happens -/

theorem share_some_le {Ω ι : Type _} [Fintype Ω] (s : List ι) (E : ι → Ω → Prop) (c : ι → ℝ) (h : ∀ i ∈ s, share (E i) ≤ c i) :
    share (fun o => ∃ i ∈ s, E i o) ≤ (s.map c).sum := by
  classical
  induction s with
  | nil => simp [share]
  | cons i s ih =>
      rw [List.map_cons, List.sum_cons]
      refine le_trans ?_ (add_le_add (h i (by simp)) (ih fun j hj => h j (by simp [hj])))
      unfold share
      rw [← add_div]
      apply div_le_div_of_nonneg_right _ (Nat.cast_nonneg _)
      rw [← Nat.cast_add]
      norm_cast
      refine le_trans (Finset.card_le_card ?_) (Finset.card_union_le _ _)
      intro o
      simp only [mem_filter, mem_univ, true_and, mem_union, List.mem_cons]
      rintro ⟨j, rfl | hj, hE⟩
      · exact .inl hE
      · exact .inr ⟨j, hj, hE⟩

/-- The numbers which follow `rng.seed(token)`, when the generator gives to each of the tokens `0, ..., T - 1` any `m` numbers. -/
noncomputable def drawnNumbers {T m : Nat} (g : Fin T → Fin m → Fin (2 ^ 53)) (token j : Nat) : ℝ :=
  if h : token < T ∧ j < m then ((g ⟨token, h.1⟩ ⟨j, h.2⟩).val : ℝ) / 2 ^ 53 else 0

theorem drawnNumbers_random {T m : Nat} (g : Fin T → Fin m → Fin (2 ^ 53)) (token j : Nat) : IsRandomNumber (drawnNumbers g token j) := by
  unfold drawnNumbers
  split
  · exact ⟨_, Fin.isLt _, rfl⟩
  · exact ⟨0, by norm_num, by norm_num⟩

theorem share_large (N j : Nat) : share (fun k : Fin N => N ≤ k.val + j) ≤ (j : ℝ) / N := by
  classical
  rw [share_of_card (s := univ.filter fun k : Fin N => N ≤ k.val + j) (by simp), Fintype.card_fin]
  apply div_le_div_of_nonneg_right _ (Nat.cast_nonneg N)
  have : (univ.filter fun k : Fin N => N ≤ k.val + j).card ≤ (Finset.range j).card := by
    refine Finset.card_le_card_of_injOn (fun k => N - 1 - k.val) ?_ ?_
    · intro k hk
      simp only [coe_filter, mem_univ, true_and, Set.mem_setOf_eq] at hk
      simp only [coe_range, Set.mem_Iio]
      have := k.isLt
      omega
    · intro k _ k' _ h
      have h1 := k.isLt
      have h2 := k'.isLt
      simp only at h
      apply Fin.ext
      omega
  rw [Finset.card_range] at this
  exact_mod_cast this

/-- **C140**: over all the generators, the share of those for which the signature is not made of the least ranks is at most
`n * m * (m - 1) / 2 / 2 ** 53`, for a sequence of length `n`. -/
theorem super_minhash_float_chance (hfl : IsRounding fl) {ord : List Nat → List Nat} (ho : LawfulOrder ord) (hash : τ → Nat) (T : Nat)
    {m : Nat} (hm : 0 < m) (hm' : m ≤ 2 ^ 53) (sequence : List τ) (hT : ∀ x ∈ sequence, hash x < T) :
    share (fun g : Fin T → Fin m → Fin (2 ^ 53) =>
      ¬ ∃ signature, SuperMinhashFloat.createSignature fl ord hash (drawnNumbers g) m sequence = .ok signature ∧
        IsRankSignature (fun token j => roundedDraw fl (drawnNumbers g token j) m j) m (sequence.map hash) signature) ≤
      (sequence.length : ℝ) * (m * (m - 1) / 2 / 2 ^ 53) := by
  classical
  have hle : ∀ g : Fin T → Fin m → Fin (2 ^ 53),
      (¬ ∃ signature, SuperMinhashFloat.createSignature fl ord hash (drawnNumbers g) m sequence = .ok signature ∧
        IsRankSignature (fun token j => roundedDraw fl (drawnNumbers g token j) m j) m (sequence.map hash) signature) →
      ∃ x ∈ sequence, ∃ j ∈ List.range m, ∃ h : hash x < T ∧ j < m, 2 ^ 53 ≤ (g ⟨hash x, h.1⟩ ⟨j, h.2⟩).val + j := by
    intro g hg
    by_contra hc
    push Not at hc
    apply hg
    apply super_minhash_float_partial hfl ho hash (drawnNumbers_random g) hm hm'
    intro x hx j hj
    have := hc x hx j (List.mem_range.mpr hj) ⟨hT x hx, hj⟩
    unfold drawnNumbers
    rw [dif_pos ⟨hT x hx, hj⟩]
    exact sum_rounds_up hfl this
  have hmono : ∀ {E F : (Fin T → Fin m → Fin (2 ^ 53)) → Prop}, (∀ g, E g → F g) → share E ≤ share F := by
    intro E F h
    unfold share
    apply div_le_div_of_nonneg_right _ (Nat.cast_nonneg _)
    norm_cast
    refine Finset.card_le_card fun g => ?_
    simp only [mem_filter, mem_univ, true_and]
    exact h g
  refine (hmono hle).trans ?_
  have hne : Nonempty (Fin (2 ^ 53)) := ⟨⟨0, by norm_num⟩⟩
  have h1 : ∀ x ∈ sequence, share (fun g : Fin T → Fin m → Fin (2 ^ 53) => ∃ j ∈ List.range m, ∃ h : hash x < T ∧ j < m,
      2 ^ 53 ≤ (g ⟨hash x, h.1⟩ ⟨j, h.2⟩).val + j) ≤ m * (m - 1) / 2 / 2 ^ 53 := by
    intro x hx
    refine (share_some_le (List.range m) _ (fun j => (j : ℝ) / 2 ^ 53) ?_).trans ?_
    · intro j hj
      rw [List.mem_range] at hj
      have e : share (fun g : Fin T → Fin m → Fin (2 ^ 53) => ∃ h : hash x < T ∧ j < m, 2 ^ 53 ≤ (g ⟨hash x, h.1⟩ ⟨j, h.2⟩).val + j) =
          share (fun k : Fin (2 ^ 53) => 2 ^ 53 ≤ k.val + j) := by
        rw [share_congr (F := fun g : Fin T → Fin m → Fin (2 ^ 53) =>
          (fun f : Fin m → Fin (2 ^ 53) => 2 ^ 53 ≤ (f ⟨j, hj⟩).val + j) (g ⟨hash x, hT x hx⟩))]
        · rw [share_place (⟨hash x, hT x hx⟩ : Fin T) (fun f : Fin m → Fin (2 ^ 53) => 2 ^ 53 ≤ (f ⟨j, hj⟩).val + j),
            share_place (⟨j, hj⟩ : Fin m) (fun k : Fin (2 ^ 53) => 2 ^ 53 ≤ k.val + j)]
        · exact fun g => ⟨fun ⟨_, h⟩ => h, fun h => ⟨⟨hT x hx, hj⟩, h⟩⟩
      rw [e]
      have := share_large (2 ^ 53) j
      rwa [show (((2 ^ 53 : Nat)) : ℝ) = 2 ^ 53 by norm_cast] at this
    · apply le_of_eq
      clear hle hmono hm hm' hx
      induction m with
      | zero => simp
      | succ m ih =>
          rw [List.range_succ, List.map_append, List.sum_append, ih]
          simp only [List.map_cons, List.map_nil, List.sum_cons, List.sum_nil]
          push_cast
          ring
  refine (share_some_le sequence _ (fun _ => (m * (m - 1) / 2 / 2 ^ 53 : ℝ)) h1).trans (le_of_eq ?_)
  simp [List.map_const', nsmul_eq_mul]

/-- With 256 integers and a thousand tokens, less than once in `2 ** 28` generators. -/
example (hfl : IsRounding fl) (sequence : List Nat) (hl : sequence.length = 1000) (hT : ∀ x ∈ sequence, x < 2 ^ 32) :
    share (fun g : Fin (2 ^ 32) → Fin 256 → Fin (2 ^ 53) =>
      ¬ ∃ signature, SuperMinhashFloat.createSignature fl List.reverse (fun n : Nat => n) (drawnNumbers g) 256 sequence = .ok signature ∧
        IsRankSignature (fun token j => roundedDraw fl (drawnNumbers g token j) 256 j) 256 (sequence.map fun n => n) signature) ≤
      1 / 2 ^ 28 := by
  refine (super_minhash_float_chance hfl List.reverse_perm _ (2 ^ 32) (by decide) (by norm_num) sequence hT).trans ?_
  rw [hl]
  norm_num

end Fog.Props
