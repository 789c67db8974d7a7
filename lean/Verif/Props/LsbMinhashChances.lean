import Verif.Props.MinhashBias

/-!
# C118: the chances of the signatures of one bit per coefficient

`LSBMinHash` keeps the parities of the integers of `MinHash`. As in C114, the coefficients are drawn among the pairs of `C`.
-/

namespace Fog.Props

open Minhash Metrics Spec

variable {τ : Type}

/-- The share of the pairs of coefficients on which two items have integers of the same parity. -/
noncomputable def agreeingParity (C : Finset (Nat × Nat)) (setOrd : List Nat → List Nat) (hash : τ → Nat) (x y : List τ) : ℝ :=
  share fun c : C => (createSignature setOrd hash [c.val] x).map (· % 2) = (createSignature setOrd hash [c.val] y).map (· % 2)

theorem countP_range (p : Nat → Bool) (n : Nat) : (List.range n).countP p = ∑ i ∈ Finset.range n, if p i = true then 1 else 0 := by
  induction n with
  | zero => rfl
  | succ n ih => rw [List.range_succ, List.countP_append, ih, Finset.sum_range_succ]; simp [List.countP_cons]

theorem sum_blocks (w : Nat) (F : Nat → Nat) (p : Nat) :
    ∑ s ∈ Finset.range p, ∑ i ∈ Finset.range w, F (w * s + i) = ∑ k ∈ Finset.range (w * p), F k := by
  induction p with
  | zero => simp
  | succ p ih => rw [Finset.sum_range_succ, ih, Nat.mul_succ, Finset.sum_range_add]

/-- The bits which differ, counted one after the other. -/
theorem hamming_bits {A B : List Nat} {precision : Nat} (hA : A.length = precision) (hB : B.length = precision) (α β : Nat → Bool)
    (ha : ∀ s < precision, ∀ i < 64, (A.getD s 0).testBit i = α (64 * s + i))
    (hb : ∀ s < precision, ∀ i < 64, (B.getD s 0).testBit i = β (64 * s + i)) :
    ((A.zip B).map fun p => bitCount 64 (p.1 ^^^ p.2)).sum = ∑ k ∈ Finset.range (64 * precision), if α k ≠ β k then 1 else 0 := by
  have hz : A.zip B = List.ofFn fun s : Fin precision => (A.getD s 0, B.getD s 0) := by
    apply List.ext_getElem?
    intro i
    by_cases hi : i < precision
    · have ha : i < A.length := by rw [hA]; exact hi
      have hb : i < B.length := by rw [hB]; exact hi
      rw [List.getElem?_eq_getElem (by simp [ha, hb]), List.getElem?_eq_getElem (by simp [hi])]
      simp [ha, hb]
    · rw [List.getElem?_eq_none (by simp [hA, hB]; omega), List.getElem?_eq_none (by simp; omega)]
  rw [hz, List.map_ofFn, List.sum_ofFn, ← sum_blocks 64, ← Fin.sum_univ_eq_sum_range (fun s => ∑ i ∈ Finset.range 64, if α (64 * s + i) ≠ β (64 * s + i) then 1 else 0)]
  refine Finset.sum_congr rfl fun s _ => ?_
  simp only [Function.comp_apply, bitCount]
  rw [countP_range]
  refine Finset.sum_congr rfl fun i hi => ?_
  rw [Finset.mem_range] at hi
  rw [Nat.testBit_xor, ha s s.isLt i hi, hb s s.isLt i hi]
  cases α (64 * s + i) <;> cases β (64 * s + i) <;> simp

theorem lsb_similarity_drawn {C : Finset (Nat × Nat)} {setOrd : List Nat → List Nat} (hso : LawfulOrder setOrd) (hash : τ → Nat)
    {precision : Nat} (hp : 1 ≤ precision) (x y : List τ) : ∃ G : C → Prop, ∃ _ : DecidablePred G,
      agreeingParity C setOrd hash x y = share G ∧
      ∀ f : Fin (64 * precision) → C, ∃ q : ℚ, lsbMinhashSimilarity (lsbCreateSignature setOrd hash precision (drawn f) x)
        (lsbCreateSignature setOrd hash precision (drawn f) y) = .ok q ∧
        (q : ℝ) = 2 * ((∑ i, if G (f i) then (1 : ℝ) else 0) / ((64 * precision : ℕ) : ℝ)) - 1 := by
  obtain ⟨g, hg⟩ := signature_pointwise setOrd hash x
  obtain ⟨k, hk⟩ := signature_pointwise setOrd hash y
  refine ⟨fun c => g c.val % 2 = k c.val % 2, fun _ => inferInstance, ?_, ?_⟩
  · unfold agreeingParity
    apply share_congr
    intro c
    rw [hg, hk]
    simp
  · intro f
    have hlen : (drawn f).length = 64 * precision := by simp [drawn]
    obtain ⟨lx, bx⟩ := lsb_create_signature_eq hso hash precision hlen x
    obtain ⟨ly, by'⟩ := lsb_create_signature_eq hso hash precision hlen y
    rw [hg] at bx
    rw [hk] at by'
    generalize lsbCreateSignature setOrd hash precision (drawn f) x = A at *
    generalize lsbCreateSignature setOrd hash precision (drawn f) y = B at *
    have bound : ∀ {L : List Nat} {u : Nat × Nat → Nat}, L.length = precision → (∀ s < precision, ∃ n, L[s]? = some n ∧ n < 2 ^ 64 ∧
        ∀ i < 64, ∃ v, ((drawn f).map u)[64 * s + i]? = some v ∧ (n.testBit i = true ↔ v % 2 = 1)) → ∀ a ∈ L, a < 2 ^ 64 := by
      intro L u hL h a ha
      obtain ⟨s, hs⟩ := List.mem_iff_getElem?.mp ha
      have hlt := (List.getElem?_eq_some_iff.mp hs).1
      obtain ⟨n, hn, hn', _⟩ := h s (by omega)
      rw [hs] at hn
      cases hn
      exact hn'
    have bits : ∀ {L : List Nat} {u : Nat × Nat → Nat}, (∀ s < precision, ∃ n, L[s]? = some n ∧ n < 2 ^ 64 ∧
        ∀ i < 64, ∃ v, ((drawn f).map u)[64 * s + i]? = some v ∧ (n.testBit i = true ↔ v % 2 = 1)) →
        ∀ s < precision, ∀ i < 64, (L.getD s 0).testBit i = decide (u ((drawn f).getD (64 * s + i) (0, 0)) % 2 = 1) := by
      intro L u h s hs i hi
      obtain ⟨n, hn, _, hb⟩ := h s hs
      obtain ⟨v, hv, hb⟩ := hb i hi
      rw [List.getElem?_map, Option.map_eq_some_iff] at hv
      obtain ⟨c, hc, rfl⟩ := hv
      rw [List.getD_eq_getElem?_getD, hn, List.getD_eq_getElem?_getD, hc]
      simp only [Option.getD_some]
      rw [Bool.eq_iff_iff, hb]
      simp
    obtain ⟨q, hq, _, he, _⟩ := lsb_minhash_similarity_eq (A := A) (B := B) (by rw [lx, ly]) (by
      intro h0
      rw [h0] at lx
      simp at lx
      omega) (bound lx bx) (bound ly by')
    refine ⟨q, hq, ?_⟩
    rw [he, hamming_bits lx ly (fun j => decide (g ((drawn f).getD j (0, 0)) % 2 = 1))
      (fun j => decide (k ((drawn f).getD j (0, 0)) % 2 = 1)) (bits bx) (bits by'), lx]
    have hpos : (0 : ℝ) < ((64 * precision : ℕ) : ℝ) := by
      have : 0 < 64 * precision := by omega
      exact_mod_cast this
    have hsum : ((∑ j ∈ Finset.range (64 * precision),
        if decide (g ((drawn f).getD j (0, 0)) % 2 = 1) ≠ decide (k ((drawn f).getD j (0, 0)) % 2 = 1) then 1 else 0 : ℕ) : ℝ) =
        ((64 * precision : ℕ) : ℝ) - ∑ i, if g (f i).val % 2 = k (f i).val % 2 then (1 : ℝ) else 0 := by
      rw [← Fin.sum_univ_eq_sum_range (fun j => if decide (g ((drawn f).getD j (0, 0)) % 2 = 1) ≠ decide (k ((drawn f).getD j (0, 0)) % 2 = 1)
        then 1 else 0), eq_sub_iff_add_eq]
      push_cast
      rw [← Finset.sum_add_distrib]
      rw [Finset.sum_congr rfl (g := fun _ => (1 : ℝ))]
      · simp
      · intro i _
        have hd : (drawn f).getD i.val (0, 0) = (f i).val := by
          rw [List.getD_eq_getElem?_getD]
          simp [drawn]
        rw [hd]
        rcases Nat.mod_two_eq_zero_or_one (g (f i).val) with h1 | h1 <;> rcases Nat.mod_two_eq_zero_or_one (k (f i).val) with h2 | h2 <;>
          simp [h1, h2]
    have hcast : ((1 - 2 * ((∑ j ∈ Finset.range (64 * precision),
        if decide (g ((drawn f).getD j (0, 0)) % 2 = 1) ≠ decide (k ((drawn f).getD j (0, 0)) % 2 = 1) then 1 else 0 : ℕ) : ℚ) /
          ((64 * precision : ℕ) : ℚ) : ℚ) : ℝ) = 1 - 2 * ((∑ j ∈ Finset.range (64 * precision),
        if decide (g ((drawn f).getD j (0, 0)) % 2 = 1) ≠ decide (k ((drawn f).getD j (0, 0)) % 2 = 1) then 1 else 0 : ℕ) : ℝ) /
          ((64 * precision : ℕ) : ℝ) := by
      rw [Rat.cast_sub, Rat.cast_div, Rat.cast_mul, Rat.cast_natCast, Rat.cast_natCast]
      norm_num
    rw [hcast, hsum]
    field_simp
    ring

/-- **C118** partial: with coefficients which are all different, as the library draws them, `lsb_minhash_similarity` is in the mean
`2 * t - 1`, where `t` is the share of the coefficients for which the integers of the two items have the same parity; its variance is four
times that of the share of `h` coefficients drawn without repetition, so that it is seldom far from it. Missing: this is not the Jaccard
similarity (see below). -/
theorem lsb_minhash_estimates_partial {C : Finset (Nat × Nat)} {setOrd : List Nat → List Nat} (hso : LawfulOrder setOrd) (hash : τ → Nat)
    {precision : Nat} (hp : 1 ≤ precision) (hC : 64 * precision ≤ C.card) (x y : List τ) (t : ℝ) (ht : t = agreeingParity C setOrd hash x y) :
    ∃ X : (Fin (64 * precision) ↪ C) → ℚ,
      (∀ f : Fin (64 * precision) ↪ C, lsbMinhashSimilarity (lsbCreateSignature setOrd hash precision (drawn f) x)
        (lsbCreateSignature setOrd hash precision (drawn f) y) = .ok (X f)) ∧
      average (fun f => (X f : ℝ)) = 2 * t - 1 ∧
      average (fun f => ((X f : ℝ) - (2 * t - 1)) ^ 2) =
        4 * (t * (1 - t) / (64 * precision : ℕ) * ((C.card - (64 * precision : ℕ)) / (C.card - 1))) ∧
      ∀ ε > 0, share (fun f => ε ≤ |(X f : ℝ) - (2 * t - 1)|) ≤
        4 * (t * (1 - t) / (64 * precision : ℕ) * ((C.card - (64 * precision : ℕ)) / (C.card - 1))) / ε ^ 2 := by
  obtain ⟨G, _, hG, hX⟩ := lsb_similarity_drawn (C := C) hso hash hp x y
  rw [← ht] at hG
  choose X hX1 hX2 using hX
  have h64 : 0 < 64 * precision := by omega
  have hne : Nonempty (Fin (64 * precision) ↪ C) := by
    rw [Function.Embedding.nonempty_iff_card_le]
    simpa using hC
  have hv : average (fun f : Fin (64 * precision) ↪ C => ((X f : ℝ) - (2 * t - 1)) ^ 2) =
      4 * (t * (1 - t) / (64 * precision : ℕ) * ((C.card - (64 * precision : ℕ)) / (C.card - 1))) := by
    have h1 := variance_places_embedding (σ := C) h64 (by simpa using hC) (by rw [Fintype.card_coe]; omega) G
    rw [Fintype.card_coe, ← hG] at h1
    rw [← h1, ← average_mul]
    congr 1
    funext f
    rw [hX2]
    ring
  refine ⟨fun f : Fin (64 * precision) ↪ C => X f, fun f => hX1 f, ?_, hv, ?_⟩
  · have h1 := average_places_embedding (σ := C) h64 (by simpa using hC) G
    rw [← hG] at h1
    simp only [hX2, sub_eq_add_neg]
    rw [average_add, average_mul, h1, average_const]
  · intro ε hε
    rw [← hv]
    exact chebyshev _ _ hε

example : ∃ X : (Fin (64 * 1) ↪ ↥(Finset.Icc 1 8 ×ˢ Finset.Icc 0 8)) → ℚ,
    average (fun f => (X f : ℝ)) = 2 * agreeingParity (Finset.Icc 1 8 ×ˢ Finset.Icc 0 8) List.reverse id [1, 2] [2, 3] - 1 := by
  obtain ⟨X, _, h, _⟩ := lsb_minhash_estimates_partial (C := Finset.Icc 1 8 ×ˢ Finset.Icc 0 8) List.reverse_perm (id : Nat → Nat)
    (precision := 1) (by decide) (by decide) [1, 2] [2, 3] _ rfl
  exact ⟨X, h⟩

/-- With an even integer kept as it is and the integers from `M` on replaced by `M`, which is odd, at most half of the `b` give an even
integer. -/
theorem even_count {M p n a : Nat} (hM : M = 2 * n + 1) (hp : p = M + 16) (ha : a ≤ M) :
    ((Finset.Icc 0 M).filter fun b => min ((a + b) % p) M % 2 = 0).card ≤ if a = 16 then n else n + 1 := by
  have step : ∀ b ≤ M, (a + b) % p = if a + b < p then a + b else a + b - p := by
    intro b hb
    split
    · exact Nat.mod_eq_of_lt (by assumption)
    · rw [Nat.mod_eq_sub_mod (by omega), Nat.mod_eq_of_lt (by omega)]
  have inj : Set.InjOn (fun b => (a + b) % p / 2) ((Finset.Icc 0 M).filter fun b => min ((a + b) % p) M % 2 = 0) := by
    intro b hb c hc h
    simp only [Finset.coe_filter, Finset.mem_Icc, Set.mem_setOf_eq] at hb hc h
    rw [step b hb.1.2] at hb h
    rw [step c hc.1.2] at hc h
    grind
  have lt : ∀ b, b ≤ M → min ((a + b) % p) M % 2 = 0 → (a + b) % p / 2 < n + 1 := by
    intro b _ h
    omega
  rw [← Finset.card_image_of_injOn inj]
  split
  · rename_i h16
    by_cases hn : 1 < n + 1
    · refine le_trans (Finset.card_le_card (t := (Finset.range (n + 1)).erase 1) ?_) ?_
      · intro v hv
        rw [Finset.mem_image] at hv
        obtain ⟨b, hb, rfl⟩ := hv
        simp only [Finset.mem_filter, Finset.mem_Icc] at hb
        rw [Finset.mem_erase, Finset.mem_range]
        refine ⟨?_, lt b hb.1.2 hb.2⟩
        have hs := step b hb.1.2
        grind
      · rw [Finset.card_erase_of_mem (by simpa using hn), Finset.card_range]
        omega
    · omega
  · refine le_trans (Finset.card_le_card (t := Finset.range (n + 1)) ?_) (by simp)
    intro v hv
    rw [Finset.mem_image] at hv
    obtain ⟨b, hb, rfl⟩ := hv
    simp only [Finset.mem_filter, Finset.mem_Icc] at hb
    rw [Finset.mem_range]
    exact lt b hb.1.2 hb.2

/-- **C118** is false: with the coefficients of the library, the mean for an empty sequence and the sequence of the integer 1 is less than
zero. -/
theorem lsb_minhash_biased {setOrd : List Nat → List Nat} (hso : LawfulOrder setOrd) {precision : Nat} (hp : 1 ≤ precision)
    (hC : 64 * precision ≤ 2 ^ 32) :
    jaccardSimilarity false ([] : List Nat) [1] = 0 ∧
    ∃ X : (Fin (64 * precision) ↪ ↥(Finset.Icc 1 maxUint32 ×ˢ Finset.Icc 0 maxUint32)) → ℚ,
      (∀ f : Fin (64 * precision) ↪ ↥(Finset.Icc 1 maxUint32 ×ˢ Finset.Icc 0 maxUint32),
        lsbMinhashSimilarity (lsbCreateSignature setOrd id precision (drawn f) []) (lsbCreateSignature setOrd id precision (drawn f) [1]) =
          .ok (X f)) ∧
      average (fun f => (X f : ℝ)) < 0 := by
  refine ⟨by decide +kernel, ?_⟩
  obtain ⟨X, h1, h2, _⟩ := lsb_minhash_estimates_partial (C := Finset.Icc 1 maxUint32 ×ˢ Finset.Icc 0 maxUint32) hso (id : Nat → Nat) hp (by
      rw [Finset.card_product, Nat.card_Icc, Nat.card_Icc]
      exact le_trans hC (by decide)) [] [1] _ rfl
  refine ⟨X, h1, ?_⟩
  rw [h2]
  have hempty : ∀ c : Nat × Nat, createSignature setOrd (id : Nat → Nat) [c] [] = [0] := by
    intro c
    unfold createSignature
    rw [if_pos ((length_tokenSet hso).mpr rfl)]
    rfl
  have hone : ∀ c : Nat × Nat, createSignature setOrd (id : Nat → Nat) [c] [1] = [min ((c.1 + c.2) % nextPrime) maxUint32] := by
    intro c
    have ht : tokenSet setOrd (id : Nat → Nat) [1] = [1] := by
      have := hso (dedup ([1].map (id : Nat → Nat)))
      exact List.perm_singleton.mp this
    unfold createSignature
    rw [ht]
    simp only [List.length_singleton, one_ne_zero, if_false, List.map_cons, List.map_nil, minHash, List.foldl_cons, List.foldl_nil, mul_one]
    congr 1
    split <;> omega
  have he : agreeingParity (Finset.Icc 1 maxUint32 ×ˢ Finset.Icc 0 maxUint32) setOrd (id : Nat → Nat) [] [1] =
      share fun c : ↥(Finset.Icc 1 maxUint32 ×ˢ Finset.Icc 0 maxUint32) => min ((c.val.1 + c.val.2) % nextPrime) maxUint32 % 2 = 0 := by
    unfold agreeingParity
    apply share_congr
    intro c
    rw [hempty, hone]
    simp only [List.map_cons, List.map_nil, List.cons.injEq, and_true]
    exact eq_comm
  rw [he, share_finset (Finset.Icc 1 maxUint32 ×ˢ Finset.Icc 0 maxUint32)
    (fun c : Nat × Nat => min ((c.1 + c.2) % nextPrime) maxUint32 % 2 = 0), card_filter_box]
  have hle : ∑ a ∈ Finset.Icc 1 maxUint32, ((Finset.Icc 0 maxUint32).filter fun b => min ((a + b) % nextPrime) maxUint32 % 2 = 0).card <
      maxUint32 * 2 ^ 31 := by
    have h3 : ∀ a ∈ Finset.Icc 1 maxUint32, ((Finset.Icc 0 maxUint32).filter fun b => min ((a + b) % nextPrime) maxUint32 % 2 = 0).card ≤
        if a = 16 then 2 ^ 31 - 1 else 2 ^ 31 := by
      intro a ha
      exact even_count (n := 2 ^ 31 - 1) (by decide) (by decide) (Finset.mem_Icc.mp ha).2
    have h4 : ∑ a ∈ Finset.Icc 1 maxUint32, (if a = 16 then 2 ^ 31 - 1 else 2 ^ 31) < ∑ a ∈ Finset.Icc 1 maxUint32, 2 ^ 31 := by
      apply Finset.sum_lt_sum
      · intro a _
        split <;> omega
      · exact ⟨16, by rw [Finset.mem_Icc]; decide, by rw [if_pos rfl]; decide⟩
    rw [Finset.sum_const, Nat.card_Icc, smul_eq_mul] at h4
    exact lt_of_le_of_lt (Finset.sum_le_sum h3) h4
  generalize ∑ a ∈ Finset.Icc 1 maxUint32, ((Finset.Icc 0 maxUint32).filter fun b => min ((a + b) % nextPrime) maxUint32 % 2 = 0).card = S at hle ⊢
  have hle' : (S : ℝ) < 4294967295 * 2 ^ 31 := by
    have : S < 4294967295 * 2 ^ 31 := hle
    exact_mod_cast this
  rw [Finset.card_product, Nat.card_Icc, Nat.card_Icc]
  have hcard : (((maxUint32 + 1 - 1) * (maxUint32 + 1 - 0) : ℕ) : ℝ) = 4294967295 * 2 ^ 32 := by
    have : (maxUint32 + 1 - 1) * (maxUint32 + 1 - 0) = 4294967295 * 2 ^ 32 := by decide
    rw [this]
    norm_num
  rw [hcard]
  have : (S : ℝ) / (4294967295 * 2 ^ 32) < 1 / 2 := by
    rw [div_lt_iff₀ (by norm_num)]
    linarith
  linarith

/-- With the default precision. -/
example : jaccardSimilarity false ([] : List Nat) [1] = 0 :=
  (lsb_minhash_biased (setOrd := id) (fun _ => List.Perm.refl _) (precision := 8) (by decide) (by decide)).1

end Fog.Props
