import Verif.Props.MinhashCollisions
import Verif.Props.LsbMinhashChances
import Verif.Lemmas.ChanceDraws
import Mathlib.Tactic.Linarith

/-!
# C122: the constructors of MinHash and LSBMinHash end for almost every drawing, and all sets of coefficients are as likely

An outcome gives the first `s` pairs of coefficients drawn, all those of `C` being as likely; what comes next does not matter.
-/

namespace Fog.Props

open MinhashClustering Minhash Metrics KeyCollision ClusteringUtils Spec

variable {τ : Type _}

/-- The pairs of the library (minhash.py l. 80-83, 208-211). -/
def libraryPairs : Finset (Nat × Nat) := Finset.Icc 1 maxUint32 ×ˢ Finset.Icc 0 maxUint32

/-- `s` pairs drawn, then whatever comes. -/
def pairStream {C : Finset (Nat × Nat)} {s : Nat} (o : Fin s → C) (rest : Nat → Nat × Nat) : Nat → Nat × Nat :=
  fun t => if h : t < s then (o ⟨t, h⟩).val else rest t

theorem runAll_done {D : Type _} [DecidableEq D] {h : Nat} : ∀ (s : Nat) (o : Fin s → D) (S : List D), ¬ S.length < h →
    runAll (gather h) s o S = S := by
  intro s
  induction s with
  | zero => intro o S _; rfl
  | succ s ih =>
      intro o S hS
      have : gather h S (o 0) = S := if_neg hS
      simp only [runAll, this]
      exact ih _ _ hS

theorem drawLoop_runAll {C : Finset (Nat × Nat)} (draws : Nat → Nat × Nat) (h : Nat) : ∀ (s : Nat) (o : Fin s → C) (i : Nat) (S : List C),
    (∀ t : Fin s, draws (i + t.val) = (o t).val) →
    drawLoop draws h (s + 1) i (S.map Subtype.val) =
      if (runAll (gather h) s o S).length < h then none else some ((runAll (gather h) s o S).map Subtype.val) := by
  intro s
  induction s with
  | zero =>
      intro o i S _
      rw [drawLoop, List.length_map]
      rfl
  | succ s ih =>
      intro o i S hd
      rw [drawLoop, List.length_map]
      by_cases hl : S.length < h
      · rw [if_pos hl]
        have h0 := hd 0
        simp only [Fin.val_zero, Nat.add_zero] at h0
        have hstep : (if draws i ∈ S.map Subtype.val then S.map Subtype.val else S.map Subtype.val ++ [draws i]) =
            (gather h S (o 0)).map Subtype.val := by
          unfold gather
          rw [if_pos hl, h0]
          by_cases hm : o 0 ∈ S
          · rw [if_pos hm, if_pos (List.mem_map_of_mem hm)]
          · rw [if_neg hm, if_neg]
            · simp
            · intro hm'
              obtain ⟨c, hc, he⟩ := List.mem_map.mp hm'
              exact hm (Subtype.ext he ▸ hc)
        rw [hstep, ih (Fin.tail o) (i + 1) (gather h S (o 0)) (fun t => by
          have := hd t.succ
          rw [Fin.val_succ] at this
          rw [show i + 1 + t.val = i + (t.val + 1) by omega]
          exact this)]
        rfl
      · rw [if_neg hl, runAll_done _ _ _ hl, if_neg hl]

theorem drawParams_runAll {C : Finset (Nat × Nat)} (ord : List (Nat × Nat) → List (Nat × Nat)) {s : Nat} (o : Fin s → C)
    (rest : Nat → Nat × Nat) (h : Nat) :
    drawParams ord (pairStream o rest) h (s + 1) =
      if (runAll (gather h) s o []).length < h then none else some (ord ((runAll (gather h) s o []).map Subtype.val)) := by
  unfold drawParams
  have := drawLoop_runAll (pairStream o rest) h s o 0 [] (fun t => by
    unfold pairStream
    rw [Nat.zero_add, dif_pos t.isLt])
  rw [List.map_nil] at this
  rw [this]
  split <;> rfl

/-! ### C122 -/

/-- **C122**: when there are at least `h` pairs, the constructor is not over after `s` turns for a share of the drawings which is at most the
mean number of draws `c / c + c / (c - 1) + ... + c / (c - h + 1)` over `s`: it ends with probability one. -/
theorem minhash_constructor_ends {C : Finset (Nat × Nat)} (hC : C.Nonempty) (ord : List (Nat × Nat) → List (Nat × Nat)) (h : Nat)
    (hh : h ≤ C.card) (rest : Nat → Nat × Nat) (s : Nat) (hs : 0 < s) :
    share (fun o : Fin s → C => drawParams ord (pairStream o rest) h (s + 1) = none) ≤
      (∑ x ∈ Finset.range h, (C.card : ℝ) / (C.card - x)) / s := by
  have : Nonempty C := hC.to_subtype
  have hcard : Fintype.card C = C.card := Fintype.card_coe C
  have hb := share_gather (D := C) (h := h) (by rw [hcard]; exact hh) s hs
  unfold toGather at hb
  rw [← Finset.range_eq_Ico, hcard] at hb
  refine le_trans (le_of_eq (share_congr fun o => ?_)) hb
  rw [drawParams_runAll]
  split <;> simp_all

/-- **C122**: all the sets of `h` pairs are as likely to be the coefficients. -/
theorem minhash_constructor_uniform {C : Finset (Nat × Nat)} (ord : List (Nat × Nat) → List (Nat × Nat)) (ho : ∀ l, (ord l).Perm l) (h : Nat)
    (rest : Nat → Nat × Nat) (s : Nat) (T T' : Finset (Nat × Nat)) (hT : T ⊆ C) (hT' : T' ⊆ C) (hc : T.card = h) (hc' : T'.card = h) :
    share (fun o : Fin s → C => ∃ params, drawParams ord (pairStream o rest) h (s + 1) = some params ∧ ∀ p, p ∈ params ↔ p ∈ T) =
      share (fun o : Fin s → C => ∃ params, drawParams ord (pairStream o rest) h (s + 1) = some params ∧ ∀ p, p ∈ params ↔ p ∈ T') := by
  have enum : ∀ T : Finset (Nat × Nat), T ⊆ C → T.card = h → ∃ e : Fin h ↪ C, ∀ p : Nat × Nat, p ∈ T ↔ ∃ i, (e i).val = p := by
    rintro T hT rfl
    refine ⟨⟨fun i => ⟨(T.equivFin.symm i).val, hT (T.equivFin.symm i).2⟩, ?_⟩, ?_⟩
    · intro i j hij
      have := congrArg Subtype.val hij
      exact T.equivFin.symm.injective (Subtype.ext this)
    · intro p
      constructor
      · intro hp
        refine ⟨T.equivFin ⟨p, hp⟩, ?_⟩
        show (T.equivFin.symm (T.equivFin ⟨p, hp⟩)).val = p
        rw [Equiv.symm_apply_apply]
      · rintro ⟨i, rfl⟩
        exact (T.equivFin.symm i).2
  obtain ⟨e, he⟩ := enum T hT hc
  obtain ⟨e', he'⟩ := enum T' hT' hc'
  obtain ⟨σ, hσ⟩ := exists_perm_embedding e e'
  have form : ∀ (T : Finset (Nat × Nat)) (o : Fin s → C),
      (∃ params, drawParams ord (pairStream o rest) h (s + 1) = some params ∧ ∀ p, p ∈ params ↔ p ∈ T) ↔
      ¬ (runAll (gather h) s o []).length < h ∧ ∀ p, p ∈ (runAll (gather h) s o []).map Subtype.val ↔ p ∈ T := by
    intro T o
    rw [drawParams_runAll]
    by_cases hl : (runAll (gather h) s o []).length < h
    · rw [if_pos hl]; simp [hl]
    · rw [if_neg hl]
      simp only [Option.some.injEq, hl, not_false_eq_true, true_and]
      constructor
      · rintro ⟨params, rfl, hp⟩ p
        rw [← hp p]
        exact (ho _).mem_iff.symm
      · intro hp
        exact ⟨_, rfl, fun p => by rw [← hp p]; exact (ho _).mem_iff⟩
  simp only [form]
  rw [← share_equiv (Equiv.arrowCongr (Equiv.refl (Fin s)) σ)
    (fun o : Fin s → C => ¬ (runAll (gather h) s o []).length < h ∧ ∀ p, p ∈ (runAll (gather h) s o []).map Subtype.val ↔ p ∈ T')]
  apply share_congr
  intro o
  have h1 : runAll (gather h) s (fun i => σ (o i)) [] = (runAll (gather h) s o []).map σ := runAll_perm σ h s o []
  show _ ↔ ¬ (runAll (gather h) s (fun i => σ (o i)) []).length < h ∧ ∀ p, p ∈ (runAll (gather h) s (fun i => σ (o i)) []).map Subtype.val ↔ p ∈ T'
  rw [h1, List.length_map]
  refine and_congr_right fun _ => ?_
  generalize runAll (gather h) s o [] = S
  have t1 : (∀ p, p ∈ S.map Subtype.val ↔ p ∈ T) ↔ ∀ c : C, c ∈ S ↔ ∃ i, e i = c := by
    constructor
    · intro hp c
      have := hp c.val
      rw [he] at this
      rw [← (List.mem_map_of_injective Subtype.val_injective (a := c) (l := S)), this]
      exact ⟨fun ⟨i, hi⟩ => ⟨i, Subtype.ext hi⟩, fun ⟨i, hi⟩ => ⟨i, congrArg _ hi⟩⟩
    · intro hp p
      rw [he, List.mem_map]
      constructor
      · rintro ⟨c, hc, rfl⟩
        obtain ⟨i, hi⟩ := (hp c).mp hc
        exact ⟨i, congrArg _ hi⟩
      · rintro ⟨i, rfl⟩
        exact ⟨e i, (hp _).mpr ⟨i, rfl⟩, rfl⟩
  have t2 : (∀ p, p ∈ (S.map σ).map Subtype.val ↔ p ∈ T') ↔ ∀ c : C, c ∈ S.map σ ↔ ∃ i, e' i = c := by
    constructor
    · intro hp c
      have := hp c.val
      rw [he'] at this
      rw [← (List.mem_map_of_injective Subtype.val_injective (a := c) (l := S.map σ)), this]
      exact ⟨fun ⟨i, hi⟩ => ⟨i, Subtype.ext hi⟩, fun ⟨i, hi⟩ => ⟨i, congrArg _ hi⟩⟩
    · intro hp p
      rw [he', List.mem_map]
      constructor
      · rintro ⟨c, hc, rfl⟩
        obtain ⟨i, hi⟩ := (hp c).mp hc
        exact ⟨i, congrArg _ hi⟩
      · rintro ⟨i, rfl⟩
        exact ⟨e' i, (hp _).mpr ⟨i, rfl⟩, rfl⟩
  rw [t1, t2]
  constructor
  · intro hp c
    obtain ⟨d, rfl⟩ := σ.surjective c
    rw [List.mem_map_of_injective σ.injective, hp]
    simp only [← hσ, σ.injective.eq_iff]
  · intro hp c
    have := hp (σ c)
    rw [List.mem_map_of_injective σ.injective] at this
    simpa only [← hσ, σ.injective.eq_iff] using this

open Classical in
/-- **C122**: the mean, over the drawings for which the constructor is over after `s` turns, of what does not depend on the order of the
coefficients, is its mean over the tuples of different pairs. -/
theorem minhash_drawn_mean {C : Finset (Nat × Nat)} (ord : List (Nat × Nat) → List (Nat × Nat)) (ho : ∀ l, (ord l).Perm l) (h : Nat)
    (hh : h ≤ C.card) (rest : Nat → Nat × Nat) (s : Nat) (F : List (Nat × Nat) → ℝ) (hF : ∀ l l', l.Perm l' → F l = F l') :
    average (fun o : Fin s → C => ((drawParams ord (pairStream o rest) h (s + 1)).map F).getD 0) =
      share (fun o : Fin s → C => drawParams ord (pairStream o rest) h (s + 1) ≠ none) * average (fun e : Fin h ↪ C => F (drawn e)) := by
  have key := average_gathered (D := C) (h := h) (by rw [Fintype.card_coe]; exact hh) s fun S => F (S.map Subtype.val)
  have e1 : (fun o : Fin s → C => ((drawParams ord (pairStream o rest) h (s + 1)).map F).getD 0) =
      fun o => if (runAll (gather h) s o []).length < h then 0 else F ((runAll (gather h) s o []).map Subtype.val) := by
    funext o
    rw [drawParams_runAll]
    split
    · rfl
    · exact hF _ _ (ho _)
  have e2 : share (fun o : Fin s → C => drawParams ord (pairStream o rest) h (s + 1) ≠ none) =
      share (fun o : Fin s → C => ¬ (runAll (gather h) s o []).length < h) := by
    apply share_congr
    intro o
    rw [drawParams_runAll]
    split <;> simp_all
  have e3 : ∀ e : Fin h ↪ C, (List.ofFn e).map Subtype.val = drawn e := by
    intro e
    unfold drawn
    rw [List.map_ofFn]
    rfl
  rw [e1, e2]
  simp only [e3] at key
  rw [← key]

/-- **C122**: with the coefficients drawn by the constructor, the mean of `minhash_similarity` over the drawings for which it is over is
exactly the share of the pairs on which the two items agree. -/
theorem minhash_similarity_drawn_mean {C : Finset (Nat × Nat)} (ord : List (Nat × Nat) → List (Nat × Nat)) (ho : ∀ l, (ord l).Perm l)
    {h : Nat} (hh : 1 ≤ h) (hC : h ≤ C.card) (setOrd : List Nat → List Nat) (hash : τ → Nat) (x y : List τ) (rest : Nat → Nat × Nat) (s : Nat) :
    ∃ X : List (Nat × Nat) → ℚ,
      (∀ o : Fin s → C, ∀ params, drawParams ord (pairStream o rest) h (s + 1) = some params →
        minhashSimilarity (createSignature setOrd hash params x) (createSignature setOrd hash params y) = .ok (X params)) ∧
      average (fun o : Fin s → C => ((drawParams ord (pairStream o rest) h (s + 1)).map fun params => (X params : ℝ)).getD 0) =
        share (fun o : Fin s → C => drawParams ord (pairStream o rest) h (s + 1) ≠ none) * agreeing C setOrd hash x y := by
  obtain ⟨g, hg⟩ := signature_pointwise setOrd hash x
  obtain ⟨k, hk⟩ := signature_pointwise setOrd hash y
  let X : List (Nat × Nat) → ℚ := fun params => ((params.countP fun p => decide (g p = k p) : Nat) : ℚ) / (params.length : ℚ)
  have hX : ∀ params : List (Nat × Nat), params ≠ [] →
      minhashSimilarity (createSignature setOrd hash params x) (createSignature setOrd hash params y) = .ok (X params) := by
    intro params hne
    rw [hg, hk]
    obtain ⟨q, h1, _, h2, _⟩ := minhash_similarity_eq (A := params.map g) (B := params.map k) (by simp) (by simpa using hne)
    rw [h1]
    congr 1
    rw [h2, List.zip_map', List.countP_map, List.length_map]
    rfl
  refine ⟨X, ?_, ?_⟩
  · intro o params hp
    refine hX params ?_
    rintro rfl
    have := (minhash_params ord ho _ _ _ hp).2.1
    simp at this
    omega
  · rw [minhash_drawn_mean ord ho h hC rest s (fun params => (X params : ℝ)) (fun l l' hl => by
      simp only [X]
      rw [hl.countP_eq, hl.length_eq])]
    congr 1
    obtain ⟨G, _, hG, hY⟩ := minhash_similarity_drawn (C := C) (setOrd := setOrd) hash hh x y
    rw [hG, ← average_places_embedding (σ := C) (h := h) (by omega) (by rw [Fintype.card_coe]; exact hC) G]
    congr 1
    funext e
    obtain ⟨q, h1, h2⟩ := hY e
    rw [hX (drawn e) (by
      intro h0
      have h0 : h = 0 := by simpa [drawn] using congrArg List.length h0
      omega)] at h1
    injection h1 with h1
    rw [h1, h2]

/-- **C122**: so when almost all drawings are over, the mean is near this share. -/
theorem minhash_similarity_drawn_near {C : Finset (Nat × Nat)} (ord : List (Nat × Nat) → List (Nat × Nat)) (ho : ∀ l, (ord l).Perm l)
    {h : Nat} (hh : 1 ≤ h) (hC : h ≤ C.card) (setOrd : List Nat → List Nat) (hash : τ → Nat) (x y : List τ) (rest : Nat → Nat × Nat) (s : Nat)
    (hs : 0 < s) :
    ∃ X : List (Nat × Nat) → ℚ,
      (∀ o : Fin s → C, ∀ params, drawParams ord (pairStream o rest) h (s + 1) = some params →
        minhashSimilarity (createSignature setOrd hash params x) (createSignature setOrd hash params y) = .ok (X params)) ∧
      |average (fun o : Fin s → C => ((drawParams ord (pairStream o rest) h (s + 1)).map fun params => (X params : ℝ)).getD 0) -
        agreeing C setOrd hash x y| ≤ (∑ x ∈ Finset.range h, (C.card : ℝ) / (C.card - x)) / s := by
  obtain ⟨X, h1, h2⟩ := minhash_similarity_drawn_mean ord ho hh hC setOrd hash x y rest s
  refine ⟨X, h1, ?_⟩
  have hne : C.Nonempty := Finset.card_pos.mp (by omega)
  have : Nonempty C := hne.to_subtype
  have hend := minhash_constructor_ends hne ord h hC rest s hs
  have hnot := share_not (fun o : Fin s → C => drawParams ord (pairStream o rest) h (s + 1) = none)
  have hz := share_nonneg (fun o : Fin s → C => drawParams ord (pairStream o rest) h (s + 1) = none)
  have ha0 : 0 ≤ agreeing C setOrd hash x y := share_nonneg _
  have ha1 : agreeing C setOrd hash x y ≤ 1 := share_le_one _
  have hval : share (fun o : Fin s → C => drawParams ord (pairStream o rest) h (s + 1) ≠ none) =
      1 - share (fun o : Fin s → C => drawParams ord (pairStream o rest) h (s + 1) = none) := hnot
  rw [h2, hval, abs_le]
  constructor <;> nlinarith

open Classical in
/-- **C122**: the same of LSBMinHash: the mean over the drawings for which its constructor is over is the one of C118. -/
theorem lsb_minhash_drawn_mean {C : Finset (Nat × Nat)} (ord : List (Nat × Nat) → List (Nat × Nat)) (ho : ∀ l, (ord l).Perm l)
    {precision : Nat} (hp : 1 ≤ precision) (hC : 64 * precision ≤ C.card) {setOrd : List Nat → List Nat} (hso : LawfulOrder setOrd)
    (hash : τ → Nat) (x y : List τ) (rest : Nat → Nat × Nat) (hrest : ∀ t, rest t ∈ C) (s : Nat) :
    ∃ X : List (Nat × Nat) → ℝ,
      (∀ o : Fin s → C, ∀ params, drawParams ord (pairStream o rest) (64 * precision) (s + 1) = some params →
        ∃ q, lsbMinhashSimilarity (lsbCreateSignature setOrd hash precision params x) (lsbCreateSignature setOrd hash precision params y) = .ok q ∧
          (q : ℝ) = X params) ∧
      average (fun o : Fin s → C => ((drawParams ord (pairStream o rest) (64 * precision) (s + 1)).map X).getD 0) =
        share (fun o : Fin s → C => drawParams ord (pairStream o rest) (64 * precision) (s + 1) ≠ none) *
          (2 * agreeingParity C setOrd hash x y - 1) := by
  obtain ⟨G, hdec, hG, hY⟩ := lsb_similarity_drawn (C := C) (setOrd := setOrd) hso hash hp x y
  let X : List (Nat × Nat) → ℝ := fun params =>
    2 * (((params.countP fun p => decide (∃ h : p ∈ C, G ⟨p, h⟩) : Nat) : ℝ) / ((64 * precision : ℕ) : ℝ)) - 1
  have hX : ∀ f : Fin (64 * precision) → C, X (drawn f) =
      2 * ((∑ i, if G (f i) then (1 : ℝ) else 0) / ((64 * precision : ℕ) : ℝ)) - 1 := by
    intro f
    simp only [X]
    congr 3
    unfold drawn
    rw [countP_ofFn]
    apply Finset.sum_congr rfl
    intro i _
    have : (∃ h : (f i).val ∈ C, G ⟨(f i).val, h⟩) ↔ G (f i) := ⟨fun ⟨_, h⟩ => h, fun h => ⟨(f i).2, h⟩⟩
    by_cases hi : G (f i)
    · rw [if_pos hi, if_pos (by simpa [this] using hi)]
    · rw [if_neg hi, if_neg (by simpa [this] using hi)]
  have hform : ∀ params : List (Nat × Nat), params.length = 64 * precision → (∀ p ∈ params, p ∈ C) →
      ∃ f : Fin (64 * precision) → C, params = drawn f := by
    intro params hl hm
    refine ⟨fun i => ⟨params[i.val], hm _ (List.getElem_mem _)⟩, ?_⟩
    unfold drawn
    apply List.ext_getElem
    · simp [hl]
    · intro i h1 h2
      simp
  refine ⟨X, ?_, ?_⟩
  · intro o params hparams
    obtain ⟨_, h2, h3⟩ := minhash_params ord ho _ _ _ hparams
    obtain ⟨f, rfl⟩ := hform params h2 (fun p hpm => by
      obtain ⟨t, ht⟩ := h3 p hpm
      rw [← ht]
      unfold pairStream
      split
      · exact (o _).2
      · exact hrest t)
    obtain ⟨q, hq1, hq2⟩ := hY f
    exact ⟨q, hq1, by rw [hq2, hX]⟩
  · rw [minhash_drawn_mean ord ho _ hC rest s X (fun l l' hl => by
      simp only [X]
      rw [hl.countP_eq])]
    congr 1
    simp only [fun e : Fin (64 * precision) ↪ C => hX e]
    rw [hG, ← average_places_embedding (σ := C) (h := 64 * precision) (by omega) (by rw [Fintype.card_coe]; exact hC) G, Fog.LeastRank.average_sub, average_mul]
    congr 1
    have : Nonempty (Fin (64 * precision) ↪ C) := by
      rw [Function.Embedding.nonempty_iff_card_le]
      simpa using hC
    exact average_const 1

/-- The pairs of the library are many. -/
theorem libraryPairs_card : libraryPairs.card = (2 ^ 32 - 1) * 2 ^ 32 := by
  unfold libraryPairs maxUint32
  rw [Finset.card_product, Nat.card_Icc, Nat.card_Icc]
  norm_num

/-- `MinHash(h=256)`: a million turns are not enough for less than three drawings in ten thousand. -/
example (ord : List (Nat × Nat) → List (Nat × Nat)) (rest : Nat → Nat × Nat) (s : Nat) (hs : s = 1000000) :
    share (fun o : Fin s → libraryPairs => drawParams ord (pairStream o rest) 256 (s + 1) = none) ≤ 3 / 10000 := by
  have hc := libraryPairs_card
  have hne : libraryPairs.Nonempty := Finset.card_pos.mp (by rw [hc]; norm_num)
  refine (minhash_constructor_ends hne ord 256 (by rw [hc]; norm_num) rest s (by omega)).trans ?_
  have hsum : (∑ x ∈ Finset.range 256, (libraryPairs.card : ℝ) / (libraryPairs.card - x)) ≤ ∑ x ∈ Finset.range 256, (257 / 256 : ℝ) := by
    apply Finset.sum_le_sum
    intro x hx
    rw [Finset.mem_range] at hx
    have hx : (x : ℝ) ≤ 256 := by exact_mod_cast hx.le
    have hbig : (100000 : ℝ) ≤ (libraryPairs.card : ℝ) := by rw [hc]; norm_num
    rw [div_le_div_iff₀ (by linarith) (by norm_num)]
    linarith
  rw [Finset.sum_const, Finset.card_range, nsmul_eq_mul] at hsum
  rw [div_le_iff₀ (by rw [hs]; norm_num), hs]
  refine hsum.trans ?_
  norm_num

theorem libraryPairs_small (p : Nat × Nat) (h1 : 1 ≤ p.1) (h2 : p.1 ≤ 100) (h3 : p.2 ≤ 100) : p ∈ libraryPairs := by
  unfold libraryPairs
  have : 100 ≤ maxUint32 := by unfold maxUint32; norm_num
  rw [Finset.mem_product, Finset.mem_Icc, Finset.mem_Icc]
  exact ⟨⟨h1, by omega⟩, by omega, by omega⟩

attribute [local irreducible] libraryPairs in
/-- Two sets of two pairs of the library, as likely one as the other. -/
example (rest : Nat → Nat × Nat) (s : Nat) :
    share (fun o : Fin s → libraryPairs => ∃ params, drawParams id (pairStream o rest) 2 (s + 1) = some params ∧
        ∀ p, p ∈ params ↔ p ∈ ({(1, 0), (2, 0)} : Finset (Nat × Nat))) =
      share (fun o : Fin s → libraryPairs => ∃ params, drawParams id (pairStream o rest) 2 (s + 1) = some params ∧
        ∀ p, p ∈ params ↔ p ∈ ({(3, 7), (5, 7)} : Finset (Nat × Nat))) := by
  refine minhash_constructor_uniform id (fun _ => .refl _) 2 rest s _ _ (Finset.subset_iff.mpr ?_) (Finset.subset_iff.mpr ?_) rfl rfl
  · intro p hp
    simp only [Finset.mem_insert, Finset.mem_singleton] at hp
    have : 1 ≤ p.1 ∧ p.1 ≤ 100 ∧ p.2 ≤ 100 := by rcases hp with rfl | rfl <;> simp
    exact libraryPairs_small p this.1 this.2.1 this.2.2
  · intro p hp
    simp only [Finset.mem_insert, Finset.mem_singleton] at hp
    have : 1 ≤ p.1 ∧ p.1 ≤ 100 ∧ p.2 ≤ 100 := by rcases hp with rfl | rfl <;> simp
    exact libraryPairs_small p this.1 this.2.1 this.2.2

end Fog.Props
