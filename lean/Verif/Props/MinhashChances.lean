import Verif.Props.MinhashBands
import Verif.Lemmas.Chance
import Verif.Lemmas.ChanceDistinct
import Mathlib.Order.Interval.Finset.Nat
import Mathlib.Data.Finset.Prod

/-!
# C114 and C115: the chances of minhash

The `h` pairs of coefficients of `MinHash` are drawn among the pairs of `C`, all as likely: with repetition when numpy draws them
(`Fin h → C`), without when they are gathered in a set (`Fin h ↪ C`). For two given items, `agreeing` is the share of the pairs of `C` for
which the signatures made of this one pair are the same.
-/

namespace Fog.Props

open MinhashClustering Minhash Metrics KeyCollision ClusteringUtils Spec

variable {τ : Type _}

/-- The coefficients, as a list. -/
def drawn {C : Finset (Nat × Nat)} {h : Nat} (f : Fin h → C) : List (Nat × Nat) := List.ofFn fun i => (f i).val

/-- The share of the pairs of coefficients on which two items agree. -/
noncomputable def agreeing (C : Finset (Nat × Nat)) (setOrd : List Nat → List Nat) (hash : τ → Nat) (x y : List τ) : ℝ :=
  share fun c : C => createSignature setOrd hash [c.val] x = createSignature setOrd hash [c.val] y

/-- Each integer of a signature depends on its own coefficients. -/
theorem signature_pointwise (setOrd : List Nat → List Nat) (hash : τ → Nat) (s : List τ) :
    ∃ g : Nat × Nat → Nat, ∀ params, createSignature setOrd hash params s = params.map g := by
  unfold createSignature
  by_cases h : (tokenSet setOrd hash s).length = 0
  · refine ⟨fun _ => 0, fun params => ?_⟩
    simp only [h, if_true]
    simp [List.map_const']
  · refine ⟨fun p => minHash p.1 p.2 (tokenSet setOrd hash s), fun params => ?_⟩
    simp only [h, if_false]

theorem countP_ofFn {α : Type _} (p : α → Bool) : ∀ {n : Nat} (f : Fin n → α),
    ((List.ofFn f).countP p : ℝ) = ∑ i, if p (f i) = true then (1 : ℝ) else 0 := by
  intro n
  induction n with
  | zero => intro f; simp
  | succ n ih =>
      intro f
      rw [List.ofFn_succ, List.countP_cons, Fin.sum_univ_succ, Nat.cast_add, ih, add_comm]
      congr 1
      split <;> simp

theorem minhash_similarity_drawn {C : Finset (Nat × Nat)} {setOrd : List Nat → List Nat} (hash : τ → Nat) {h : Nat} (hh : 1 ≤ h)
    (x y : List τ) : ∃ G : C → Prop, ∃ _ : DecidablePred G,
      agreeing C setOrd hash x y = share G ∧
      ∀ f : Fin h → C, ∃ q : ℚ, minhashSimilarity (createSignature setOrd hash (drawn f) x) (createSignature setOrd hash (drawn f) y) =
        .ok q ∧ (q : ℝ) = (∑ i, if G (f i) then (1 : ℝ) else 0) / h := by
  obtain ⟨g, hg⟩ := signature_pointwise setOrd hash x
  obtain ⟨k, hk⟩ := signature_pointwise setOrd hash y
  refine ⟨fun c => g c.val = k c.val, fun _ => inferInstance, ?_, ?_⟩
  · unfold agreeing
    apply share_congr
    intro c
    rw [hg, hk]
    simp
  · intro f
    rw [hg, hk]
    have hlen : (drawn f).length = h := by simp [drawn]
    obtain ⟨q, h1, _, h2, _⟩ := minhash_similarity_eq (A := (drawn f).map g) (B := (drawn f).map k) (by simp) (by
      intro h0
      have := congrArg List.length h0
      rw [List.length_map, hlen, List.length_nil] at this
      omega)
    refine ⟨q, h1, ?_⟩
    rw [h2, List.zip_map', List.countP_map, List.length_map, hlen]
    push_cast
    congr 1
    unfold drawn
    rw [countP_ofFn]
    simp

/-- **C114**: with coefficients drawn with repetition, `minhash_similarity` of the signatures of two items is in the mean the share of the
coefficients on which they agree, with the variance of `h` independent draws; so it is seldom far from it. -/
theorem minhash_similarity_estimates_partial {C : Finset (Nat × Nat)} (hC : C.Nonempty) (setOrd : List Nat → List Nat) (hash : τ → Nat)
    {h : Nat} (hh : 1 ≤ h) (x y : List τ) :
    ∃ X : (Fin h → C) → ℚ,
      (∀ f, minhashSimilarity (createSignature setOrd hash (drawn f) x) (createSignature setOrd hash (drawn f) y) = .ok (X f)) ∧
      average (fun f => (X f : ℝ)) = agreeing C setOrd hash x y ∧
      average (fun f => ((X f : ℝ) - agreeing C setOrd hash x y) ^ 2) =
        agreeing C setOrd hash x y * (1 - agreeing C setOrd hash x y) / h ∧
      ∀ ε > 0, share (fun f => ε ≤ |(X f : ℝ) - agreeing C setOrd hash x y|) ≤
        agreeing C setOrd hash x y * (1 - agreeing C setOrd hash x y) / h / ε ^ 2 := by
  obtain ⟨G, _, hG, hX⟩ := minhash_similarity_drawn (C := C) (setOrd := setOrd) hash hh x y
  have : Nonempty C := hC.to_subtype
  choose X hX1 hX2 using hX
  have hv : average (fun f => ((X f : ℝ) - share G) ^ 2) = share G * (1 - share G) / h := by
    simp only [hX2]
    exact variance_places hh G
  refine ⟨X, hX1, ?_, ?_, ?_⟩
  · rw [hG]
    simp only [hX2]
    exact average_places hh G
  · rw [hG, hv]
  · intro ε hε
    rw [hG, ← hv]
    exact chebyshev _ _ hε

/-- **C114**: the mean is the same with coefficients which are all different, and the variance is smaller. -/
theorem minhash_similarity_estimates_distinct_partial {C : Finset (Nat × Nat)} (setOrd : List Nat → List Nat) (hash : τ → Nat)
    {h : Nat} (hh : 1 ≤ h) (hC : h ≤ C.card) (hC2 : 2 ≤ C.card) (x y : List τ) :
    ∃ X : (Fin h ↪ C) → ℚ,
      (∀ f : Fin h ↪ C, minhashSimilarity (createSignature setOrd hash (drawn f) x) (createSignature setOrd hash (drawn f) y) = .ok (X f)) ∧
      average (fun f => (X f : ℝ)) = agreeing C setOrd hash x y ∧
      average (fun f => ((X f : ℝ) - agreeing C setOrd hash x y) ^ 2) =
        agreeing C setOrd hash x y * (1 - agreeing C setOrd hash x y) / h * ((C.card - h) / (C.card - 1)) ∧
      ∀ ε > 0, share (fun f => ε ≤ |(X f : ℝ) - agreeing C setOrd hash x y|) ≤
        agreeing C setOrd hash x y * (1 - agreeing C setOrd hash x y) / h * ((C.card - h) / (C.card - 1)) / ε ^ 2 := by
  obtain ⟨G, _, hG, hX⟩ := minhash_similarity_drawn (C := C) (setOrd := setOrd) hash hh x y
  choose X hX1 hX2 using hX
  have hv : average (fun f : Fin h ↪ C => ((X f : ℝ) - share G) ^ 2) = share G * (1 - share G) / h * ((C.card - h) / (C.card - 1)) := by
    simp only [hX2]
    have := variance_places_embedding (σ := C) hh (by simpa using hC) (by simpa using hC2) G
    rwa [Fintype.card_coe] at this
  refine ⟨fun f : Fin h ↪ C => X f, fun f => hX1 f, ?_, ?_, ?_⟩
  · rw [hG]
    simp only [hX2]
    exact average_places_embedding hh (by simpa using hC) G
  · rw [hG, hv]
  · intro ε hε
    rw [hG, ← hv]
    exact chebyshev _ _ hε

/-- **C114**: this share need not be the Jaccard similarity. With the coefficients of the library, two items which have nothing in common
agree on some of them, the hashes from `MAX_UINT32` on being all taken for it. -/
theorem agreeing_not_jaccard :
    jaccardSimilarity false [0] [1] = 0 ∧
    0 < agreeing (Finset.Icc 1 maxUint32 ×ˢ Finset.Icc 0 maxUint32) id id [0] [1] := by
  refine ⟨by decide +kernel, ?_⟩
  unfold agreeing
  apply share_pos (o := ⟨(1, maxUint32), by rw [Finset.mem_product]; simp [maxUint32]⟩)
  decide +kernel

/-- Two items get a key in common for one of the bands. -/
def Meet (setOrd : List Nat → List Nat) (hash : τ → Nat) (bands : Nat) (x y : List τ) (params : List (Nat × Nat)) : Prop :=
  ∃ k, k ∈ bandKeys bands (params.length / bands) (createSignature setOrd hash params x) ∧
    k ∈ bandKeys bands (params.length / bands) (createSignature setOrd hash params y)

/-- **C115**: the share of the coefficients for which two items meet in a band, the bands being of `h // bands` integers. -/
theorem band_chance {C : Finset (Nat × Nat)} (hC : C.Nonempty) (setOrd : List Nat → List Nat) (hash : τ → Nat)
    {h bands : Nat} (hb : 1 ≤ bands) (hbh : bands ≤ h) (x y : List τ) :
    share (fun f : Fin h → C => Meet setOrd hash bands x y (drawn f)) =
      1 - (1 - agreeing C setOrd hash x y ^ (h / bands)) ^ bands := by
  obtain ⟨g, hg⟩ := signature_pointwise setOrd hash x
  obtain ⟨k, hk⟩ := signature_pointwise setOrd hash y
  have : Nonempty C := hC.to_subtype
  have hr : h / bands ≠ 0 := (Nat.div_pos hbh hb).ne'
  have hag : agreeing C setOrd hash x y = share fun c : C => g c.val = k c.val := by
    unfold agreeing
    apply share_congr
    intro c
    rw [hg, hk]
    simp
  obtain ⟨e, he⟩ : ∃ e, h = bands * (h / bands) + e := ⟨h % bands, (Nat.div_add_mod h bands).symm⟩
  rw [hag]
  generalize hrows : h / bands = rows at *
  subst he
  rw [← share_band]
  apply share_congr
  intro f
  have hlen : (drawn f).length = bands * rows + e := by simp [drawn]
  unfold Meet
  rw [hlen, hrows, hg, hk, bandKeys_common hr (by simp [hlen]) (by simp [hlen])]
  unfold AgreeOnBand
  have hget : ∀ i, (h : i < bands * rows + e) → (drawn f)[i]? = some (f ⟨i, h⟩).val := by
    intro i hi
    unfold drawn
    rw [List.getElem?_ofFn, dif_pos hi]
  have hlt : ∀ i < bands, ∀ j < rows, i * rows + j < bands * rows + e := by
    intro i hi j hj
    have h1 : (i + 1) * rows ≤ bands * rows := Nat.mul_le_mul_right rows hi
    rw [Nat.add_mul, Nat.one_mul] at h1
    omega
  constructor
  · rintro ⟨i, hi, h⟩
    refine ⟨i, hi, fun j hj => ⟨hlt i hi j hj, ?_⟩⟩
    have := h (i * rows + j) (by omega) (by rw [Nat.add_mul, Nat.one_mul]; omega)
    rw [List.getElem?_map, List.getElem?_map, hget _ (hlt i hi j hj)] at this
    simpa using this
  · rintro ⟨i, hi, h⟩
    refine ⟨i, hi, fun m h1 h2 => ?_⟩
    rw [Nat.add_mul, Nat.one_mul] at h2
    obtain ⟨h3, h4⟩ := h (m - i * rows) (by omega)
    have h5 : i * rows + (m - i * rows) = m := by omega
    rw [List.getElem?_map, List.getElem?_map, hget m (by rw [← h5]; exact h3)]
    simp only [h5] at h4
    simp [h4]

/-- **C115**: `match_probability` is this share when the bands divide the signature evenly. -/
theorem match_probability_exact_partial {C : Finset (Nat × Nat)} (hC : C.Nonempty) (setOrd : List Nat → List Nat) (hash : τ → Nat)
    {h bands : Nat} (hb : 1 ≤ bands) (hh : 1 ≤ h) (hdvd : bands ∣ h) (x y : List τ) :
    share (fun f : Fin h → C => Meet setOrd hash bands x y (drawn f)) = matchProbability h bands (agreeing C setOrd hash x y) := by
  rw [band_chance hC setOrd hash hb (Nat.le_of_dvd hh hdvd)]
  unfold matchProbability
  have hbz : (bands : ℝ) ≠ 0 := by exact_mod_cast (by omega : bands ≠ 0)
  rw [show (h : ℝ) / bands = ((h / bands : ℕ) : ℝ) by rw [Nat.cast_div hdvd hbz], Real.rpow_natCast]

/-- **C115**: otherwise it is less than this share, the exponent `h / bands` of the formula being more than the `h // bands` integers of a
band; unless the items agree on all the coefficients or on none. -/
theorem match_probability_under {C : Finset (Nat × Nat)} (hC : C.Nonempty) (setOrd : List Nat → List Nat) (hash : τ → Nat)
    {h bands : Nat} (hb : 1 ≤ bands) (hbh : bands ≤ h) (hdvd : ¬ bands ∣ h) (x y : List τ)
    (h0 : 0 < agreeing C setOrd hash x y) (h1 : agreeing C setOrd hash x y < 1) :
    matchProbability h bands (agreeing C setOrd hash x y) < share (fun f : Fin h → C => Meet setOrd hash bands x y (drawn f)) := by
  rw [band_chance hC setOrd hash hb hbh]
  unfold matchProbability
  generalize agreeing C setOrd hash x y = s at *
  have hbz : (0 : ℝ) < bands := by exact_mod_cast hb
  have hlt : ((h / bands : ℕ) : ℝ) < (h : ℝ) / bands := by
    rw [lt_div_iff₀ hbz]
    have h2 : h / bands * bands ≠ h := fun h2 => hdvd ⟨h / bands, by rw [Nat.mul_comm]; exact h2.symm⟩
    have h3 := Nat.div_mul_le_self h bands
    exact_mod_cast lt_of_le_of_ne h3 h2
  have hpow : s ^ ((h : ℝ) / bands) < s ^ (h / bands) := by
    rw [← Real.rpow_natCast]
    exact Real.rpow_lt_rpow_of_exponent_gt h0 h1 hlt
  have hle : s ^ (h / bands) ≤ 1 := pow_le_one₀ h0.le h1.le
  have := pow_lt_pow_left₀ (show 1 - s ^ (h / bands) < 1 - s ^ ((h : ℝ) / bands) by linarith) (by linarith) (by omega : bands ≠ 0)
  linarith

/-- **C115**: with coefficients which are all different, the share is that of the draws with repetition up to `h (h - 1) / 2` over the number
of pairs of coefficients. -/
theorem band_chance_distinct {C : Finset (Nat × Nat)} (hC : C.Nonempty) (setOrd : List Nat → List Nat) (hash : τ → Nat)
    {h bands : Nat} (hb : 1 ≤ bands) (hbh : bands ≤ h) (hh : h ≤ C.card) (x y : List τ) :
    |share (fun f : Fin h ↪ C => Meet setOrd hash bands x y (drawn f)) - (1 - (1 - agreeing C setOrd hash x y ^ (h / bands)) ^ bands)| ≤
      (h : ℝ) * (h - 1) / 2 / C.card := by
  rw [← band_chance hC setOrd hash hb hbh]
  have : Nonempty C := hC.to_subtype
  have h1 := share_embedding (σ := C) (h := h) (by simpa using hh) (fun f => Meet setOrd hash bands x y (drawn f))
  rwa [Fintype.card_coe] at h1

/-! The items `[1, 2]` and `[2, 3]` agree on one of these two pairs of coefficients: they meet, with two integers in two bands, with
chance three quarters, which is also their chance with three integers, whereas `match_probability` then tells less. -/

/-- Two pairs of coefficients. -/
def twoPairs : Finset (Nat × Nat) := {(1, 0), (2147483656, 0)}

theorem agreeing_twoPairs : agreeing twoPairs id id [1, 2] [2, 3] = 1 / 2 := by
  have : agreeing twoPairs id id [1, 2] [2, 3] =
      ((Finset.univ.filter fun c : twoPairs => createSignature id id [c.val] [1, 2] = createSignature id id [c.val] [2, 3]).card : ℝ) /
        Fintype.card twoPairs := share_of_card (by simp)
  rw [this, show (Finset.univ.filter fun c : twoPairs => createSignature id id [c.val] [1, 2] = createSignature id id [c.val] [2, 3]).card =
    1 by decide +kernel, Fintype.card_coe, show twoPairs.card = 2 by decide +kernel]
  norm_num

example : share (fun f : Fin 2 → twoPairs => Meet id id 2 [1, 2] [2, 3] (drawn f)) = 3 / 4 := by
  rw [band_chance ⟨(1, 0), by decide⟩ id id (by omega) (by omega), agreeing_twoPairs]
  norm_num

example : share (fun f : Fin 2 → twoPairs => Meet id id 2 [1, 2] [2, 3] (drawn f)) = matchProbability 2 2 (1 / 2) := by
  rw [← agreeing_twoPairs]
  exact match_probability_exact_partial ⟨(1, 0), by decide⟩ id id (by omega) (by omega) (by omega) _ _

example : matchProbability 3 2 (1 / 2) < 3 / 4 := by
  have h := match_probability_under (C := twoPairs) ⟨(1, 0), by decide⟩ id id (h := 3) (bands := 2) (by omega) (by omega) (by omega) [1, 2] [2, 3]
    (by rw [agreeing_twoPairs]; norm_num) (by rw [agreeing_twoPairs]; norm_num)
  rw [band_chance ⟨(1, 0), by decide⟩ id id (by omega) (by omega), agreeing_twoPairs] at h
  norm_num at h ⊢
  exact h

example : ∃ X : (Fin 4 → twoPairs) → ℚ, average (fun f => (X f : ℝ)) = 1 / 2 ∧ average (fun f => ((X f : ℝ) - 1 / 2) ^ 2) = 1 / 16 := by
  obtain ⟨X, _, h1, h2, _⟩ := minhash_similarity_estimates_partial (C := twoPairs) ⟨(1, 0), by decide⟩ id id (h := 4) (by omega) [1, 2] [2, 3]
  rw [agreeing_twoPairs] at h1 h2
  exact ⟨X, h1, by rw [h2]; norm_num⟩

example : ∃ X : (Fin 2 ↪ twoPairs) → ℚ, average (fun f => (X f : ℝ)) = 1 / 2 := by
  obtain ⟨X, _, h1, _⟩ := minhash_similarity_estimates_distinct_partial (C := twoPairs) id id (h := 2) (by omega) (by decide) (by decide)
    [1, 2] [2, 3]
  exact ⟨X, by rw [h1, agreeing_twoPairs]⟩

example : |share (fun f : Fin 2 ↪ twoPairs => Meet id id 2 [1, 2] [2, 3] (drawn f)) - 3 / 4| ≤ 1 / 2 := by
  have h := band_chance_distinct (C := twoPairs) ⟨(1, 0), by decide⟩ id id (h := 2) (bands := 2) (by omega) (by omega) (by decide) [1, 2] [2, 3]
  rw [agreeing_twoPairs, show twoPairs.card = 2 by decide +kernel] at h
  norm_num at h ⊢
  exact h

end Fog.Props
