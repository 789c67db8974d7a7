import Verif.Model.MinhashClustering
import Verif.Props.Minhash
import Verif.Props.Metrics
import Verif.Lemmas.Buckets

/-!
# C35, C36, C66: minhash clustering
-/

namespace Fog.Props

open MinhashClustering Minhash Metrics KeyCollision ClusteringUtils Spec

variable {α τ : Type _} [DecidableEq α] [DecidableEq τ]

/-! ## C36 -/

theorem guessLoop_spec (h : Nat) (threshold : ℝ) (bands : Nat) (hb : bands ≤ h + 1) :
    bands ≤ guessLoop h threshold bands ∧ guessLoop h threshold bands ≤ h + 1 ∧
    (∀ b, bands ≤ b → b < guessLoop h threshold bands → threshold < similarityThreshold h b) ∧
    (guessLoop h threshold bands ≤ h → similarityThreshold h (guessLoop h threshold bands) ≤ threshold) := by
  induction hn : h + 1 - bands using Nat.strongRecOn generalizing bands with
  | _ n ih =>
      rw [guessLoop]
      split
      · next hle =>
        simp only
        split
        · next ht => exact ⟨le_refl _, by omega, by intro b h1 h2; omega, fun _ => ht⟩
        · next ht =>
          obtain ⟨h1, h2, h3, h4⟩ := ih (h + 1 - (bands + 1)) (by omega) (bands + 1) (by omega) rfl
          refine ⟨by omega, h2, ?_, h4⟩
          intro b hb1 hb2
          rcases Nat.lt_or_ge bands b with hlt | hge
          · exact h3 b hlt hb2
          · have : b = bands := by omega
            subst this
            exact not_le.mp ht
      · exact ⟨le_refl _, by omega, by intro b h1 h2; omega, by omega⟩

/-- With as many bands as rows, the threshold is the inverse of their number, and it is not larger with less bands. -/
theorem similarityThreshold_ge {h b : Nat} (hb : 1 ≤ b) (hle : b ≤ h) :
    similarityThreshold h h = 1 / h ∧ 1 / (h : ℝ) ≤ similarityThreshold h b := by
  have hbR : (0 : ℝ) < b := by exact_mod_cast hb
  have hhR : (0 : ℝ) < h := by exact_mod_cast (Nat.lt_of_lt_of_le hb hle)
  have hleR : (b : ℝ) ≤ h := by exact_mod_cast hle
  constructor
  · unfold similarityThreshold
    rw [div_self hhR.ne', div_one, Real.rpow_one]
  · unfold similarityThreshold
    have h1 : 1 / ((h : ℝ) / b) = b / h := by rw [one_div_div]
    rw [h1]
    have hpos : (0 : ℝ) < 1 / b := by positivity
    have hle1 : 1 / (b : ℝ) ≤ 1 := by
      rw [div_le_one hbR]; exact_mod_cast hb
    have hexp : (b : ℝ) / h ≤ 1 := by rw [div_le_one hhR]; exact hleR
    calc 1 / (h : ℝ) ≤ 1 / b := one_div_le_one_div_of_le hbR hleR
      _ = (1 / (b : ℝ)) ^ (1 : ℝ) := (Real.rpow_one _).symm
      _ ≤ (1 / (b : ℝ)) ^ ((b : ℝ) / h) := Real.rpow_le_rpow_of_exponent_ge hpos hle1 hexp

/-- **C36** partial: from the inverse of `h` on, `guess_bands` gives the smallest number of bands, between one and `h`, whose
threshold is at most the given one. Missing: lower thresholds, see below. -/
theorem guess_bands_partial {h : Nat} (hh : 1 ≤ h) {threshold : ℝ} (ht : 1 / (h : ℝ) ≤ threshold) :
    1 ≤ guessBands h threshold ∧ guessBands h threshold ≤ h ∧
    similarityThreshold h (guessBands h threshold) ≤ threshold ∧
    ∀ b, 1 ≤ b → b < guessBands h threshold → threshold < similarityThreshold h b := by
  obtain ⟨h1, h2, h3, h4⟩ := guessLoop_spec h threshold 1 (by omega)
  have hle : guessBands h threshold ≤ h := by
    by_contra hc
    have h5 := h3 h hh (by unfold guessBands at hc; omega)
    rw [(similarityThreshold_ge hh (le_refl h)).1] at h5
    exact absurd ht (not_le.mpr h5)
  exact ⟨h1, hle, h4 hle, fun b hb hlt => h3 b hb hlt⟩

/-- **C36** is false for a threshold lower than the inverse of `h`: the number of bands given is `h + 1`. -/
theorem guess_bands_low {h : Nat} (hh : 1 ≤ h) {threshold : ℝ} (ht : threshold < 1 / (h : ℝ)) :
    guessBands h threshold = h + 1 := by
  obtain ⟨h1, h2, _, h4⟩ := guessLoop_spec h threshold 1 (by omega)
  unfold guessBands
  by_contra hc
  have hle : guessLoop h threshold 1 ≤ h := by omega
  have := (similarityThreshold_ge h1 hle).2
  have := h4 hle
  linarith

-- The default `h` and radius.
example : 1 ≤ 256 ∧ 1 / ((256 : ℕ) : ℝ) ≤ 0.8 := ⟨by omega, by norm_num⟩

/-- **C36** is false for a low radius: clustering then raises a `ValueError` on any data. -/
theorem minhash_low_radius (ord : α → List α → List α) (setOrd : List Nat → List Nat) (hash : τ → Nat) {params : List (Nat × Nat)}
    (hp : params ≠ []) (same : α → α → Bool) (keyOf : α → List τ) {data : List α} (hd : data ≠ []) {radius : ℚ}
    (hr : (radius : ℝ) < 1 / (params.length : ℝ)) :
    minhash ord setOrd hash params same keyOf data radius none = .error .valueError := by
  unfold minhash
  simp only
  rw [guess_bands_low (List.length_pos_iff.mpr hp) hr, if_neg (by omega), if_pos]
  exact ⟨hd, Nat.div_eq_of_lt (by omega)⟩

/-! ## C35 -/

/-- Two items of the data, the first one before the second, whose signatures agree on a band and whose keys are similar. -/
def MinhashLink (setOrd : List Nat → List Nat) (hash : τ → Nat) (params : List (Nat × Nat)) (same : α → α → Bool)
    (keyOf : α → List τ) (data : List α) (radius : ℚ) (bands : Nat) (a b : α) : Prop :=
  [a, b].Sublist data ∧ radius ≤ jaccardSimilarity (same a b) (keyOf a) (keyOf b) ∧
  ∃ k, k ∈ bandKeys bands (params.length / bands) (createSignature setOrd hash params (keyOf a)) ∧
    k ∈ bandKeys bands (params.length / bands) (createSignature setOrd hash params (keyOf b))

theorem bandKeys_nodup {bands rows : Nat} (hr : rows ≠ 0) (signature : List Nat) : (bandKeys bands rows signature).Nodup := by
  unfold bandKeys
  rw [List.map_map]
  apply List.Nodup.map _ List.nodup_range
  intro i j hij
  simp only [Function.comp, Prod.mk.injEq] at hij
  exact Nat.eq_of_mul_eq_mul_right (Nat.pos_of_ne_zero hr) hij.1

theorem minhash_components {ord : α → List α → List α} (hord : ∀ a l, (ord a l).Perm l) (setOrd : List Nat → List Nat)
    (hash : τ → Nat) (params : List (Nat × Nat)) (same : α → α → Bool) (keyOf : α → List τ) (data : List α) (radius : ℚ)
    {bands : Nat} (hb : 1 ≤ bands) (hbh : bands ≤ params.length) :
    ∃ cs, minhash ord setOrd hash params same keyOf data radius (some bands) = .ok cs ∧
      IsComponents (fun a b => MinhashLink setOrd hash params same keyOf data radius bands a b ∨
        MinhashLink setOrd hash params same keyOf data radius bands b a)
        (fun a => ∃ b, MinhashLink setOrd hash params same keyOf data radius bands a b ∨
        MinhashLink setOrd hash params same keyOf data radius bands b a) (SizeBetween 2 none) cs := by
  have hr : params.length / bands ≠ 0 := by
    have := Nat.div_pos hbh hb
    omega
  unfold minhash clustersFromBuckets
  simp only
  rw [if_neg (by omega), if_neg (by simp [hr])]
  apply clusters_of_relation hord
  have hmem : ∀ a b, (a, b) ∈ ((pairsFromBuckets ((bucketsOf (data.flatMap fun item =>
      (bandKeys bands (params.length / bands) (createSignature setOrd hash params (keyOf item))).map fun k => (k, item))).map
      Prod.snd)).filter fun p => decide (radius ≤ jaccardSimilarity (same p.1 p.2) (keyOf p.1) (keyOf p.2))) ↔
      MinhashLink setOrd hash params same keyOf data radius bands a b := by
    intro a b
    rw [List.mem_filter, mem_pairs_bucketsOf]
    simp only [pair_sublist_entries, decide_eq_true_eq]
    unfold MinhashLink
    constructor
    · rintro ⟨⟨k, h | ⟨_, _, h⟩⟩, h2⟩
      · exact ⟨h.1, h2, k, h.2.1, h.2.2⟩
      · have := (bandKeys_nodup hr (createSignature setOrd hash params (keyOf a))).sublist h
        simp at this
    · rintro ⟨h1, h2, k, h3, h4⟩
      exact ⟨⟨k, Or.inl ⟨h1, h3, h4⟩⟩, h2⟩
  intro a b
  unfold Linked
  rw [hmem, hmem]

/-- **C35**: whatever the coefficients, the clusters are the connected components, of two items or more, of a relation between
items which only holds when the Jaccard index of their keys is at least the radius (or when both keys are empty), and which holds
for any two items with the same set of tokens, which is not empty. `same a b` is whether the keys are the same object. -/
theorem minhash_sound_complete {ord : α → List α → List α} (hord : ∀ a l, (ord a l).Perm l) {setOrd : List Nat → List Nat}
    (hso : LawfulOrder setOrd) (hash : τ → Nat) (params : List (Nat × Nat)) {same : α → α → Bool} {keyOf : α → List τ}
    (hs : ∀ a b, same a b = true → keyOf a = keyOf b) (data : List α) (radius : ℚ) {bands : Nat} (hb : 1 ≤ bands)
    (hbh : bands ≤ params.length) :
    ∃ cs E, minhash ord setOrd hash params same keyOf data radius (some bands) = .ok cs ∧
      IsComponents E (fun a => ∃ b, E a b) (SizeBetween 2 none) cs ∧
      (∀ a b, E a b → a ∈ data ∧ b ∈ data ∧
        (radius ≤ jaccard (keyOf a).toFinset (keyOf b).toFinset ∨ keyOf a = [] ∧ keyOf b = [])) ∧
      (∀ a b, a ∈ data → b ∈ data → a ≠ b → radius ≤ 1 → keyOf a ≠ [] → (∀ t, t ∈ keyOf a ↔ t ∈ keyOf b) → E a b) := by
  obtain ⟨cs, h1, h2⟩ := minhash_components hord setOrd hash params same keyOf data radius hb hbh
  have hjac : ∀ a b, radius ≤ jaccardSimilarity (same a b) (keyOf a) (keyOf b) →
      radius ≤ jaccard (keyOf a).toFinset (keyOf b).toFinset ∨ keyOf a = [] ∧ keyOf b = [] := by
    intro a b h
    by_cases hne : keyOf a = []
    · cases hsame : same a b with
      | true => exact Or.inr ⟨hne, by rw [← hs a b hsame]; exact hne⟩
      | false =>
          rw [hsame, jaccard_similarity_eq] at h
          exact Or.inl h
    · rw [(set_similarities_partial (hs a b) hne).1.1] at h
      exact Or.inl h
  have hsymm : ∀ A B : Finset τ, jaccard A B = jaccard B A := fun A B => (set_similarity_laws A B).1.1
  refine ⟨cs, _, h1, h2, ?_, ?_⟩
  · rintro a b (⟨g1, g2, _⟩ | ⟨g1, g2, _⟩)
    · exact ⟨g1.subset (by simp), g1.subset (by simp), hjac a b g2⟩
    · refine ⟨g1.subset (by simp), g1.subset (by simp), ?_⟩
      rcases hjac b a g2 with g | g
      · left; rw [hsymm]; exact g
      · exact Or.inr ⟨g.2, g.1⟩
  · intro a b ha hb' hab hr1 hne hset
    have hfin : (keyOf a).toFinset = (keyOf b).toFinset := by ext t; simp [hset]
    have hne' : keyOf b ≠ [] := by
      obtain ⟨t, l, hl⟩ := List.exists_cons_of_ne_nil hne
      intro h
      have := (hset t).mp (by rw [hl]; simp)
      rw [h] at this
      simp at this
    have hsig := create_signature_set hso hso hash params hset
    have hband : ∃ k, k ∈ bandKeys bands (params.length / bands) (createSignature setOrd hash params (keyOf a)) := by
      unfold bandKeys
      refine ⟨_, List.mem_map.mpr ⟨0 * (params.length / bands), List.mem_map.mpr ⟨0, List.mem_range.mpr hb, rfl⟩, rfl⟩⟩
    have link : ∀ x y, (keyOf x).toFinset = (keyOf y).toFinset → keyOf x ≠ [] →
        radius ≤ jaccardSimilarity (same x y) (keyOf x) (keyOf y) := by
      intro x y hxy hx
      rw [((set_similarities_partial (hs x y) hx).2.2.2.1).mpr hxy]
      exact hr1
    obtain ⟨k, hk⟩ := hband
    rcases pair_sublist_of_mem ha hb' hab with h | h
    · exact Or.inl ⟨h, link a b hfin hne, k, hk, hsig ▸ hk⟩
    · exact Or.inr ⟨h, link b a hfin.symm hne', k, hsig ▸ hk, hk⟩

/-- **C35**: hence two items with the same set of tokens end up in the same cluster. -/
theorem minhash_identical {ord : α → List α → List α} (hord : ∀ a l, (ord a l).Perm l) {setOrd : List Nat → List Nat}
    (hso : LawfulOrder setOrd) (hash : τ → Nat) (params : List (Nat × Nat)) {same : α → α → Bool} {keyOf : α → List τ}
    (hs : ∀ a b, same a b = true → keyOf a = keyOf b) (data : List α) {radius : ℚ} (hr : radius ≤ 1) {bands : Nat} (hb : 1 ≤ bands)
    (hbh : bands ≤ params.length) {a b : α} (ha : a ∈ data) (hb' : b ∈ data) (hab : a ≠ b) (hne : keyOf a ≠ [])
    (hset : ∀ t, t ∈ keyOf a ↔ t ∈ keyOf b) :
    ∃ cs, minhash ord setOrd hash params same keyOf data radius (some bands) = .ok cs ∧ ∃ c ∈ cs, a ∈ c ∧ b ∈ c := by
  obtain ⟨cs, E, h1, h2, h3, h4⟩ := minhash_sound_complete hord hso hash params hs data radius hb hbh
  have hE := h4 a b ha hb' hab hr hne hset
  refine ⟨cs, h1, ?_⟩
  have hfin : ∃ l, IsComponentOf E a l := by
    classical
    refine ⟨(dedup data).filter fun x => Connected E a x, (nodup_dedup data).filter _, fun x => ?_⟩
    rw [List.mem_filter, mem_dedup]
    simp only [decide_eq_true_eq, and_iff_right_iff_imp]
    intro hc
    have : ∀ x y, Connected E x y → x ∈ data → y ∈ data := by
      intro x y h
      induction h with
      | refl => exact id
      | step hab _ ih => exact fun _ => ih (h3 _ _ hab).2.1
    exact this a x hc ha
  obtain ⟨l, hl⟩ := hfin
  have hal : a ∈ l := (hl.2 a).mpr (.refl a)
  have hbl : b ∈ l := (hl.2 b).mpr (.step hE (.refl b))
  have hlen : 2 ≤ l.length := by
    match l, hal, hbl with
    | [x], h1, h2 =>
        rw [List.mem_singleton] at h1 h2
        exact absurd (h1.trans h2.symm) hab
    | _ :: _ :: _, _, _ => simp
  obtain ⟨c, hc, hac⟩ := h2.complete a ⟨b, hE⟩ l hl ⟨hlen, by simp⟩
  obtain ⟨_, x, _, hx⟩ := h2.sound c hc
  refine ⟨c, hc, hac, (hx.2 b).mpr ?_⟩
  have hxa := (hx.2 a).mp hac
  have trans : ∀ x y z, Connected E x y → Connected E y z → Connected E x z := by
    intro x y z h1 h2
    induction h1 with
    | refl => exact h2
    | step h _ ih => exact .step h (ih h2)
  exact trans x a b hxa (.step hE (.refl b))

/-- **C36** partial: with a radius of at least the inverse of `h`, and no number of bands given, clustering does not raise. -/
theorem minhash_default_partial {ord : α → List α → List α} (hord : ∀ a l, (ord a l).Perm l) (setOrd : List Nat → List Nat)
    (hash : τ → Nat) {params : List (Nat × Nat)} (hp : params ≠ []) (same : α → α → Bool) (keyOf : α → List τ) (data : List α)
    {radius : ℚ} (hr : 1 / (params.length : ℝ) ≤ (radius : ℝ)) :
    ∃ cs, minhash ord setOrd hash params same keyOf data radius none = .ok cs := by
  obtain ⟨h1, h2, _, _⟩ := guess_bands_partial (List.length_pos_iff.mpr hp) hr
  obtain ⟨cs, h3, _⟩ := minhash_components hord setOrd hash params same keyOf data radius h1 h2
  exact ⟨cs, h3⟩

-- Two equal sets of tokens and another one, with four values and two bands.
example : ∃ cs, minhash (fun _ l => l) id (fun n : Nat => n) [(1, 0), (3, 5), (7, 1), (11, 2)] (fun _ _ => false)
    (fun s : List Nat => s) [[1, 2, 3], [3, 3, 2, 1], [9]] (4 / 5) (some 2) = .ok cs ∧
    ∃ c ∈ cs, [1, 2, 3] ∈ c ∧ [3, 3, 2, 1] ∈ c :=
  minhash_identical (fun _ l => List.Perm.refl l) (fun l => List.Perm.refl l) _ _ (by simp) _ (by norm_num) (by omega)
    (by simp) (by simp) (by simp) (by simp) (by simp) (by intro t; simp; omega)

/-! ## C66 -/

/-- **C66**: the probability of a match is between zero and one, is zero and one for the similarities zero and one, grows with
the similarity, and depends only on the number of bands at the threshold of similarity. -/
theorem match_probability_laws {h bands : Nat} (hh : 1 ≤ h) (hb : 1 ≤ bands) :
    (∀ s : ℝ, 0 ≤ s → s ≤ 1 → 0 ≤ matchProbability h bands s ∧ matchProbability h bands s ≤ 1) ∧
    matchProbability h bands 0 = 0 ∧ matchProbability h bands 1 = 1 ∧
    (∀ s t : ℝ, 0 ≤ s → s ≤ t → t ≤ 1 → matchProbability h bands s ≤ matchProbability h bands t) ∧
    matchProbability h bands (similarityThreshold h bands) = 1 - (1 - 1 / (bands : ℝ)) ^ bands := by
  have hbR : (0 : ℝ) < bands := by exact_mod_cast hb
  have hhR : (0 : ℝ) < h := by exact_mod_cast hh
  have he : (0 : ℝ) < (h : ℝ) / bands := div_pos hhR hbR
  have hpow : ∀ s : ℝ, 0 ≤ s → s ≤ 1 → 0 ≤ s ^ ((h : ℝ) / bands) ∧ s ^ ((h : ℝ) / bands) ≤ 1 := fun s h0 h1 =>
    ⟨Real.rpow_nonneg h0 _, Real.rpow_le_one h0 h1 he.le⟩
  unfold matchProbability
  refine ⟨?_, ?_, ?_, ?_, ?_⟩
  · intro s h0 h1
    obtain ⟨p0, p1⟩ := hpow s h0 h1
    constructor
    · have := pow_le_one₀ (n := bands) (sub_nonneg.mpr p1) (by linarith)
      linarith
    · have := pow_nonneg (sub_nonneg.mpr p1) bands
      linarith
  · rw [Real.zero_rpow he.ne']; simp
  · rw [Real.one_rpow, sub_self, zero_pow (by omega), sub_zero]
  · intro s t h0 h1 h2
    obtain ⟨_, p1⟩ := hpow t (le_trans h0 h1) h2
    have hle := Real.rpow_le_rpow h0 h1 he.le
    have := pow_le_pow_left₀ (sub_nonneg.mpr p1) (show 1 - t ^ ((h : ℝ) / bands) ≤ 1 - s ^ ((h : ℝ) / bands) by linarith) bands
    linarith
  · unfold similarityThreshold
    rw [← Real.rpow_mul (by positivity), one_div_mul_cancel he.ne', Real.rpow_one]

end Fog.Props
