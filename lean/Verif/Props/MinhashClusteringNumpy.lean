import Verif.Model.MinhashClusteringNumpy
import Verif.Props.MinhashBands
import Verif.Props.MinhashNumpyChances

/-!
# C143: minhash clustering with numpy
-/

namespace Fog.Props

open MinhashClustering Minhash Metrics KeyCollision ClusteringUtils Spec

variable {α τ : Type _} [DecidableEq α] [DecidableEq τ]

omit [DecidableEq τ] in
theorem numpy_signature_length {setOrd : List Nat → List Nat} (hso : LawfulOrder setOrd) (hash : τ → Nat) {A B : List Nat}
    (hAB : A.length = B.length) (s : List τ) : (createSignatureNumpy setOrd hash A B s).length = A.length := by
  obtain ⟨g, hg⟩ := numpy_signature_pointwise hso hash s
  rw [hg A B hAB]
  simp [hAB]

omit [DecidableEq τ] in
/-- **C143**: with numpy, the signature is a function of the set of tokens. -/
theorem numpy_signature_set {ord ord' : List Nat → List Nat} (ho : LawfulOrder ord) (ho' : LawfulOrder ord') (hash : τ → Nat) {A B : List Nat}
    (hAB : A.length = B.length) {s s' : List τ} (h : ∀ t, t ∈ s ↔ t ∈ s') :
    createSignatureNumpy ord hash A B s = createSignatureNumpy ord' hash A B s' := by
  have hnil : s = [] ↔ s' = [] := by
    rw [List.eq_nil_iff_forall_not_mem, List.eq_nil_iff_forall_not_mem]
    exact forall_congr' fun t => not_congr (h t)
  by_cases hs : s = []
  · rw [hnil.mp hs, hs, numpy_signature_empty ho, numpy_signature_empty ho']
  have hs' : s' ≠ [] := fun h => hs (hnil.mpr h)
  obtain ⟨l1, v1⟩ := numpy_signature_partial ho hash hAB hs
  obtain ⟨l2, v2⟩ := numpy_signature_partial ho' hash hAB hs'
  apply List.ext_getElem?
  intro i
  by_cases hi : i < A.length
  · obtain ⟨n, e1, ⟨t, ht, h1⟩, m1⟩ := v1 i A[i] B[i] (by simp) (by simp)
    obtain ⟨m, e2, ⟨t', ht', h2⟩, m2⟩ := v2 i A[i] B[i] (by simp) (by simp)
    rw [e1, e2]
    have := m1 t' ((h t').mpr ht')
    have := m2 t ((h t).mp ht)
    congr 1
    omega
  · rw [List.getElem?_eq_none (by omega), List.getElem?_eq_none (by omega)]

/-- **C143**: with numpy, the clusters are exactly the connected components, of two items or more, of the relation between items whose
signatures agree on a band and whose Jaccard index is at least the radius. -/
theorem minhash_numpy_exact {ord : α → List α → List α} (hord : ∀ a l, (ord a l).Perm l) {setOrd : List Nat → List Nat}
    (hso : LawfulOrder setOrd) (hash : τ → Nat) {A B : List Nat} (hAB : A.length = B.length) (same : α → α → Bool) (keyOf : α → List τ)
    (data : List α) (radius : ℚ) {bands : Nat} (hb : 1 ≤ bands) (hbh : bands ≤ A.length) :
    ∃ cs, minhashNumpy ord setOrd hash A B same keyOf data radius (some bands) = .ok cs ∧
      IsComponents (fun a b => BandLink (createSignatureNumpy setOrd hash A B) A.length same keyOf data radius bands a b ∨
        BandLink (createSignatureNumpy setOrd hash A B) A.length same keyOf data radius bands b a)
        (fun a => ∃ b, BandLink (createSignatureNumpy setOrd hash A B) A.length same keyOf data radius bands a b ∨
        BandLink (createSignatureNumpy setOrd hash A B) A.length same keyOf data radius bands b a) (SizeBetween 2 none) cs := by
  have hr : A.length / bands ≠ 0 := by
    have := Nat.div_pos hbh hb
    omega
  have hlen : ∀ s : List τ, bands * (A.length / bands) ≤ (createSignatureNumpy setOrd hash A B s).length := by
    intro s
    rw [numpy_signature_length hso hash hAB]
    exact Nat.mul_div_le _ _
  unfold minhashNumpy clustersFromBuckets
  simp only
  rw [if_neg (by omega), if_neg (by simp [hr])]
  apply clusters_of_relation hord
  have hmem : ∀ a b, (a, b) ∈ ((pairsFromBuckets ((bucketsOf (data.flatMap fun item =>
      (bandKeys bands (A.length / bands) (createSignatureNumpy setOrd hash A B (keyOf item))).map fun k => (k, item))).map
      Prod.snd)).filter fun p => decide (radius ≤ jaccardSimilarity (same p.1 p.2) (keyOf p.1) (keyOf p.2))) ↔
      BandLink (createSignatureNumpy setOrd hash A B) A.length same keyOf data radius bands a b := by
    intro a b
    rw [List.mem_filter, mem_pairs_bucketsOf]
    simp only [pair_sublist_entries, decide_eq_true_eq]
    unfold BandLink
    have hj : radius ≤ jaccardSimilarity (same a b) (keyOf a) (keyOf b) ↔
        radius ≤ (if same a b then 1 else jaccard (keyOf a).toFinset (keyOf b).toFinset) := by
      cases hs : same a b with
      | true => simp [jaccardSimilarity]
      | false => rw [jaccard_similarity_eq]; simp
    rw [← bandKeys_common hr (hlen _) (hlen _), ← hj]
    constructor
    · rintro ⟨⟨k, h | ⟨_, _, h⟩⟩, h2⟩
      · exact ⟨h.1, h2, k, h.2.1, h.2.2⟩
      · have := (bandKeys_nodup hr (createSignatureNumpy setOrd hash A B (keyOf a))).sublist h
        simp at this
    · rintro ⟨h1, h2, k, h3, h4⟩
      exact ⟨⟨k, Or.inl ⟨h1, h3, h4⟩⟩, h2⟩
  intro a b
  unfold Linked
  rw [hmem, hmem]

/-- **C143**: hence two items with the same set of tokens end up in the same cluster, whatever the coefficients. -/
theorem minhash_numpy_identical {ord : α → List α → List α} (hord : ∀ a l, (ord a l).Perm l) {setOrd : List Nat → List Nat}
    (hso : LawfulOrder setOrd) (hash : τ → Nat) {A B : List Nat} (hAB : A.length = B.length) (same : α → α → Bool) (keyOf : α → List τ)
    (data : List α) {radius : ℚ} (hr : radius ≤ 1) {bands : Nat} (hb : 1 ≤ bands) (hbh : bands ≤ A.length) {a b : α} (ha : a ∈ data)
    (hb' : b ∈ data) (hab : a ≠ b) (hne : keyOf a ≠ []) (hset : ∀ t, t ∈ keyOf a ↔ t ∈ keyOf b) :
    ∃ cs, minhashNumpy ord setOrd hash A B same keyOf data radius (some bands) = .ok cs ∧ ∃ c ∈ cs, a ∈ c ∧ b ∈ c := by
  obtain ⟨cs, h1, h2⟩ := minhash_numpy_exact hord hso hash hAB same keyOf data radius hb hbh
  refine ⟨cs, h1, ?_⟩
  revert h2
  generalize hEd : (fun a b => BandLink (createSignatureNumpy setOrd hash A B) A.length same keyOf data radius bands a b ∨
        BandLink (createSignatureNumpy setOrd hash A B) A.length same keyOf data radius bands b a) = E
  intro h2
  have h2 : IsComponents E (fun a => ∃ b, E a b) (SizeBetween 2 none) cs := by subst hEd; exact h2
  have h3 : ∀ x y, E x y → x ∈ data ∧ y ∈ data := by
    subst hEd
    rintro x y (⟨h, _⟩ | ⟨h, _⟩)
    · exact ⟨h.subset (by simp), h.subset (by simp)⟩
    · exact ⟨h.subset (by simp), h.subset (by simp)⟩
  have hE : E a b := by
    subst hEd
    have hfin : (keyOf a).toFinset = (keyOf b).toFinset := by ext t; simp [hset]
    have hone : ∀ x y, (keyOf x).toFinset = (keyOf y).toFinset → keyOf x ≠ [] →
        radius ≤ (if same x y then 1 else jaccard (keyOf x).toFinset (keyOf y).toFinset) := by
      intro x y hxy hx
      split
      · exact hr
      · rw [← jaccard_similarity_eq, (set_similarities_partial (same := false) (by simp) hx).2.2.2.1.mpr hxy]
        exact hr
    have hne' : keyOf b ≠ [] := by
      obtain ⟨t, l, hl⟩ := List.exists_cons_of_ne_nil hne
      intro h
      have := (hset t).mp (by rw [hl]; simp)
      rw [h] at this
      simp at this
    have hsig := numpy_signature_set hso hso hash hAB hset
    rcases pair_sublist_of_mem ha hb' hab with h | h
    · exact Or.inl ⟨h, hone a b hfin hne, 0, hb, fun i _ _ => by rw [hsig]⟩
    · exact Or.inr ⟨h, hone b a hfin.symm hne', 0, hb, fun i _ _ => by rw [hsig]⟩
  have hfin : ∃ l, IsComponentOf E a l := by
    classical
    refine ⟨(dedup data).filter fun x => Connected E a x, (nodup_dedup data).filter _, fun x => ?_⟩
    rw [List.mem_filter, mem_dedup]
    simp only [decide_eq_true_eq, and_iff_right_iff_imp]
    intro hc
    have : ∀ x y, Connected E x y → x ∈ data → y ∈ data := by
      intro x y h
      induction h with
      | refl => exact id
      | step hab _ ih => exact fun _ => ih (h3 _ _ hab).2
    exact this a x hc ha
  obtain ⟨l, hl⟩ := hfin
  have hal : a ∈ l := (hl.2 a).mpr (.refl a)
  have hbl : b ∈ l := (hl.2 b).mpr (.step hE (.refl b))
  have hlen : 2 ≤ l.length := by
    match l, hal, hbl with
    | [x], h1, h2 =>
        rw [List.mem_singleton] at h1 h2
        exact absurd (h1.trans h2.symm) hab
    | _ :: _ :: _, _, _ => simp
  obtain ⟨c, hc, hac⟩ := h2.complete a ⟨b, hE⟩ l hl ⟨hlen, by simp⟩
  obtain ⟨_, x, _, hx⟩ := h2.sound c hc
  refine ⟨c, hc, hac, (hx.2 b).mpr ?_⟩
  have hxa := (hx.2 a).mp hac
  have trans : ∀ x y z, Connected E x y → Connected E y z → Connected E x z := by
    intro x y z h1 h2
    induction h1 with
    | refl => exact h2
    | step h _ ih => exact .step h (ih h2)
  exact trans x a b hxa (.step hE (.refl b))

/-- **C143**: with a number of bands which is given, clustering raises exactly when there is none, or when there are more bands than integers
in a signature and some data. -/
theorem minhash_numpy_raises_iff {ord : α → List α → List α} (hord : ∀ a l, (ord a l).Perm l) {setOrd : List Nat → List Nat}
    (hso : LawfulOrder setOrd) (hash : τ → Nat) {A B : List Nat} (hAB : A.length = B.length) (same : α → α → Bool) (keyOf : α → List τ)
    (data : List α) (radius : ℚ) (bands : Nat) :
    (minhashNumpy ord setOrd hash A B same keyOf data radius (some bands) = .error .zeroDivisionError ↔ bands = 0) ∧
    (minhashNumpy ord setOrd hash A B same keyOf data radius (some bands) = .error .valueError ↔
      A.length < bands ∧ data ≠ []) ∧
    ((∃ cs, minhashNumpy ord setOrd hash A B same keyOf data radius (some bands) = .ok cs) ↔
      1 ≤ bands ∧ (bands ≤ A.length ∨ data = [])) := by
  by_cases h0 : bands = 0
  · subst h0
    simp [minhashNumpy]
  by_cases hlt : A.length < bands
  · by_cases hd : data = []
    · subst hd
      have : ∃ cs, minhashNumpy ord setOrd hash A B same keyOf [] radius (some bands) = .ok cs := by
        unfold minhashNumpy
        simp only [h0, if_false, ne_eq, not_true, false_and]
        unfold clustersFromBuckets
        exact ⟨_, rfl⟩
      obtain ⟨cs, hcs⟩ := this
      rw [hcs]
      simp [h0]
      omega
    · have : minhashNumpy ord setOrd hash A B same keyOf data radius (some bands) = .error .valueError := by
        unfold minhashNumpy
        simp [h0, hd, Nat.div_eq_of_lt hlt]
      rw [this]
      simp [h0, hd, hlt]
  · obtain ⟨cs, hcs, _⟩ := minhash_numpy_exact hord hso hash hAB same keyOf data radius (bands := bands) (by omega) (by omega)
    rw [hcs]
    simp [h0, hlt]
    omega

omit [DecidableEq τ] in
/-- **C143**: with the coefficients which are drawn, the chance that the signatures of two items agree on a band. -/
theorem numpy_band_chance {setOrd : List Nat → List Nat} (hso : LawfulOrder setOrd) (hash : τ → Nat) {h bands : Nat} (hb : 1 ≤ bands)
    (hbh : bands ≤ h) (x y : List τ) :
    share (fun f : Fin h → Fin (maxUint32 - 1) × Fin maxUint32 => AgreeOnBand bands (h / bands)
      (createSignatureNumpy setOrd hash (drawNumpy f).1 (drawNumpy f).2 x)
      (createSignatureNumpy setOrd hash (drawNumpy f).1 (drawNumpy f).2 y)) =
      1 - (1 - agreeingNumpy setOrd hash x y ^ (h / bands)) ^ bands := by
  obtain ⟨g, hg⟩ := numpy_signature_pointwise hso hash x
  obtain ⟨k, hk⟩ := numpy_signature_pointwise hso hash y
  have := draws_nonempty
  have hag : agreeingNumpy setOrd hash x y = share fun d : Fin (maxUint32 - 1) × Fin maxUint32 =>
      g (1 + d.1.val) d.2.val = k (1 + d.1.val) d.2.val := by
    unfold agreeingNumpy
    apply share_congr
    intro d
    rw [hg [1 + d.1.val] [d.2.val] rfl, hk [1 + d.1.val] [d.2.val] rfl]
    simp
  obtain ⟨e, he⟩ : ∃ e, h = bands * (h / bands) + e := ⟨h % bands, (Nat.div_add_mod h bands).symm⟩
  rw [hag]
  generalize hrows : h / bands = rows at *
  subst he
  rw [← share_band]
  apply share_congr
  intro f
  have hlen : (drawNumpy f).1.length = (drawNumpy f).2.length := by simp [drawNumpy]
  rw [hg _ _ hlen, hk _ _ hlen]
  unfold AgreeOnBand
  have hget : ∀ (g : Nat → Nat → Nat) (i : Nat) (h : i < bands * rows + e),
      (List.zipWith g (drawNumpy f).1 (drawNumpy f).2)[i]? = some (g (1 + (f ⟨i, h⟩).1.val) (f ⟨i, h⟩).2.val) := by
    intro g i hi
    unfold drawNumpy
    rw [List.getElem?_zipWith]
    simp [hi]
  have hlt : ∀ i < bands, ∀ j < rows, i * rows + j < bands * rows + e := by
    intro i hi j hj
    have h1 : (i + 1) * rows ≤ bands * rows := Nat.mul_le_mul_right rows hi
    rw [Nat.add_mul, Nat.one_mul] at h1
    omega
  constructor
  · rintro ⟨i, hi, h⟩
    refine ⟨i, hi, fun j hj => ⟨hlt i hi j hj, ?_⟩⟩
    have := h (i * rows + j) (by omega) (by rw [Nat.add_mul, Nat.one_mul]; omega)
    rw [hget g _ (hlt i hi j hj), hget k _ (hlt i hi j hj)] at this
    simpa using this
  · rintro ⟨i, hi, h⟩
    refine ⟨i, hi, fun m h1 h2 => ?_⟩
    rw [Nat.add_mul, Nat.one_mul] at h2
    obtain ⟨h3, h4⟩ := h (m - i * rows) (by omega)
    have h5 : i * rows + (m - i * rows) = m := by omega
    have h6 : m < bands * rows + e := by rw [← h5]; exact h3
    rw [hget g m h6, hget k m h6]
    simp only [h5] at h4
    rw [h4]

-- Two equal sets of tokens and another one, with four values and two bands.
example : ∃ cs, minhashNumpy (fun _ l => l) id (fun n : Nat => n) [1, 3, 7, 11] [0, 5, 1, 2] (fun _ _ => false)
    (fun s : List Nat => s) [[1, 2, 3], [3, 3, 2, 1], [9]] (4 / 5) (some 2) = .ok cs ∧
    ∃ c ∈ cs, [1, 2, 3] ∈ c ∧ [3, 3, 2, 1] ∈ c :=
  minhash_numpy_identical (fun _ l => List.Perm.refl l) (fun l => List.Perm.refl l) _ (by simp) _ _ _ (by norm_num) (by omega)
    (by simp) (by simp) (by simp) (by simp) (by simp) (by intro t; simp; omega)

example : LawfulOrder id ∧ (∀ t, t ∈ [1, 2, 3] ↔ t ∈ [3, 3, 2, 1]) ∧ [1, 3, 7, 11].length = [0, 5, 1, 2].length :=
  ⟨fun l => .refl l, by intro t; simp; omega, rfl⟩

-- The tokens `2 ** 31` and `0` never make a Jaccard index above zero, yet their signatures agree on one of 20 bands of one integer nearly
-- always.
example : share (fun f : Fin 20 → Fin (maxUint32 - 1) × Fin maxUint32 => AgreeOnBand 20 (20 / 20)
      (createSignatureNumpy id (fun n => n) (drawNumpy f).1 (drawNumpy f).2 [2 ^ 31])
      (createSignatureNumpy id (fun n => n) (drawNumpy f).1 (drawNumpy f).2 [0])) = 1 - (1 / 2) ^ 20 := by
  have hso : LawfulOrder id := fun l => .refl l
  rw [numpy_band_chance hso _ (by decide) (by decide), (numpy_tokens_agree hso (x := [2 ^ 31]) (y := [0]) (s := 0) (v := 31) (k := 0) (by simp)
    (by simp) (by decide) (by simp) (by simp)).1]
  norm_num

end Fog.Props
