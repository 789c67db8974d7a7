import Verif.Props.MinhashClustering

/-!
# C73: the bands of minhash clustering
-/

namespace Fog.Props

open MinhashClustering Minhash Metrics KeyCollision ClusteringUtils Spec

variable {α τ : Type _} [DecidableEq α] [DecidableEq τ]

theorem append_sep_inj {γ : Type} {sep : γ} : ∀ {a b x y : List γ}, sep ∉ a → sep ∉ b → a ++ sep :: x = b ++ sep :: y → a = b ∧ x = y := by
  intro a
  induction a with
  | nil =>
      intro b x y _ hb h
      cases b with
      | nil => exact ⟨rfl, by simpa using h⟩
      | cons c b => simp at h; exact absurd h.1 (fun h => hb (by simp [h]))
  | cons c a ih =>
      intro b x y ha hb h
      cases b with
      | nil => simp at h; exact absurd h.1.symm (fun h => ha (by simp [h]))
      | cons d b =>
          simp only [List.cons_append, List.cons.injEq] at h
          obtain ⟨h1, h2⟩ := ih (fun h => ha (by simp [h])) (fun h => hb (by simp [h])) h.2
          exact ⟨by rw [h.1, h1], h2⟩

/-- Joining pieces which do not hold the separator loses nothing, given the number of pieces. -/
theorem intercalate_sep_inj {γ : Type} {sep : γ} : ∀ {l l' : List (List γ)}, l.length = l'.length → (∀ p ∈ l, sep ∉ p) → (∀ p ∈ l', sep ∉ p) →
    [sep].intercalate l = [sep].intercalate l' → l = l' := by
  intro l
  induction l with
  | nil => intro l' hl _ _ _; exact (List.eq_nil_of_length_eq_zero hl.symm).symm
  | cons p l ih =>
      intro l' hl h1 h2 h
      cases l' with
      | nil => simp at hl
      | cons q l' =>
          cases l with
          | nil =>
              obtain rfl : l' = [] := List.eq_nil_of_length_eq_zero (by simpa using hl.symm)
              simpa [List.intercalate] using h
          | cons p' l =>
              cases l' with
              | nil => simp at hl
              | cons q' l' =>
                  have e : ∀ (p p' : List γ) (l : List (List γ)), [sep].intercalate (p :: p' :: l) = p ++ sep :: [sep].intercalate (p' :: l) := by
                    intro p p' l
                    simp [List.intercalate]
                  rw [e, e] at h
                  obtain ⟨g1, g2⟩ := append_sep_inj (h1 p (by simp)) (h2 q (by simp)) h
                  rw [g1, ih (by simpa using hl) (fun x hx => h1 x (by simp [hx])) (fun x hx => h2 x (by simp [hx])) g2]

theorem joined_inj {l l' : List Nat} (hl : l.length = l'.length)
    (h : String.intercalate "%" (l.map toString) = String.intercalate "%" (l'.map toString)) : l = l' := by
  have h := congrArg String.toList h
  rw [String.toList_intercalate, String.toList_intercalate] at h
  have hdig : ∀ l : List Nat, ∀ p ∈ (l.map toString).map String.toList, '%' ∉ p := by
    intro l p hp
    simp only [List.map_map, List.mem_map, Function.comp] at hp
    obtain ⟨n, _, rfl⟩ := hp
    intro hc
    change '%' ∈ n.repr.toList at hc
    rw [Nat.toList_repr] at hc
    have := Nat.isDigit_of_mem_toDigits (by decide) (by decide) hc
    revert this
    decide
  have := intercalate_sep_inj (sep := '%') (by simpa using hl) (hdig l) (hdig l') h
  rw [List.map_map, List.map_map] at this
  refine List.map_injective_iff.mpr ?_ this
  intro a b hab
  change a.repr.toList = b.repr.toList at hab
  rw [Nat.toList_repr, Nat.toList_repr] at hab
  rw [← Nat.ofDigitChars_ten_toDigits (n := a), hab, Nat.ofDigitChars_ten_toDigits]

/-- The two signatures agree on a band: the rows of `bands` consecutive groups of `rows` rows, from the first one. -/
def AgreeOnBand (bands rows : Nat) (x y : List Nat) : Prop :=
  ∃ band < bands, ∀ i, band * rows ≤ i → i < (band + 1) * rows → x[i]? = y[i]?

theorem slice_getElem? {l : List Nat} {i n j : Nat} : (slice l i (i + n))[j]? = if j < n then l[i + j]? else none := by
  unfold slice
  rw [List.getElem?_drop, List.getElem?_take]
  simp only [Nat.add_lt_add_iff_left]

theorem bandKeys_common {bands rows : Nat} {x y : List Nat} (hr : rows ≠ 0) (hx : bands * rows ≤ x.length) (hy : bands * rows ≤ y.length) :
    (∃ k, k ∈ bandKeys bands rows x ∧ k ∈ bandKeys bands rows y) ↔ AgreeOnBand bands rows x y := by
  unfold bandKeys AgreeOnBand
  simp only [List.map_map, List.mem_map, Function.comp, List.mem_range]
  constructor
  · rintro ⟨k, ⟨i, hi, rfl⟩, j, hj, h⟩
    simp only [Prod.mk.injEq] at h
    obtain ⟨h1, h2⟩ := h
    have hij : j = i := Nat.eq_of_mul_eq_mul_right (Nat.pos_of_ne_zero hr) h1
    subst hij
    have hle : (j + 1) * rows ≤ bands * rows := Nat.mul_le_mul_right _ hi
    rw [Nat.add_mul, Nat.one_mul] at hle
    have := joined_inj (by simp [slice]; omega) h2
    refine ⟨j, hj, fun i h3 h4 => ?_⟩
    rw [Nat.add_mul, Nat.one_mul] at h4
    have h5 := congrArg (·[i - j * rows]?) this
    simp only [slice_getElem?] at h5
    rw [if_pos (by omega), if_pos (by omega), show j * rows + (i - j * rows) = i by omega] at h5
    exact h5.symm
  · rintro ⟨band, hb, h⟩
    refine ⟨_, ⟨band, hb, rfl⟩, band, hb, ?_⟩
    have : slice y (band * rows) (band * rows + rows) = slice x (band * rows) (band * rows + rows) := by
      apply List.ext_getElem?
      intro j
      rw [slice_getElem?, slice_getElem?]
      split
      · exact (h _ (by omega) (by rw [Nat.add_mul]; omega)).symm
      · rfl
    rw [this]

/-- Two items of the data, the first one before the second, whose signatures agree on one of `bands` bands of `h // bands` rows and whose
keys have a Jaccard index of at least `radius` (one for the same object). -/
def BandLink (signature : List τ → List Nat) (h : Nat) (same : α → α → Bool) (keyOf : α → List τ) (data : List α) (radius : ℚ) (bands : Nat)
    (a b : α) : Prop :=
  [a, b].Sublist data ∧ radius ≤ (if same a b then 1 else jaccard (keyOf a).toFinset (keyOf b).toFinset) ∧
  AgreeOnBand bands (h / bands) (signature (keyOf a)) (signature (keyOf b))

/-- **C73**: the clusters are exactly the connected components, of two items or more, of this relation. -/
theorem minhash_bands_exact {ord : α → List α → List α} (hord : ∀ a l, (ord a l).Perm l) {setOrd : List Nat → List Nat}
    (hso : LawfulOrder setOrd) (hash : τ → Nat) (params : List (Nat × Nat)) (same : α → α → Bool) (keyOf : α → List τ) (data : List α)
    (radius : ℚ) {bands : Nat} (hb : 1 ≤ bands) (hbh : bands ≤ params.length) :
    ∃ cs, minhash ord setOrd hash params same keyOf data radius (some bands) = .ok cs ∧
      IsComponents (fun a b => BandLink (createSignature setOrd hash params) params.length same keyOf data radius bands a b ∨
        BandLink (createSignature setOrd hash params) params.length same keyOf data radius bands b a)
        (fun a => ∃ b, BandLink (createSignature setOrd hash params) params.length same keyOf data radius bands a b ∨
        BandLink (createSignature setOrd hash params) params.length same keyOf data radius bands b a) (SizeBetween 2 none) cs := by
  have key : ∀ a b, MinhashLink setOrd hash params same keyOf data radius bands a b ↔
      BandLink (createSignature setOrd hash params) params.length same keyOf data radius bands a b := by
    intro a b
    have hr : params.length / bands ≠ 0 := by
      have := Nat.div_pos hbh hb
      omega
    have hlen : ∀ s, bands * (params.length / bands) ≤ (createSignature setOrd hash params s).length := by
      intro s
      rw [(create_signature_values hso hash params s).1]
      exact Nat.mul_div_le _ _
    unfold MinhashLink BandLink
    rw [bandKeys_common hr (hlen _) (hlen _)]
    cases hs : same a b with
    | true => simp [jaccardSimilarity]
    | false => rw [jaccard_similarity_eq]; simp
  obtain ⟨cs, h1, h2⟩ := minhash_components hord setOrd hash params same keyOf data radius hb hbh
  simp only [key] at h2
  exact ⟨cs, h1, h2⟩

example : AgreeOnBand 2 2 [5, 6, 7, 8, 1] [4, 6, 7, 8, 2] ∧ ¬ AgreeOnBand 2 2 [5, 6, 7, 8] [4, 6, 7, 9] := by
  unfold AgreeOnBand
  refine ⟨⟨1, by decide, fun i h1 h2 => ?_⟩, ?_⟩
  · obtain rfl | rfl : i = 2 ∨ i = 3 := by omega
    · rfl
    · rfl
  · rintro ⟨band, hb, h⟩
    obtain rfl | rfl : band = 0 ∨ band = 1 := by omega
    · have := h 0 (by decide) (by decide); revert this; decide
    · have := h 3 (by decide) (by decide); revert this; decide

example : LawfulOrder id ∧ 1 ≤ 2 ∧ 2 ≤ [(1, 0), (3, 5), (7, 1), (2, 2)].length ∧ (∀ (_ : String) (l : List String), l.Perm l) :=
  ⟨fun l => .refl l, by decide, by decide, fun _ l => .refl l⟩

end Fog.Props
