import Verif.Props.MinhashNumpy
import Verif.Props.MinhashChances
import Mathlib.Data.Nat.Factorization.Basic

/-!
# C142: what `minhash_similarity` estimates with numpy

The hashes are taken modulo a power of two: tokens whose difference is a multiple of a large power of two often have the same hash.
-/

namespace Fog.Props

open Minhash Spec

variable {τ : Type _}

/-- The share of the pairs of coefficients drawn with numpy on which two items agree. -/
noncomputable def agreeingNumpy (setOrd : List Nat → List Nat) (hash : τ → Nat) (x y : List τ) : ℝ :=
  share fun d : Fin (maxUint32 - 1) × Fin maxUint32 =>
    createSignatureNumpy setOrd hash [1 + d.1.val] [d.2.val] x = createSignatureNumpy setOrd hash [1 + d.1.val] [d.2.val] y

theorem numpy_signature_pointwise {setOrd : List Nat → List Nat} (hso : LawfulOrder setOrd) (hash : τ → Nat) (s : List τ) :
    ∃ g : Nat → Nat → Nat, ∀ A B : List Nat, A.length = B.length → createSignatureNumpy setOrd hash A B s = List.zipWith g A B := by
  by_cases hs : s = []
  · subst hs
    refine ⟨fun _ _ => 0, fun A B h => ?_⟩
    rw [numpy_signature_empty hso]
    apply List.ext_getElem?
    intro i
    rw [List.getElem?_zipWith, List.getElem?_replicate]
    by_cases hi : i < A.length
    · rw [if_pos hi, List.getElem?_eq_getElem hi, List.getElem?_eq_getElem (h ▸ hi)]
    · rw [if_neg hi, List.getElem?_eq_none (by omega)]
  · refine ⟨fun a b => (createSignatureNumpy setOrd hash [a] [b] s).headD 0, fun A B h => ?_⟩
    obtain ⟨hl, hv⟩ := numpy_signature_partial hso hash h hs
    apply List.ext_getElem?
    intro i
    rw [List.getElem?_zipWith]
    by_cases hi : i < A.length
    · have ha := List.getElem?_eq_getElem hi
      have hb := List.getElem?_eq_getElem (show i < B.length from h ▸ hi)
      rw [ha, hb]
      obtain ⟨n, h1, ⟨t, ht, h2⟩, h3⟩ := hv i _ _ ha hb
      obtain ⟨m, g1, ⟨r, hr, g2⟩, g3⟩ := (numpy_signature_partial hso hash (A := [A[i]]) (B := [B[i]]) rfl hs).2 0 _ _ rfl rfl
      have e : (createSignatureNumpy setOrd hash [A[i]] [B[i]] s).headD 0 = m := by
        rw [List.headD_eq_head?_getD, List.head?_eq_getElem?, g1]
        rfl
      rw [h1]
      simp only [Option.some.injEq]
      rw [e]
      have k1 := h3 r hr
      have k2 := g3 t ht
      omega
    · rw [List.getElem?_eq_none (by omega), List.getElem?_eq_none (l := A) (by omega)]

theorem numpy_similarity_drawn {setOrd : List Nat → List Nat} (hso : LawfulOrder setOrd) (hash : τ → Nat) {h : Nat} (hh : 1 ≤ h)
    (x y : List τ) : ∃ G : Fin (maxUint32 - 1) × Fin maxUint32 → Prop, ∃ _ : DecidablePred G,
      agreeingNumpy setOrd hash x y = share G ∧
      ∀ f : Fin h → Fin (maxUint32 - 1) × Fin maxUint32, ∃ q : ℚ,
        minhashSimilarity (createSignatureNumpy setOrd hash (drawNumpy f).1 (drawNumpy f).2 x)
          (createSignatureNumpy setOrd hash (drawNumpy f).1 (drawNumpy f).2 y) = .ok q ∧
        (q : ℝ) = (∑ i, if G (f i) then (1 : ℝ) else 0) / h := by
  obtain ⟨g, hg⟩ := numpy_signature_pointwise hso hash x
  obtain ⟨k, hk⟩ := numpy_signature_pointwise hso hash y
  refine ⟨fun d => g (1 + d.1.val) d.2.val = k (1 + d.1.val) d.2.val, fun _ => inferInstance, ?_, ?_⟩
  · unfold agreeingNumpy
    apply share_congr
    intro d
    rw [hg [1 + d.1.val] [d.2.val] rfl, hk [1 + d.1.val] [d.2.val] rfl]
    simp
  · intro f
    have hz : ∀ g : Nat → Nat → Nat, List.zipWith g (drawNumpy f).1 (drawNumpy f).2 = List.ofFn fun i => g (1 + (f i).1.val) (f i).2.val := by
      intro g
      unfold drawNumpy
      apply List.ext_getElem?
      intro i
      rw [List.getElem?_zipWith]
      by_cases hi : i < h
      · simp [hi]
      · simp [hi]
    have hlen : (drawNumpy f).1.length = (drawNumpy f).2.length := by simp [drawNumpy]
    rw [hg _ _ hlen, hk _ _ hlen, hz, hz]
    obtain ⟨q, h1, _, h2, _⟩ := minhash_similarity_eq (A := List.ofFn fun i => g (1 + (f i).1.val) (f i).2.val)
      (B := List.ofFn fun i => k (1 + (f i).1.val) (f i).2.val) (by simp) (by
      intro h0
      have := congrArg List.length h0
      rw [List.length_ofFn, List.length_nil] at this
      omega)
    refine ⟨q, h1, ?_⟩
    have hzip : (List.ofFn fun i => g (1 + (f i).1.val) (f i).2.val).zip (List.ofFn fun i => k (1 + (f i).1.val) (f i).2.val) =
        List.ofFn fun i => (g (1 + (f i).1.val) (f i).2.val, k (1 + (f i).1.val) (f i).2.val) := by
      apply List.ext_getElem?
      intro i
      rw [List.zip_eq_zipWith, List.getElem?_zipWith]
      by_cases hi : i < h
      · simp [hi]
      · simp [hi]
    rw [h2, hzip, List.length_ofFn]
    push_cast
    congr 1
    rw [countP_ofFn]
    simp

theorem draws_nonempty : Nonempty (Fin (maxUint32 - 1) × Fin maxUint32) := ⟨⟨0, by decide⟩, ⟨0, by decide⟩⟩

/-- **C142**: with numpy, `minhash_similarity` is in the mean the share of the coefficients on which the two items agree, with the variance of
`h` independent draws. -/
theorem numpy_similarity_estimates_partial {setOrd : List Nat → List Nat} (hso : LawfulOrder setOrd) (hash : τ → Nat) {h : Nat} (hh : 1 ≤ h)
    (x y : List τ) :
    ∃ X : (Fin h → Fin (maxUint32 - 1) × Fin maxUint32) → ℚ,
      (∀ f, minhashSimilarity (createSignatureNumpy setOrd hash (drawNumpy f).1 (drawNumpy f).2 x)
        (createSignatureNumpy setOrd hash (drawNumpy f).1 (drawNumpy f).2 y) = .ok (X f)) ∧
      average (fun f => (X f : ℝ)) = agreeingNumpy setOrd hash x y ∧
      average (fun f => ((X f : ℝ) - agreeingNumpy setOrd hash x y) ^ 2) =
        agreeingNumpy setOrd hash x y * (1 - agreeingNumpy setOrd hash x y) / h := by
  obtain ⟨G, _, hG, hX⟩ := numpy_similarity_drawn hso hash hh x y
  have := draws_nonempty
  choose X hX1 hX2 using hX
  refine ⟨X, hX1, ?_, ?_⟩
  · rw [hG]
    simp only [hX2]
    exact average_places hh G
  · rw [hG]
    simp only [hX2]
    exact variance_places hh G

/-- The value of a signature of one token. -/
theorem numpy_one_token {setOrd : List Nat → List Nat} (hso : LawfulOrder setOrd) {hash : τ → Nat} {x : List τ} (hx : x ≠ []) {s : Nat}
    (hs : ∀ c ∈ x, hash c = s) (a b : Nat) : createSignatureNumpy setOrd hash [a] [b] x = [wrappedHash a b s] := by
  obtain ⟨hl, hv⟩ := numpy_signature_partial hso hash (A := [a]) (B := [b]) rfl hx
  obtain ⟨n, h1, ⟨t, ht, h2⟩, _⟩ := hv 0 a b rfl rfl
  obtain ⟨m, hm⟩ := List.length_eq_one_iff.mp hl
  rw [hm] at h1 ⊢
  rw [hs t ht] at h2
  simp only [List.getElem?_cons_zero, Option.some.injEq] at h1
  rw [h1, h2]

/-- Which coefficients give the same hash to two tokens. -/
theorem wrapped_hash_same_iff {a b s v k : Nat} (hv : v ≤ 32) :
    wrappedHash a b (s + 2 ^ v * (2 * k + 1)) = wrappedHash a b s ↔ 2 ^ (32 - v) ∣ a := by
  have hp : 2 ^ 32 = 2 ^ v * 2 ^ (32 - v) := by rw [← Nat.pow_add]; congr 1; omega
  have hc : Nat.Coprime (2 ^ (32 - v)) (2 * k + 1) := by
    refine Nat.Coprime.pow_left _ ?_
    rw [Nat.coprime_two_left]
    exact ⟨k, rfl⟩
  have e : a * (s + 2 ^ v * (2 * k + 1)) + b = a * s + b + 2 ^ v * (a * (2 * k + 1)) := by ring
  have h1 : wrappedHash a b (s + 2 ^ v * (2 * k + 1)) = wrappedHash a b s ↔ a * s + b ≡ a * s + b + 2 ^ v * (a * (2 * k + 1)) [MOD 2 ^ 32] := by
    unfold wrappedHash Nat.ModEq
    rw [e]
    exact eq_comm
  rw [h1, Nat.modEq_iff_dvd' (Nat.le_add_right _ _), Nat.add_sub_cancel_left, hp, Nat.mul_dvd_mul_iff_left (by positivity)]
  exact ⟨fun h => hc.dvd_of_dvd_mul_right h, fun h => h.mul_right _⟩

theorem share_multiples (n p : Nat) : share (fun a : Fin n => p ∣ 1 + a.val) = ((n / p : Nat) : ℝ) / n := by
  classical
  rw [share_of_card (s := Finset.univ.filter fun a : Fin n => p ∣ 1 + a.val) (by simp), Fintype.card_fin, ← Nat.card_multiples n p]
  congr 2
  refine Finset.card_bij (fun a _ => a.val) ?_ ?_ ?_
  · intro a ha
    simp only [Finset.mem_filter, Finset.mem_univ, true_and, Finset.mem_range] at ha ⊢
    exact ⟨a.isLt, by rwa [add_comm]⟩
  · intro a _ b _ h
    exact Fin.ext h
  · intro a ha
    simp only [Finset.mem_filter, Finset.mem_range] at ha
    exact ⟨⟨a, ha.1⟩, by simp only [Finset.mem_filter, Finset.mem_univ, true_and]; rw [add_comm]; exact ha.2, rfl⟩

theorem share_draws {n m : Nat} (hm : 0 < m) (p : Nat) : share (fun d : Fin n × Fin m => p ∣ 1 + d.1.val) = ((n / p : Nat) : ℝ) / n := by
  have : Nonempty (Fin m) := ⟨0, hm⟩
  rw [← share_multiples]
  exact share_fst (Ω' := Fin m) (fun a : Fin n => p ∣ 1 + a.val)

theorem share_le_of_imp {Ω : Type _} [Fintype Ω] {E F : Ω → Prop} (h : ∀ o, E o → F o) : share E ≤ share F := by
  classical
  unfold share
  apply div_le_div_of_nonneg_right _ (Nat.cast_nonneg _)
  norm_cast
  refine Finset.card_le_card fun g => ?_
  simp only [Finset.mem_filter, Finset.mem_univ, true_and]
  exact h g

/-- **C142** (for one token each, whose Jaccard similarity is 0): two different tokens agree on `(2 ** v - 1) / (2 ** 32 - 2)` of the
coefficients, when `2 ** v` is the largest power of two which divides their difference. -/
theorem numpy_tokens_agree {setOrd : List Nat → List Nat} (hso : LawfulOrder setOrd) {hash : τ → Nat} {x y : List τ} (hx : x ≠ []) (hy : y ≠ [])
    {s v k : Nat} (hv : v < 32) (hxs : ∀ c ∈ x, hash c = s + 2 ^ v * (2 * k + 1)) (hys : ∀ c ∈ y, hash c = s) :
    agreeingNumpy setOrd hash x y = (2 ^ v - 1) / (2 ^ 32 - 2) ∧ agreeingNumpy setOrd hash y x = (2 ^ v - 1) / (2 ^ 32 - 2) := by
  have h1 : agreeingNumpy setOrd hash x y = (2 ^ v - 1) / (2 ^ 32 - 2) := by
    unfold agreeingNumpy
    rw [share_congr (F := fun d : Fin (maxUint32 - 1) × Fin maxUint32 => 2 ^ (32 - v) ∣ 1 + d.1.val)]
    · rw [share_draws (by decide)]
      have h2 : (maxUint32 - 1) / 2 ^ (32 - v) = 2 ^ v - 1 := by
        have hp : 2 ^ v * 2 ^ (32 - v) = 2 ^ 32 := by rw [← Nat.pow_add]; congr 1; omega
        have h3 : 2 ^ 1 ≤ 2 ^ (32 - v) := Nat.pow_le_pow_right (by decide) (by omega)
        have h4 : 1 ≤ 2 ^ v := Nat.one_le_two_pow
        have h5 : maxUint32 - 1 = 2 ^ 32 - 2 := by decide
        rw [h5, ← hp]
        generalize 2 ^ (32 - v) = q at *
        generalize 2 ^ v = r at *
        rw [Nat.div_eq_iff (by omega)]
        obtain ⟨r, rfl⟩ : ∃ r', r = r' + 1 := ⟨r - 1, by omega⟩
        rw [Nat.add_sub_cancel, Nat.add_mul]
        omega
      rw [h2, Nat.cast_sub Nat.one_le_two_pow, show maxUint32 - 1 = 2 ^ 32 - 2 by decide, Nat.cast_sub (by norm_num)]
      norm_num
    · intro d
      rw [numpy_one_token hso hx hxs, numpy_one_token hso hy hys, List.singleton_inj]
      exact wrapped_hash_same_iff hv.le
  refine ⟨h1, ?_⟩
  rw [← h1]
  exact share_congr fun d => eq_comm

/-- **C142** is false: the mean similarity of two sequences of one token each, which is not the same, is one half when the tokens differ by
`2 ** 31`. -/
theorem numpy_similarity_half {setOrd : List Nat → List Nat} (hso : LawfulOrder setOrd) {hash : τ → Nat} {h : Nat} (hh : 1 ≤ h) {c d : τ}
    (hcd : hash c = hash d + 2 ^ 31) :
    ∃ X : (Fin h → Fin (maxUint32 - 1) × Fin maxUint32) → ℚ,
      (∀ f, minhashSimilarity (createSignatureNumpy setOrd hash (drawNumpy f).1 (drawNumpy f).2 [c])
        (createSignatureNumpy setOrd hash (drawNumpy f).1 (drawNumpy f).2 [d]) = .ok (X f)) ∧
      average (fun f => (X f : ℝ)) = 1 / 2 := by
  obtain ⟨X, hX, hav, _⟩ := numpy_similarity_estimates_partial hso hash hh [c] [d]
  refine ⟨X, hX, ?_⟩
  rw [hav, (numpy_tokens_agree (v := 31) (k := 0) (s := hash d) hso (by simp) (by simp) (by decide) (by simpa using hcd) (by simp)).1]
  norm_num

/-- **C142**: and at least one half for all the sequences whose tokens are those of the other one plus `2 ** 31`. -/
theorem numpy_similarity_half_all {setOrd : List Nat → List Nat} (hso : LawfulOrder setOrd) {s : List Nat} (hs : s ≠ []) :
    1 / 2 ≤ agreeingNumpy setOrd (fun n => n) s (s.map (· + 2 ^ 31)) := by
  have h1 : share (fun d : Fin (maxUint32 - 1) × Fin maxUint32 => 2 ∣ 1 + d.1.val) = 1 / 2 := by
    rw [share_draws (by decide), show (maxUint32 - 1) / 2 = 2147483647 by decide, show maxUint32 - 1 = 4294967294 by decide]
    norm_num
  rw [← h1]
  refine share_le_of_imp fun d => ?_
  rintro ⟨a, ha⟩
  apply List.ext_getElem?
  intro i
  rw [ha]
  cases i with
  | zero => exact numpy_disjoint_agree hso (A := [2 * a]) (B := [d.2.val]) rfl hs (i := 0) rfl rfl
  | succ i =>
      have hl := (numpy_signature_partial hso (fun n : Nat => n) (A := [2 * a]) (B := [d.2.val]) rfl hs).1
      have hl' := (numpy_signature_partial hso (fun n : Nat => n) (A := [2 * a]) (B := [d.2.val]) rfl (s := s.map (· + 2 ^ 31)) (by simpa using hs)).1
      rw [List.getElem?_eq_none (by rw [hl]; simp), List.getElem?_eq_none (by rw [hl']; simp)]

/-- **C142**: two strings made of one character each, which is not the same, seldom agree. -/
theorem numpy_characters_agree_le {setOrd : List Nat → List Nat} (hso : LawfulOrder setOrd) {c d : Char} (h : c ≠ d) :
    agreeingNumpy setOrd (fun c : Char => c.toNat) [c] [d] ≤ 1 / 2 ^ 11 := by
  have key : ∀ {c d : Char}, d.toNat < c.toNat → agreeingNumpy setOrd (fun c : Char => c.toNat) [c] [d] ≤ 1 / 2 ^ 11 ∧
      agreeingNumpy setOrd (fun c : Char => c.toNat) [d] [c] ≤ 1 / 2 ^ 11 := by
    intro c d hlt
    obtain ⟨v, m, hm, e⟩ := Nat.exists_eq_two_pow_mul_odd (n := c.toNat - d.toNat) (by omega)
    obtain ⟨k, rfl⟩ := hm
    have hc : c.toNat < 2 ^ 21 := by
      have := c.valid
      have h2 : c.toNat < 0x110000 := by
        rcases this with h | h
        · exact lt_trans h (by decide)
        · exact h.2
      omega
    have hv : v < 21 := by
      have : 2 ^ v * 1 ≤ 2 ^ v * (2 * k + 1) := Nat.mul_le_mul_left _ (by omega)
      exact (Nat.pow_lt_pow_iff_right (by decide : 1 < 2)).mp (by omega)
    obtain ⟨h1, h2⟩ := numpy_tokens_agree (setOrd := setOrd) (hash := fun c : Char => c.toNat) (x := [c]) (y := [d]) (v := v) (k := k) (s := d.toNat) hso (by simp) (by simp)
      (by omega) (by simp; omega) (by simp)
    have h3 : ((2 : ℝ) ^ v - 1) / (2 ^ 32 - 2) ≤ 1 / 2 ^ 11 := by
      have : (2 : ℝ) ^ v ≤ 2 ^ 20 := pow_le_pow_right₀ (by norm_num) (by omega)
      rw [div_le_div_iff₀ (by norm_num) (by norm_num)]
      linarith
    rw [h1, h2]
    exact ⟨h3, h3⟩
  rcases lt_trichotomy d.toNat c.toNat with h1 | h1 | h1
  · exact (key h1).1
  · exact absurd (Char.ext (UInt32.toNat_inj.mp h1)).symm h
  · exact (key h1).2

example : ∃ X : (Fin 256 → Fin (maxUint32 - 1) × Fin maxUint32) → ℚ,
    (∀ f, minhashSimilarity (createSignatureNumpy List.reverse (fun n : Nat => n) (drawNumpy f).1 (drawNumpy f).2 [7 + 2 ^ 31])
      (createSignatureNumpy List.reverse (fun n : Nat => n) (drawNumpy f).1 (drawNumpy f).2 [7]) = .ok (X f)) ∧
    average (fun f => (X f : ℝ)) = 1 / 2 :=
  numpy_similarity_half List.reverse_perm (by decide) rfl

example : agreeingNumpy List.reverse (fun c : Char => c.toNat) ['a', 'a'] ['e'] = (2 ^ 2 - 1) / (2 ^ 32 - 2) :=
  (numpy_tokens_agree (v := 2) (k := 0) (s := 97) List.reverse_perm (by simp) (by simp) (by decide) (by simp) (by simp)).2

end Fog.Props
