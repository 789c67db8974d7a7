import Verif.Model.MinhashNumpy
import Verif.Props.MinhashCollisions
import Mathlib.Tactic.Ring
import Mathlib.Data.Nat.Prime.Basic

/-!
# C95: MinHash signatures computed with numpy
-/

namespace Fog.Props

open Minhash

variable {τ : Type _}

/-- The hash of a token when the products and sums wrap around. -/
def wrappedHash (a b token : Nat) : Nat := (a * token + b) % 2 ^ 32

theorem numpyRow_length {A B : List Nat} (h : A.length = B.length) (token : Nat) : (numpyRow A B token).length = A.length := by
  simp [numpyRow, h]

theorem numpyRow_getElem {A B : List Nat} (token : Nat) {i a b : Nat} (ha : A[i]? = some a) (hb : B[i]? = some b) :
    (numpyRow A B token)[i]? = some (wrappedHash a b token) := by
  have hi := (List.getElem?_eq_some_iff.mp ha).1
  simp only [numpyRow, List.getElem?_map, List.getElem?_zipWith, List.getElem?_replicate, hi, if_true, ha, hb, Option.map_some,
    Option.some_inj, uint32, wrappedHash, nextPrime]
  rw [Nat.mod_eq_of_lt (a := _ % 2 ^ 32) (b := 4294967311) (lt_of_lt_of_le (Nat.mod_lt _ (by decide)) (by decide)), Nat.mod_mod,
    Nat.mul_comm a]
  exact ((Nat.mod_modEq _ _).trans ((Nat.mod_modEq token (2 ^ 32)).mul_right a)).add_right b

theorem columnMin_getElem (rows : List (List Nat)) : ∀ (row : List Nat) (i n : Nat), row[i]? = some n → (∀ r ∈ rows, i < r.length) →
    ∃ m, (columnMin (row :: rows))[i]? = some m ∧ (∃ r ∈ row :: rows, r[i]? = some m) ∧ ∀ r ∈ row :: rows, ∀ x, r[i]? = some x → m ≤ x := by
  induction rows with
  | nil =>
      intro row i n hn _
      refine ⟨n, hn, ⟨row, by simp, hn⟩, ?_⟩
      intro r hr x hx
      rw [List.mem_singleton.mp hr, hn] at hx
      injection hx with hx
      omega
  | cons next rows ih =>
      intro row i n hn hl
      obtain ⟨k, hk⟩ : ∃ k, next[i]? = some k := ⟨_, List.getElem?_eq_getElem (hl next (by simp))⟩
      have h0 : (List.zipWith (fun x y => if y < x then y else x) row next)[i]? = some (if k < n then k else n) := by
        simp [List.getElem?_zipWith, hn, hk]
      obtain ⟨m, h1, ⟨r, hr, h2⟩, h3⟩ := ih _ i _ h0 (fun r hr => hl r (by simp [hr]))
      refine ⟨m, h1, ?_, ?_⟩
      · rcases List.mem_cons.mp hr with rfl | hr
        · rw [h0] at h2
          by_cases hkn : k < n
          · exact ⟨next, by simp, by rw [hk, ← h2, if_pos hkn]⟩
          · exact ⟨row, by simp, by rw [hn, ← h2, if_neg hkn]⟩
        · exact ⟨r, by simp [hr], h2⟩
      · have hm := h3 _ List.mem_cons_self _ h0
        intro r hr x hx
        rcases List.mem_cons.mp hr with rfl | hr
        · rw [hn] at hx
          injection hx with hx
          split at hm <;> omega
        · rcases List.mem_cons.mp hr with rfl | hr
          · rw [hk] at hx
            injection hx with hx
            split at hm <;> omega
          · exact h3 r (List.mem_cons_of_mem _ hr) x hx

theorem columnMin_length (n : Nat) (rows : List (List Nat)) : ∀ row : List Nat, row.length = n → (∀ r ∈ rows, r.length = n) →
    (columnMin (row :: rows)).length = n := by
  induction rows with
  | nil => intro row h _; exact h
  | cons next rows ih =>
      intro row h hl
      exact ih _ (by simp [h, hl next]) (fun r hr => hl r (by simp [hr]))

/-- **C95**, partial: with numpy, every value of the signature is the least of the hashes `a * x + b` of the tokens, modulo `2 ** 32` and not
modulo the prime number. Missing because false: the universal hash. -/
theorem numpy_signature_partial {ord : List Nat → List Nat} (ho : LawfulOrder ord) (hash : τ → Nat) {A B : List Nat}
    (hAB : A.length = B.length) {s : List τ} (hs : s ≠ []) :
    (createSignatureNumpy ord hash A B s).length = A.length ∧
    ∀ (i a b : Nat), A[i]? = some a → B[i]? = some b → ∃ n, (createSignatureNumpy ord hash A B s)[i]? = some n ∧
      (∃ t ∈ s, wrappedHash a b (hash t) = n) ∧ ∀ t ∈ s, n ≤ wrappedHash a b (hash t) := by
  have hne : (Minhash.tokenSet ord hash s).length ≠ 0 := fun h => hs ((length_tokenSet ho).mp h)
  simp only [createSignatureNumpy, hne, if_false]
  have hmem : ∀ x, x ∈ Minhash.tokenSet ord hash s ↔ ∃ t ∈ s, hash t = x := fun x => mem_tokenSet ho
  generalize Minhash.tokenSet ord hash s = tokens at hne hmem
  obtain ⟨x, tokens, rfl⟩ := List.exists_cons_of_ne_nil (fun h => hne (by rw [h]; rfl) : tokens ≠ [])
  rw [List.map_cons]
  constructor
  · refine columnMin_length _ _ _ (numpyRow_length hAB x) ?_
    intro r hr
    obtain ⟨y, _, rfl⟩ := List.mem_map.mp hr
    exact numpyRow_length hAB y
  · intro i a b ha hb
    have hi := (List.getElem?_eq_some_iff.mp ha).1
    obtain ⟨m, h1, ⟨r, hr, h2⟩, h3⟩ := columnMin_getElem (tokens.map (numpyRow A B)) (numpyRow A B x) i _ (numpyRow_getElem x ha hb)
      (by
        intro r hr
        obtain ⟨y, _, rfl⟩ := List.mem_map.mp hr
        rwa [numpyRow_length hAB y])
    rw [← List.map_cons] at hr h3
    refine ⟨m, h1, ?_, ?_⟩
    · obtain ⟨y, hy, rfl⟩ := List.mem_map.mp hr
      obtain ⟨t, ht, rfl⟩ := (hmem y).mp hy
      rw [numpyRow_getElem _ ha hb] at h2
      exact ⟨t, ht, by injection h2⟩
    · intro t ht
      exact h3 _ (List.mem_map.mpr ⟨hash t, (hmem _).mpr ⟨t, ht, rfl⟩, rfl⟩) _ (numpyRow_getElem _ ha hb)

/-- An empty sequence has a signature of zeros. -/
theorem numpy_signature_empty {ord : List Nat → List Nat} (ho : LawfulOrder ord) (hash : τ → Nat) (A B : List Nat) :
    createSignatureNumpy ord hash A B [] = List.replicate A.length 0 := by
  simp only [createSignatureNumpy, (length_tokenSet (hash := hash) (sequence := []) ho).mpr rfl, if_true]

/-- **C95** is false: with the same coefficients, and within what both constructors draw, the signature is not the least value of the
universal hash. -/
theorem numpy_signature_not_universal : Drawn (3, 7) ∧
    createSignatureNumpy id (fun n : Nat => n) [3] [7] [4000000000] = [3410065415] ∧
    createSignature id (fun n : Nat => n) [(3, 7)] [4000000000] = [3410065385] := by
  refine ⟨?_, ?_, ?_⟩
  · unfold Drawn; decide
  · decide +kernel
  · decide +kernel

/-- **C95**: the hashes of two tokens are equal exactly when their difference is a multiple of `2 ** 32` over the largest power of two which
divides the coefficient. -/
theorem wrapped_hash_collides_iff {a b x y v k : Nat} (ha : a = 2 ^ v * (2 * k + 1)) (hv : v ≤ 32) :
    wrappedHash a b x = wrappedHash a b y ↔ x % 2 ^ (32 - v) = y % 2 ^ (32 - v) := by
  unfold wrappedHash
  have hp : 2 ^ 32 = 2 ^ v * 2 ^ (32 - v) := by rw [← Nat.pow_add]; congr 1; omega
  have hc : Nat.gcd (2 ^ (32 - v)) (2 * k + 1) = 1 := by
    refine Nat.Coprime.pow_left _ ?_
    rw [Nat.coprime_two_left]
    exact ⟨k, rfl⟩
  constructor
  · intro h
    have h1 : a * x ≡ a * y [MOD 2 ^ 32] := Nat.ModEq.add_right_cancel' b h
    rw [ha, hp, Nat.mul_assoc, Nat.mul_assoc] at h1
    have h2 := Nat.ModEq.mul_left_cancel' (by positivity) h1
    exact Nat.ModEq.cancel_left_of_coprime hc h2
  · intro h
    have h1 : x ≡ y [MOD 2 ^ (32 - v)] := h
    have h2 := (h1.mul_left (2 * k + 1)).mul_left' (2 ^ v)
    rw [← hp, ← Nat.mul_assoc, ← Nat.mul_assoc, ← ha] at h2
    exact h2.add_right b

/-- **C95**: with an odd coefficient the hash separates the integers of 32 bits, and with an even one it does not. -/
theorem wrapped_hash_injective_iff (a b : Nat) :
    (∀ x y, x < 2 ^ 32 → y < 2 ^ 32 → wrappedHash a b x = wrappedHash a b y → x = y) ↔ a % 2 = 1 := by
  constructor
  · intro h
    by_contra hc
    obtain ⟨c, rfl⟩ : ∃ c, a = 2 * c := ⟨a / 2, by omega⟩
    have := h 0 (2 ^ 31) (by decide) (by decide) (by unfold wrappedHash; omega)
    omega
  · intro h x y hx hy hxy
    have := (wrapped_hash_collides_iff (a := a) (v := 0) (k := a / 2) (by omega) (by omega)).mp hxy
    rw [Nat.mod_eq_of_lt (by simpa using hx), Nat.mod_eq_of_lt (by simpa using hy)] at this
    exact this

/-- **C95**: two sequences without a common token have the same value at every position whose coefficient is even, whatever the coefficient
added, when their tokens are those of the other one with a different highest bit. -/
theorem numpy_disjoint_agree {ord : List Nat → List Nat} (ho : LawfulOrder ord) {A B : List Nat} (hAB : A.length = B.length)
    {s : List Nat} (hs : s ≠ []) {i a b : Nat} (ha : A[i]? = some (2 * a)) (hb : B[i]? = some b) :
    (createSignatureNumpy ord (fun n => n) A B s)[i]? = (createSignatureNumpy ord (fun n => n) A B (s.map (· + 2 ^ 31)))[i]? := by
  obtain ⟨n, h1, ⟨t, ht, h2⟩, h3⟩ := (numpy_signature_partial ho (fun n => n) hAB hs).2 i _ b ha hb
  obtain ⟨m, g1, ⟨t', ht', g2⟩, g3⟩ := (numpy_signature_partial ho (fun n => n) hAB (s := s.map (· + 2 ^ 31)) (by simpa using hs)).2 i _ b ha hb
  have e : ∀ t, wrappedHash (2 * a) b (t + 2 ^ 31) = wrappedHash (2 * a) b t := by
    intro t
    unfold wrappedHash
    rw [show 2 * a * (t + 2 ^ 31) + b = 2 * a * t + b + 2 ^ 32 * a by ring, Nat.add_mul_mod_self_left]
  rw [h1, g1, Option.some_inj]
  obtain ⟨r, hr, rfl⟩ := List.mem_map.mp ht'
  rw [e] at g2
  have k1 := h3 r hr
  have k2 := g3 (t + 2 ^ 31) (List.mem_map.mpr ⟨t, ht, rfl⟩)
  simp only [e] at k2
  omega

-- Coefficients that can be drawn, and two sequences without a common token.
example : createSignatureNumpy id (fun n => n) [6, 10] [1, 4] [5, 9] = [31, 54] ∧
    createSignatureNumpy id (fun n => n) [6, 10] [1, 4] [5 + 2 ^ 31, 9 + 2 ^ 31] = [31, 54] ∧
    createSignatureNumpy id (fun n => n) [7] [1] [5] ≠ createSignatureNumpy id (fun n => n) [7] [1] [5 + 2 ^ 31] := by decide +kernel

end Fog.Props
