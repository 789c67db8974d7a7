import Verif.Props.Minhash
import Mathlib.Data.Nat.Prime.Basic
import Mathlib.Data.List.Perm.Subperm
import Mathlib.Data.Nat.ModEq

/-!
# C84, C85: the coefficients of MinHash and when signatures agree
-/

namespace Fog.Props

open Minhash LshUtils Spec

/-! ### The constructors -/

theorem drawLoop_spec (draws : Nat → Nat × Nat) (h : Nat) : ∀ (fuel i : Nat) (params r : List (Nat × Nat)), params.Nodup →
    params.length ≤ h → (∀ p ∈ params, ∃ j, draws j = p) → drawLoop draws h fuel i params = some r →
    r.Nodup ∧ r.length = h ∧ ∀ p ∈ r, ∃ j, draws j = p
  | 0, _, _, _, _, _, _, e => by simp [drawLoop] at e
  | fuel + 1, i, params, r, hn, hl, hm, e => by
      rw [drawLoop] at e
      split at e
      · next hlt =>
        refine drawLoop_spec draws h fuel (i + 1) _ r ?_ ?_ ?_ e
        · split
          · exact hn
          · next hni =>
            rw [List.nodup_append]
            refine ⟨hn, by simp, ?_⟩
            rintro a ha b hb rfl
            rw [List.mem_singleton] at hb
            exact hni (hb ▸ ha)
        · split
          · exact hl
          · simp only [List.length_append, List.length_cons, List.length_nil]; omega
        · intro p hp
          split at hp
          · exact hm p hp
          · rcases List.mem_append.mp hp with hp | hp
            · exact hm p hp
            · exact ⟨i, (List.mem_singleton.mp hp).symm⟩
      · next hge =>
        injection e with e
        subst e
        exact ⟨hn, by omega, hm⟩

theorem drawLoop_none (draws : Nat → Nat × Nat) (h : Nat) : ∀ (fuel i : Nat) (params : List (Nat × Nat)),
    (∀ j < i, draws j ∈ params) → drawLoop draws h (fuel + 1) i params = none →
    ∃ r : List (Nat × Nat), (∀ j < i + fuel, draws j ∈ r) ∧ r.length < h
  | 0, i, params, hm, e => by
      rw [drawLoop] at e
      split at e
      · next hlt => exact ⟨params, hm, hlt⟩
      · simp at e
  | fuel + 1, i, params, hm, e => by
      rw [drawLoop] at e
      split at e
      · obtain ⟨r, hr, hl⟩ := drawLoop_none draws h fuel (i + 1) _ (by
          intro j hj
          split
          · next hi =>
            rcases Nat.lt_or_ge j i with hj' | hj'
            · exact hm j hj'
            · rwa [show j = i by omega]
          · rw [List.mem_append, List.mem_singleton]
            rcases Nat.lt_or_ge j i with hj' | hj'
            · exact Or.inl (hm j hj')
            · exact Or.inr (by rw [show j = i by omega])) e
        exact ⟨r, fun j hj => hr j (by omega), hl⟩
      · simp at e

/-- **C84**: the coefficients are `h` different pairs among those drawn. -/
theorem minhash_params (ord : List (Nat × Nat) → List (Nat × Nat)) (ho : ∀ l, (ord l).Perm l) (draws : Nat → Nat × Nat) (h fuel : Nat)
    {params : List (Nat × Nat)} (e : drawParams ord draws h fuel = some params) :
    params.Nodup ∧ params.length = h ∧ ∀ p ∈ params, ∃ i, draws i = p := by
  unfold drawParams at e
  rw [Option.map_eq_some_iff] at e
  obtain ⟨r, e, rfl⟩ := e
  obtain ⟨h1, h2, h3⟩ := drawLoop_spec draws h fuel 0 [] r (by simp) (by simp) (by simp) e
  exact ⟨(ho r).nodup_iff.mpr h1, by rw [(ho r).length_eq, h2], fun p hp => h3 p ((ho r).mem_iff.mp hp)⟩

/-- **C84**: the constructor ends exactly when `h` different pairs are drawn sooner or later. -/
theorem minhash_params_terminates (ord : List (Nat × Nat) → List (Nat × Nat)) (ho : ∀ l, (ord l).Perm l) (draws : Nat → Nat × Nat)
    (h : Nat) :
    (∃ fuel params, drawParams ord draws h fuel = some params) ↔
      ∃ l : List (Nat × Nat), l.Nodup ∧ l.length = h ∧ ∀ p ∈ l, ∃ i, draws i = p := by
  constructor
  · rintro ⟨fuel, params, e⟩
    exact ⟨params, minhash_params ord ho draws h fuel e⟩
  · rintro ⟨l, hn, hl, hd⟩
    have hN : ∃ N, ∀ p ∈ l, ∃ i < N, draws i = p := by
      clear hn hl
      induction l with
      | nil => exact ⟨0, by simp⟩
      | cons p l ih =>
          obtain ⟨N, hN⟩ := ih fun p hp => hd p (List.mem_cons_of_mem _ hp)
          obtain ⟨i, hi⟩ := hd p (by simp)
          refine ⟨max N (i + 1), ?_⟩
          intro q hq
          rcases List.mem_cons.mp hq with rfl | hq
          · exact ⟨i, by omega, hi⟩
          · obtain ⟨j, hj, e⟩ := hN q hq
            exact ⟨j, by omega, e⟩
    obtain ⟨N, hN⟩ := hN
    refine ⟨N + 1, ?_⟩
    unfold drawParams
    rcases e : drawLoop draws h (N + 1) 0 [] with _ | r
    · obtain ⟨r, hr, hlt⟩ := drawLoop_none draws h N 0 [] (by omega) e
      have hs : l ⊆ r := by
        intro p hp
        obtain ⟨i, hi, rfl⟩ := hN p hp
        exact hr i (by omega)
      have := (List.subperm_of_subset hn hs).length_le
      omega
    · exact ⟨ord r, rfl⟩

/-- A generator which repeats its first pair. -/
example : drawParams List.reverse (fun i => (i / 2 + 1, 5)) 2 4 = some [(2, 5), (1, 5)] ∧
    drawParams List.reverse (fun i => (i / 2 + 1, 5)) 2 3 = none := by decide +kernel

/-! ### Collisions -/

/-- No divisor among `m, m + 2, ...`, `2 ^ d` numbers. -/
def noDivisor : Nat → Nat → Bool
  | 0, m => 4294967311 % m != 0
  | d + 1, m => noDivisor d m && noDivisor d (m + 2 ^ (d + 1))

theorem noDivisor_spec : ∀ (d m : Nat), noDivisor d m = true → ∀ i < 2 ^ d, ¬ (m + 2 * i) ∣ 4294967311
  | 0, m, h, i, hi, hd => by
      rw [show i = 0 by omega, Nat.mul_zero, Nat.add_zero] at hd
      simp only [noDivisor, bne_iff_ne] at h
      exact h (Nat.mod_eq_zero_of_dvd hd)
  | d + 1, m, h, i, hi, hd => by
      rw [noDivisor, Bool.and_eq_true] at h
      rcases Nat.lt_or_ge i (2 ^ d) with hi' | hi'
      · exact noDivisor_spec d m h.1 i hi' hd
      · refine noDivisor_spec d _ h.2 (i - 2 ^ d) (by rw [Nat.pow_succ] at hi; omega) ?_
        rw [show m + 2 ^ (d + 1) + 2 * (i - 2 ^ d) = m + 2 * i by rw [Nat.pow_succ]; omega]
        exact hd

theorem noDivisor_check : noDivisor 15 3 = true := by decide +kernel

/-- The modulus is a prime number. -/
theorem next_prime : Nat.Prime 4294967311 := by
  rw [Nat.prime_def_le_sqrt]
  refine ⟨by decide, ?_⟩
  intro m h2 hm hd
  have hs : m < 2 ^ 16 + 1 := by
    have h1 := Nat.le_sqrt'.mp hm
    by_contra hc
    have : (2 ^ 16 + 1) ^ 2 ≤ m ^ 2 := Nat.pow_le_pow_left (by omega) 2
    omega
  rcases Nat.even_or_odd' m with ⟨c, rfl | rfl⟩
  · have : 2 ∣ 4294967311 := Dvd.dvd.trans (Dvd.intro c rfl) hd
    omega
  · refine noDivisor_spec 15 3 noDivisor_check (c - 1) (by omega) ?_
    rw [show 3 + 2 * (c - 1) = 2 * c + 1 by omega]
    exact hd

/-- Coefficients as drawn by the constructors: `rng.randint(1, MAX_UINT32)` and `rng.randint(0, MAX_UINT32)`. -/
def Drawn (p : Nat × Nat) : Prop := 1 ≤ p.1 ∧ p.1 < 2 ^ 32 ∧ p.2 < 2 ^ 32

/-- Different integers of 32 bits have different hashes. -/
theorem universalHash_inj {p : Nat × Nat} (hp : Drawn p) {x y : Nat} (hx : x < 2 ^ 32) (hy : y < 2 ^ 32)
    (h : universalHash p.1 p.2 x = universalHash p.1 p.2 y) : x = y := by
  unfold universalHash at h
  have h1 : p.1 * x ≡ p.1 * y [MOD 4294967311] := Nat.ModEq.add_right_cancel' p.2 h
  have hc : Nat.gcd 4294967311 p.1 = 1 := by
    refine (Nat.Prime.coprime_iff_not_dvd next_prime).mpr ?_
    intro hd
    have := Nat.le_of_dvd hp.1 hd
    have := hp.2.1
    omega
  have h2 := Nat.ModEq.cancel_left_of_coprime hc h1
  have h3 : x % 4294967311 = y % 4294967311 := h2
  rw [Nat.mod_eq_of_lt (by omega), Nat.mod_eq_of_lt (by omega)] at h3
  exact h3

variable {τ : Type _}

/-- **C85**: two signatures agree at a position exactly when a token of least hash among those of both sequences belongs to both, or when
no token of them has a hash less than the largest integer of 32 bits. -/
theorem minhash_agree_iff {ord : List Nat → List Nat} (ho : LawfulOrder ord) {hash : τ → Nat} (hh : ∀ t, hash t < 2 ^ 32)
    {params : List (Nat × Nat)} (hp : ∀ p ∈ params, Drawn p) {A B : List τ} (hA : A ≠ []) (hB : B ≠ []) {i : Nat} {p : Nat × Nat}
    (hi : params[i]? = some p) :
    (createSignature ord hash params A)[i]? = (createSignature ord hash params B)[i]? ↔
      (∃ a ∈ A, ∃ b ∈ B, hash a = hash b ∧ ∀ c ∈ A ++ B, universalHash p.1 p.2 (hash a) ≤ universalHash p.1 p.2 (hash c)) ∨
      ∀ c ∈ A ++ B, 2 ^ 32 - 1 ≤ universalHash p.1 p.2 (hash c) := by
  obtain ⟨n, hn, n1, n2⟩ := (create_signature_values ho hash params A).2.2 hA i p hi
  obtain ⟨m, hm, m1, m2⟩ := (create_signature_values ho hash params B).2.2 hB i p hi
  have hnl := (create_signature_values ho hash params A).2.1 n (List.mem_of_getElem? hn)
  have hml := (create_signature_values ho hash params B).2.1 m (List.mem_of_getElem? hm)
  have hD := hp p (List.mem_of_getElem? hi)
  rw [hn, hm, Option.some_inj]
  constructor
  · rintro rfl
    rcases n1 with n1 | ⟨a, ha, n1⟩
    · right
      intro c hc
      rw [← n1]
      rcases List.mem_append.mp hc with hc | hc
      · exact n2 c hc
      · exact m2 c hc
    · rcases m1 with m1 | ⟨b, hb, m1⟩
      · right
        intro c hc
        rw [← m1]
        rcases List.mem_append.mp hc with hc | hc
        · exact n2 c hc
        · exact m2 c hc
      · left
        refine ⟨a, ha, b, hb, universalHash_inj hD (hh a) (hh b) (by rw [n1, m1]), ?_⟩
        intro c hc
        rw [n1]
        rcases List.mem_append.mp hc with hc | hc
        · exact n2 c hc
        · exact m2 c hc
  · rintro (⟨a, ha, b, hb, hab, hl⟩ | hl)
    · have ha2 := n2 a ha
      have hb2 := m2 b hb
      rw [← hab] at hb2
      have hn' : n = universalHash p.1 p.2 (hash a) ∨ n = 2 ^ 32 - 1 := by
        rcases n1 with n1 | ⟨c, hc, n1⟩
        · exact Or.inr n1
        · have := hl c (List.mem_append_left _ hc)
          exact Or.inl (by omega)
      have hm' : m = universalHash p.1 p.2 (hash a) ∨ m = 2 ^ 32 - 1 := by
        rcases m1 with m1 | ⟨c, hc, m1⟩
        · exact Or.inr m1
        · have := hl c (List.mem_append_right _ hc)
          exact Or.inl (by omega)
      omega
    · have hn' : 2 ^ 32 - 1 ≤ n := by
        rcases n1 with n1 | ⟨c, hc, n1⟩
        · omega
        · rw [← n1]; exact hl c (List.mem_append_left _ hc)
      have hm' : 2 ^ 32 - 1 ≤ m := by
        rcases m1 with m1 | ⟨c, hc, m1⟩
        · omega
        · rw [← m1]; exact hl c (List.mem_append_right _ hc)
      omega

/-- Two sets of characters: the least hashes agree for the first coefficients, where `b` is the least, and not for the second. -/
example : Drawn (1, 4294967213) ∧ Drawn (1, 0) ∧
    createSignature id (fun c : Char => c.toNat) [(1, 4294967213), (1, 0)] ['a', 'b'] = [0, 97] ∧
    createSignature id (fun c : Char => c.toNat) [(1, 4294967213), (1, 0)] ['b', 'c'] = [0, 98] := by
  refine ⟨?_, ?_, ?_, ?_⟩ <;> first | (unfold Drawn; decide) | decide +kernel

/-- **C85**: signatures of sequences which have no token in common agree nowhere but at the largest integer of 32 bits. -/
theorem minhash_disjoint {ord : List Nat → List Nat} (ho : LawfulOrder ord) {hash : τ → Nat} (hh : ∀ t, hash t < 2 ^ 32)
    {params : List (Nat × Nat)} (hp : ∀ p ∈ params, Drawn p) {A B : List τ} (hA : A ≠ []) (hB : B ≠ [])
    (hd : ∀ a ∈ A, ∀ b ∈ B, hash a ≠ hash b) {i n : Nat} (h1 : (createSignature ord hash params A)[i]? = some n)
    (h2 : (createSignature ord hash params B)[i]? = some n) : n = 2 ^ 32 - 1 := by
  have hi : i < params.length := by
    have := (List.getElem?_eq_some_iff.mp h1).1
    rwa [(create_signature_values ho hash params A).1] at this
  have hi' := List.getElem?_eq_getElem hi
  rcases (minhash_agree_iff ho hh hp hA hB hi').mp (h1.trans h2.symm) with ⟨a, ha, b, hb, hab, _⟩ | hl
  · exact absurd hab (hd a ha b hb)
  · obtain ⟨m, hm, m1, m2⟩ := (create_signature_values ho hash params A).2.2 hA i _ hi'
    rw [h1, Option.some_inj] at hm
    subst hm
    have := (create_signature_values ho hash params A).2.1 n (List.mem_of_getElem? h1)
    rcases m1 with m1 | ⟨t, ht, m1⟩
    · exact m1
    · have := hl t (List.mem_append_left _ ht)
      omega

/-- The exception is met: both tokens have hashes which do not fit in 32 bits. -/
example : Drawn (1, 4294967295) ∧ createSignature id (fun n : Nat => n) [(1, 4294967295)] [0] = [4294967295] ∧
    createSignature id (fun n : Nat => n) [(1, 4294967295)] [1] = [4294967295] := by
  refine ⟨?_, ?_, ?_⟩ <;> first | (unfold Drawn; decide) | decide +kernel

end Fog.Props
