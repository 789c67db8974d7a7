import Verif.Props.MinhashChances
import Verif.Props.MinhashCollisions
import Mathlib.Algebra.BigOperators.Intervals
import Mathlib.Tactic.NormNum.BigOperators
import Mathlib.Data.Finset.Card

/-!
# C114: the bias of minhash

The hash functions of minhash are affine maps modulo a prime. Three successive integers are thus sent on three terms of an arithmetic
progression, whose middle one is the least a quarter of the time only.
-/

namespace Fog.Props

open MinhashClustering Minhash Metrics Spec

theorem share_finset {α : Type _} (C : Finset α) (P : α → Prop) [DecidablePred P] :
    share (fun c : C => P c.val) = ((C.filter P).card : ℝ) / C.card := by
  classical
  rw [share_of_card (s := Finset.univ.filter fun c : C => P c.val) (by simp), Fintype.card_coe]
  congr 2
  refine Finset.card_bij (fun c _ => c.val) ?_ ?_ ?_
  · intro c hc
    simp only [Finset.mem_filter, Finset.mem_univ, true_and] at hc ⊢
    exact ⟨c.2, hc⟩
  · intro c _ d _ h
    exact Subtype.ext h
  · intro c hc
    simp only [Finset.mem_filter] at hc
    exact ⟨⟨c, hc.1⟩, by simpa using hc.2, rfl⟩

theorem card_filter_box {m n : Nat} (P : Nat × Nat → Prop) [DecidablePred P] :
    (((Finset.Icc 1 m) ×ˢ (Finset.Icc 0 n)).filter P).card = ∑ a ∈ Finset.Icc 1 m, ((Finset.Icc 0 n).filter fun b => P (a, b)).card := by
  classical
  rw [Finset.card_eq_sum_card_fiberwise (f := Prod.fst) (t := Finset.Icc 1 m) (fun c hc => by
    simp at hc; simp; exact hc.1.1)]
  refine Finset.sum_congr rfl fun a ha => ?_
  refine Finset.card_bij (fun c _ => c.2) ?_ ?_ ?_
  · rintro ⟨x, b⟩ hc
    simp only [Finset.mem_filter, Finset.mem_product] at hc ⊢
    obtain ⟨⟨⟨_, h1⟩, h2⟩, rfl⟩ := hc
    exact ⟨h1, h2⟩
  · rintro ⟨x, b⟩ hc ⟨y, d⟩ hd h
    simp only [Finset.mem_filter] at hc hd
    exact Prod.ext (hc.2.trans hd.2.symm) h
  · intro b hb
    simp only [Finset.mem_filter] at hb
    exact ⟨(a, b), by simp only [Finset.mem_filter, Finset.mem_product]; exact ⟨⟨⟨ha, hb.1⟩, hb.2⟩, trivial⟩, rfl⟩

/-- The sum of the distances to the ends of `0 … 2 k + 1`. -/
theorem sum_min (k : Nat) : ∑ a ∈ Finset.range (k + 1 + (k + 1)), min a (2 * k + 1 - a) = k * (k + 1) := by
  rw [Finset.sum_range_add]
  have h1 : ∑ x ∈ Finset.range (k + 1), min x (2 * k + 1 - x) = ∑ x ∈ Finset.range (k + 1), x :=
    Finset.sum_congr rfl fun x hx => by rw [Finset.mem_range] at hx; omega
  have h2 : ∑ x ∈ Finset.range (k + 1), min (k + 1 + x) (2 * k + 1 - (k + 1 + x)) = ∑ x ∈ Finset.range (k + 1), (k + 1 - 1 - x) :=
    Finset.sum_congr rfl fun x hx => by rw [Finset.mem_range] at hx; omega
  rw [h1, h2, Finset.sum_range_reflect (fun x => x)]
  have := Finset.sum_range_id_mul_two (k + 1)
  simp only [Nat.add_sub_cancel] at this
  rw [Nat.mul_comm k]
  omega

theorem minHash_two (a b t u : Nat) : minHash a b [t, u] = min (min maxUint32 ((a * t + b) % nextPrime)) ((a * u + b) % nextPrime) := by
  simp only [minHash, List.foldl_cons, List.foldl_nil]
  split_ifs <;> omega

theorem mod_step {p x a : Nat} (ha : a < p) : (x + a) % p = if x % p + a < p then x % p + a else x % p + a - p := by
  have hx := Nat.mod_lt x (by omega : p > 0)
  rw [Nat.add_mod, Nat.mod_eq_of_lt ha]
  split_ifs with h
  · exact Nat.mod_eq_of_lt h
  · rw [Nat.mod_eq_sub_mod (by omega), Nat.mod_eq_of_lt (by omega)]

/-- The two items agree on coefficients which send the middle integer low, or very high. -/
theorem agree_bound {p m a x : Nat} (hm : m < p) (hodd : p % 2 = 1) (ha : 1 ≤ a) (hap : a < p)
    (h : min (min m (x % p)) ((x + a) % p) = min (min m ((x + a) % p)) ((x + a + a) % p)) :
    (x + a) % p < min a (p - a) ∨ m ≤ (x + a) % p := by
  have h1 := mod_step (x := x) hap
  have h2 := mod_step (x := x + a) hap
  have hx := Nat.mod_lt x (by omega : p > 0)
  generalize (x + a + a) % p = v at *
  generalize (x + a) % p = w at *
  generalize x % p = u at *
  split_ifs at h1 h2 <;> omega

theorem agree_of_low {p m a x : Nat} (ha : 1 ≤ a) (hap : a < p) (h : (x + a) % p < min a (p - a)) :
    min (min m (x % p)) ((x + a) % p) = min (min m ((x + a) % p)) ((x + a + a) % p) := by
  have h1 := mod_step (x := x) hap
  have h2 := mod_step (x := x + a) hap
  have hx := Nat.mod_lt x (by omega : p > 0)
  generalize (x + a + a) % p = v at *
  generalize (x + a) % p = w at *
  generalize x % p = u at *
  split_ifs at h1 h2 <;> omega

theorem add_mod_inj {p c b d : Nat} (hb : b < p) (hd : d < p) (h : (c + b) % p = (c + d) % p) : b = d := by
  have := Nat.ModEq.add_left_cancel' c (show c + b ≡ c + d [MOD p] from h)
  rwa [Nat.ModEq, Nat.mod_eq_of_lt hb, Nat.mod_eq_of_lt hd] at this

/-- How many second coefficients send the middle integer where it takes for the items to agree. -/
theorem count_second {p m a c : Nat} (hm : m < p) (P : Nat → Prop) [DecidablePred P]
    (h1 : ∀ b, P b → (c + b) % p < min a (p - a) ∨ m ≤ (c + b) % p)
    (h2 : ∀ b, (c + b) % p < min a (p - a) → P b) :
    ((Finset.Icc 0 m).filter P).card ≤ min a (p - a) + (p - m) ∧ min a (p - a) ≤ ((Finset.Icc 0 m).filter P).card + (p - (m + 1)) := by
  have hp : 0 < p := by omega
  constructor
  · have := Finset.card_le_card_of_injOn (s := (Finset.Icc 0 m).filter P) (t := Finset.range (min a (p - a)) ∪ Finset.Ico m p)
      (fun b => (c + b) % p) (by
        intro b hb
        simp only [Finset.coe_filter, Set.mem_setOf_eq, Finset.mem_Icc] at hb
        have hl := Nat.mod_lt (c + b) hp
        simp only [Finset.coe_union, Finset.coe_range, Finset.coe_Ico, Set.mem_union, Set.mem_Iio, Set.mem_Ico]
        rcases h1 b hb.2 with h | h
        · exact Or.inl h
        · exact Or.inr ⟨h, hl⟩) (by
        intro b hb d hd h
        simp only [Finset.coe_filter, Set.mem_setOf_eq, Finset.mem_Icc] at hb hd
        exact add_mod_inj (by omega) (by omega) h)
    refine le_trans this (le_trans (Finset.card_union_le _ _) ?_)
    rw [Finset.card_range, Nat.card_Ico]
  · have hc := Nat.mod_lt c hp
    have hinv : ∀ w, (c + (w + (p - c % p)) % p) % p = w % p := by
      intro w
      rw [Nat.add_mod_mod, Nat.add_mod, ← Nat.add_mod, ← Nat.mod_add_div c p]
      rw [show c % p + p * (c / p) + (w + (p - (c % p + p * (c / p)) % p)) = w + p * (c / p + 1) by
        rw [Nat.add_mul_mod_self_left, Nat.mod_mod, Nat.mul_add]
        omega]
      rw [Nat.add_mul_mod_self_left]
    have := Finset.card_le_card_of_injOn (s := Finset.range (min a (p - a))) (t := (Finset.Icc 0 m).filter P ∪ Finset.Ico (m + 1) p)
      (fun w => (w + (p - c % p)) % p) (by
        intro w hw
        simp only [Finset.coe_range, Set.mem_Iio] at hw
        have hl := Nat.mod_lt (w + (p - c % p)) hp
        have hwp : w % p = w := Nat.mod_eq_of_lt (by omega)
        simp only [Finset.coe_union, Set.mem_union, Finset.coe_filter, Set.mem_setOf_eq, Finset.mem_Icc, Finset.coe_Ico, Set.mem_Ico]
        by_cases hle : (w + (p - c % p)) % p ≤ m
        · exact Or.inl ⟨⟨Nat.zero_le _, hle⟩, h2 _ (by rw [hinv, hwp]; exact hw)⟩
        · exact Or.inr ⟨by omega, hl⟩) (by
        intro w hw v hv h
        simp only [Finset.coe_range, Set.mem_Iio] at hw hv
        rw [← Nat.mod_eq_of_lt (by omega : w < p), ← Nat.mod_eq_of_lt (by omega : v < p), ← hinv w, ← hinv v]
        simp only at h
        rw [h])
    rw [Finset.card_range] at this
    refine le_trans this (le_trans (Finset.card_union_le _ _) ?_)
    rw [Nat.card_Ico]

/-- The number of pairs of coefficients for which the items agree. -/
theorem count_pairs {k m : Nat} (hm : m < 2 * k + 1) (P : Nat × Nat → Prop) [DecidablePred P] (c : Nat → Nat)
    (h1 : ∀ a b, 1 ≤ a → a ≤ m → P (a, b) → (c a + b) % (2 * k + 1) < min a (2 * k + 1 - a) ∨ m ≤ (c a + b) % (2 * k + 1))
    (h2 : ∀ a b, 1 ≤ a → a ≤ m → (c a + b) % (2 * k + 1) < min a (2 * k + 1 - a) → P (a, b)) :
    ((Finset.Icc 1 m ×ˢ Finset.Icc 0 m).filter P).card ≤ k * (k + 1) + m * (2 * k + 1 - m) ∧
    k * (k + 1) ≤ ((Finset.Icc 1 m ×ˢ Finset.Icc 0 m).filter P).card + m * (2 * k - m) +
      (2 * k + 1 - m) * (2 * k - m) := by
  rw [card_filter_box]
  have hb : ∀ a ∈ Finset.Icc 1 m, _ := fun a ha => by
    rw [Finset.mem_Icc] at ha
    exact count_second (c := c a) (a := a) hm (fun b => P (a, b)) (fun b => h1 a b ha.1 ha.2) (fun b => h2 a b ha.1 ha.2)
  have hs := sum_min k
  have hsub : Finset.Icc 1 m ⊆ Finset.range (k + 1 + (k + 1)) := by
    intro x hx
    rw [Finset.mem_Icc] at hx
    rw [Finset.mem_range]
    omega
  have hsplit := Finset.sum_sdiff (f := fun a => min a (2 * k + 1 - a)) hsub
  rw [hs] at hsplit
  constructor
  · calc _ ≤ ∑ a ∈ Finset.Icc 1 m, (min a (2 * k + 1 - a) + (2 * k + 1 - m)) := Finset.sum_le_sum fun a ha => (hb a ha).1
      _ = ∑ a ∈ Finset.Icc 1 m, min a (2 * k + 1 - a) + m * (2 * k + 1 - m) := by
          rw [Finset.sum_add_distrib, Finset.sum_const, Nat.card_Icc, smul_eq_mul, Nat.add_sub_cancel]
      _ ≤ _ := by omega
  · have hrest : ∑ a ∈ Finset.range (k + 1 + (k + 1)) \ Finset.Icc 1 m, min a (2 * k + 1 - a) ≤ (2 * k + 1 - m) * (2 * k - m) := by
      have hsub2 : Finset.range (k + 1 + (k + 1)) \ Finset.Icc 1 m ⊆ insert 0 (Finset.Ico (m + 1) (2 * k + 2)) := by
        intro x hx
        rw [Finset.mem_sdiff, Finset.mem_range, Finset.mem_Icc] at hx
        rw [Finset.mem_insert, Finset.mem_Ico]
        omega
      refine le_trans (Finset.sum_le_sum_of_subset hsub2) ?_
      rw [Finset.sum_insert (by simp)]
      refine le_trans (Nat.add_le_add_left (Finset.sum_le_card_nsmul _ _ (2 * k - m) (fun x hx => ?_)) _) ?_
      · rw [Finset.mem_Ico] at hx
        omega
      · rw [Nat.card_Ico, smul_eq_mul, Nat.zero_min, Nat.zero_add, show 2 * k + 2 - (m + 1) = 2 * k + 1 - m by omega]
    have hle : ∑ a ∈ Finset.Icc 1 m, min a (2 * k + 1 - a) ≤ ∑ a ∈ Finset.Icc 1 m, (((Finset.Icc 0 m).filter fun b => P (a, b)).card + (2 * k - m)) :=
      Finset.sum_le_sum fun a ha => by
        have := (hb a ha).2
        omega
    rw [Finset.sum_add_distrib, Finset.sum_const, Nat.card_Icc, smul_eq_mul, Nat.add_sub_cancel] at hle
    omega

variable {τ : Type _} [DecidableEq τ]

/-- **C114**: three tokens whose hashes are successive integers, such as the characters of the alphabet: two items made of the first two and
of the last two have a Jaccard similarity of a third, but agree on a quarter only of the coefficients of the library. -/
theorem minhash_bias {setOrd : List Nat → List Nat} (hso : LawfulOrder setOrd) (hash : τ → Nat) {x y z : τ} (hy : hash y = hash x + 1)
    (hz : hash z = hash x + 2) :
    jaccardSimilarity false [x, y] [y, z] = 1 / 3 ∧
    |agreeing (Finset.Icc 1 maxUint32 ×ˢ Finset.Icc 0 maxUint32) setOrd hash [x, y] [y, z] - 1 / 4| ≤ 1 / 2 ^ 27 := by
  have hxy : x ≠ y := fun h => by rw [h] at hy; omega
  have hyz : y ≠ z := fun h => by rw [h] at hy; omega
  have hxz : x ≠ z := fun h => by rw [h] at hz; omega
  constructor
  · simp [jaccardSimilarity, dedup, countIn, hxy, hyz, hxz]
  · have hsig : ∀ c : Nat × Nat, (createSignature setOrd hash [c] [x, y] = createSignature setOrd hash [c] [y, z]) ↔
        minHash c.1 c.2 [hash x, hash y] = minHash c.1 c.2 [hash y, hash z] := by
      intro c
      unfold createSignature
      simp only [length_tokenSet hso, List.cons_ne_nil, if_false, List.map_cons, List.map_nil, List.cons.injEq, and_true]
      rw [minHash_congr (l := Minhash.tokenSet setOrd hash [x, y]) (l' := [hash x, hash y]) (fun t => by rw [mem_tokenSet hso]; simp [eq_comm]),
        minHash_congr (l := Minhash.tokenSet setOrd hash [y, z]) (l' := [hash y, hash z]) (fun t => by rw [mem_tokenSet hso]; simp [eq_comm])]
    unfold agreeing
    rw [share_finset (Finset.Icc 1 maxUint32 ×ˢ Finset.Icc 0 maxUint32)
      (fun c => createSignature setOrd hash [c] [x, y] = createSignature setOrd hash [c] [y, z])]
    have hp : nextPrime = 2 * 2147483655 + 1 := rfl
    have hform : ∀ a b, minHash a b [hash x, hash y] = minHash a b [hash y, hash z] ↔
        min (min maxUint32 ((a * hash x + b) % nextPrime)) ((a * hash x + b + a) % nextPrime) =
        min (min maxUint32 ((a * hash x + b + a) % nextPrime)) ((a * hash x + b + a + a) % nextPrime) := by
      intro a b
      rw [minHash_two, minHash_two, hy, hz, show a * (hash x + 1) + b = a * hash x + b + a by ring,
        show a * (hash x + 2) + b = a * hash x + b + a + a by ring]
    have hcount := count_pairs (k := 2147483655) (m := maxUint32) (by decide)
      (fun c => createSignature setOrd hash [c] [x, y] = createSignature setOrd hash [c] [y, z]) (fun a => a * hash x + a) (by
        intro a b h1 h2 h
        rw [hsig, hform, hp] at h
        rw [show a * hash x + a + b = a * hash x + b + a by ring]
        exact agree_bound (by decide) (by decide) h1 (lt_of_le_of_lt h2 (by decide)) h) (by
        intro a b h1 h2 h
        rw [hsig, hform, hp]
        rw [show a * hash x + a + b = a * hash x + b + a by ring] at h
        exact agree_of_low h1 (lt_of_le_of_lt h2 (by decide)) h)
    rw [Finset.card_product, Nat.card_Icc, Nat.card_Icc]
    generalize ((Finset.Icc 1 maxUint32 ×ˢ Finset.Icc 0 maxUint32).filter fun c =>
      createSignature setOrd hash [c] [x, y] = createSignature setOrd hash [c] [y, z]).card = n at *
    obtain ⟨g1, g2⟩ := hcount
    have g1' : n ≤ 2147483655 * 2147483656 + 4294967295 * 16 := g1
    have g2' : 2147483655 * 2147483656 ≤ n + 4294967295 * 15 + 16 * 15 := g2
    have q1 : (n : ℝ) ≤ 2147483655 * 2147483656 + 4294967295 * 16 := by exact_mod_cast g1'
    have q2 : (2147483655 * 2147483656 : ℝ) ≤ n + 4294967295 * 15 + 16 * 15 := by exact_mod_cast g2'
    rw [show (((maxUint32 + 1 - 1) * (maxUint32 + 1 - 0) : ℕ) : ℝ) = 4294967295 * 4294967296 by norm_num [maxUint32], abs_le]
    constructor
    · rw [neg_le_sub_iff_le_add, ← sub_le_iff_le_add, le_div_iff₀ (by norm_num)]
      norm_num at q2 ⊢
      linarith
    · rw [sub_le_iff_le_add, div_le_iff₀ (by norm_num)]
      norm_num at q1 ⊢
      linarith

omit [DecidableEq τ] in
/-- **C114**: items which have nothing in common agree on few of the coefficients of the library. -/
theorem agreeing_disjoint_le {setOrd : List Nat → List Nat} (hso : LawfulOrder setOrd) {hash : τ → Nat} (hh : ∀ t, hash t < 2 ^ 32)
    {A B : List τ} (hA : A ≠ []) (hB : B ≠ []) (hd : ∀ a ∈ A, ∀ b ∈ B, hash a ≠ hash b) :
    agreeing (Finset.Icc 1 maxUint32 ×ˢ Finset.Icc 0 maxUint32) setOrd hash A B ≤ 1 / 2 ^ 28 := by
  obtain ⟨t, ht⟩ := List.exists_mem_of_ne_nil A hA
  unfold agreeing
  rw [share_finset (Finset.Icc 1 maxUint32 ×ˢ Finset.Icc 0 maxUint32)
    (fun c => createSignature setOrd hash [c] A = createSignature setOrd hash [c] B), card_filter_box]
  have hle : ∀ a ∈ Finset.Icc 1 maxUint32, ((Finset.Icc 0 maxUint32).filter fun b =>
      createSignature setOrd hash [(a, b)] A = createSignature setOrd hash [(a, b)] B).card ≤ 16 := by
    intro a ha
    rw [Finset.mem_Icc] at ha
    have hsub : ((Finset.Icc 0 maxUint32).filter fun b => createSignature setOrd hash [(a, b)] A = createSignature setOrd hash [(a, b)] B) ⊆
        (Finset.Icc 0 maxUint32).filter fun b => maxUint32 ≤ (a * hash t + b) % nextPrime := by
      intro b hb
      rw [Finset.mem_filter, Finset.mem_Icc] at hb ⊢
      refine ⟨hb.1, ?_⟩
      have hD : ∀ p ∈ [(a, b)], Drawn p := by
        intro p hp
        rw [List.mem_singleton] at hp
        subst hp
        unfold Drawn
        have h1 := hb.1.2
        have h2 := ha.2
        unfold maxUint32 at h1 h2
        grind
      have := (minhash_agree_iff hso hh (params := [(a, b)]) hD hA hB (i := 0) (p := (a, b)) rfl).mp (by rw [hb.2])
      rcases this with ⟨x, hx, y, hy, h, _⟩ | h
      · exact absurd h (hd x hx y hy)
      · exact h t (List.mem_append_left _ ht)
    refine le_trans (Finset.card_le_card hsub) ?_
    have := (count_second (p := nextPrime) (m := maxUint32) (a := 0) (c := a * hash t) (by decide)
      (fun b => maxUint32 ≤ (a * hash t + b) % nextPrime) (fun b h => Or.inr h) (fun b h => by rw [Nat.zero_min] at h; omega)).1
    rw [Nat.zero_min, Nat.zero_add] at this
    exact this
  have hsum := Finset.sum_le_card_nsmul _ _ 16 hle
  rw [Nat.card_Icc, smul_eq_mul, Nat.add_sub_cancel] at hsum
  rw [Finset.card_product, Nat.card_Icc, Nat.card_Icc]
  generalize (∑ a ∈ Finset.Icc 1 maxUint32, ((Finset.Icc 0 maxUint32).filter fun b =>
      createSignature setOrd hash [(a, b)] A = createSignature setOrd hash [(a, b)] B).card) = n at *
  have q : (n : ℝ) ≤ 4294967295 * 16 := by exact_mod_cast (show n ≤ 4294967295 * 16 from hsum)
  rw [show (((maxUint32 + 1 - 1) * (maxUint32 + 1 - 0) : ℕ) : ℝ) = 4294967295 * 4294967296 by norm_num [maxUint32],
    div_le_iff₀ (by norm_num)]
  norm_num at q ⊢
  linarith

omit [DecidableEq τ] in
/-- **C114**: and items made of the same tokens agree on all of them. -/
theorem agreeing_same {C : Finset (Nat × Nat)} (hC : C.Nonempty) {setOrd : List Nat → List Nat} (hso : LawfulOrder setOrd) (hash : τ → Nat)
    {A B : List τ} (h : ∀ t, t ∈ A ↔ t ∈ B) : agreeing C setOrd hash A B = 1 := by
  have : Nonempty C := hC.to_subtype
  have e : agreeing C setOrd hash A B = share fun _ : C => True := by
    unfold agreeing
    apply share_congr
    intro c
    simp only [iff_true]
    have hnil : A = [] ↔ B = [] := by
      rw [List.eq_nil_iff_forall_not_mem, List.eq_nil_iff_forall_not_mem]
      simp only [h]
    unfold createSignature
    simp only [length_tokenSet hso, hnil, List.map_cons, List.map_nil]
    rw [minHash_congr (l := Minhash.tokenSet setOrd hash A) (l' := Minhash.tokenSet setOrd hash B)
      (fun t => by rw [mem_tokenSet hso, mem_tokenSet hso]; simp only [h])]
  have h1 := share_not (fun _ : C => False)
  have h2 : share (fun _ : C => False) = 0 := by unfold share; simp
  rw [e, share_congr (F := fun _ : C => ¬ False) (by simp), h1, h2, sub_zero]

example : agreeing (Finset.Icc 1 maxUint32 ×ˢ Finset.Icc 0 maxUint32) id (fun n : Fin 10 => n.val) [1, 2] [3] ≤ 1 / 2 ^ 28 :=
  agreeing_disjoint_le (fun _ => List.Perm.refl _) (fun t => by have := t.isLt; omega) (by simp) (by simp) (by decide)

example : agreeing twoPairs id id [1, 2] [2, 1, 2] = 1 :=
  agreeing_same ⟨(1, 0), by decide⟩ (fun _ => List.Perm.refl _) id (by simp)

/-- The mean of `minhash_similarity` over the draws of the library, on "ab" and "bc", is not their Jaccard similarity, but about a quarter. -/
theorem minhash_similarity_biased {setOrd : List Nat → List Nat} (hso : LawfulOrder setOrd) {h : Nat} (hh : 1 ≤ h) (hle : h ≤ 2 ^ 32) :
    jaccardSimilarity false "ab".toList "bc".toList = 1 / 3 ∧
    ∃ X : (Fin h ↪ ↥(Finset.Icc 1 maxUint32 ×ˢ Finset.Icc 0 maxUint32)) → ℚ,
      (∀ f : Fin h ↪ ↥(Finset.Icc 1 maxUint32 ×ˢ Finset.Icc 0 maxUint32),
        minhashSimilarity (createSignature setOrd Char.toNat (drawn f) "ab".toList)
        (createSignature setOrd Char.toNat (drawn f) "bc".toList) = .ok (X f)) ∧
      |average (fun f => (X f : ℝ)) - 1 / 4| ≤ 1 / 2 ^ 27 := by
  obtain ⟨h1, h2⟩ := minhash_bias hso Char.toNat (x := 'a') (y := 'b') (z := 'c') (by decide) (by decide)
  refine ⟨h1, ?_⟩
  obtain ⟨X, h3, h4, _⟩ := minhash_similarity_estimates_distinct_partial (C := Finset.Icc 1 maxUint32 ×ˢ Finset.Icc 0 maxUint32)
    setOrd Char.toNat hh (by
      rw [Finset.card_product, Nat.card_Icc, Nat.card_Icc]
      exact le_trans hle (by decide)) (by
      rw [Finset.card_product, Nat.card_Icc, Nat.card_Icc]
      decide) "ab".toList "bc".toList
  exact ⟨X, h3, by rw [h4]; exact h2⟩

example : jaccardSimilarity false "ab".toList "bc".toList = 1 / 3 :=
  (minhash_similarity_biased (setOrd := id) (fun _ => List.Perm.refl _) (h := 256) (by decide) (by decide)).1

end Fog.Props
