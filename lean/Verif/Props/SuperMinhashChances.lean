import Verif.Props.SuperMinhash
import Verif.Props.MinhashChances
import Verif.Lemmas.LeastRank

/-!
# C117: the chances of SuperMinHash

`SuperMinHash` gives to each token the random numbers which follow `rng.seed(token)`. Here all the generators are as likely: those which
give to each of the tokens `0, ..., T - 1` any `m` numbers among `0, 1 / N, ..., (N - 1) / N` (`N` is `2 ** 53` in Python).
-/

namespace Fog.Props

open Fog.Spec Fog.LeastRank Fog.Minhash Finset

variable {τ : Type}

/-- The numbers given to a token. -/
def numbers {m N : Nat} (d : Fin m → Fin N) (j : Nat) : ℚ := if h : j < m then ((d ⟨j, h⟩).val : ℚ) / N else 0

/-- The numbers which follow `rng.seed(token)`. -/
def seeded {T m N : Nat} (g : Fin T → Fin m → Fin N) (token j : Nat) : ℚ := if h : token < T then numbers (g ⟨token, h⟩) j else 0

/-- `minhash_similarity` of the two signatures. -/
def superSimilarity {T m N : Nat} (ord : List Nat → List Nat) (hash : τ → Nat) (x y : List τ) (g : Fin T → Fin m → Fin N) : Py ℚ := do
  let a ← SuperMinhash.createSignature ord hash (seeded g) m x
  let b ← SuperMinhash.createSignature ord hash (seeded g) m y
  minhashSimilarity a b

/-- The rank at which a shuffle puts a position. -/
def rankOf (r : Nat → ℚ) (m pos : Nat) : Nat := (fisherYates (Spec.drawn r m) m m).idxOf pos

/-- The tokens of a list, among those below `T`. -/
def tokensBelow (T : Nat) (l : List Nat) : Finset (Fin T) := univ.filter fun t => t.val ∈ l

theorem numbers_lawful {m N : Nat} (d : Fin m → Fin N) (j : Nat) : 0 ≤ numbers d j ∧ numbers d j < 1 := by
  unfold numbers
  split
  · rename_i h
    have h1 := (d ⟨j, h⟩).isLt
    have h2 : ((d ⟨j, h⟩).val : ℚ) < N := by exact_mod_cast h1
    have h3 : (0 : ℚ) < N := lt_of_le_of_lt (Nat.cast_nonneg _) h2
    exact ⟨by positivity, by rwa [div_lt_one h3]⟩
  · exact ⟨le_refl _, by norm_num⟩

theorem seeded_lawful {T m N : Nat} (g : Fin T → Fin m → Fin N) : LawfulRandom (seeded g) := by
  intro token j
  unfold seeded
  split
  · exact numbers_lawful _ _
  · exact ⟨le_refl _, by norm_num⟩

section Rank

variable {r : Nat → ℚ} (h0 : ∀ j, 0 ≤ r j) (h1 : ∀ j, r j < 1) {m pos : Nat}
include h0 h1

theorem shuffle_perm : (fisherYates (Spec.drawn r m) m m).Perm (List.range m) :=
  SuperMinhash.fisherYates_perm (fun _ hj => SuperMinhash.drawn_lt h0 h1 hj) m (Nat.le_refl m)

theorem rankOf_lt (hpos : pos < m) : rankOf r m pos < m := by
  have hp := shuffle_perm h0 h1 (m := m)
  have := List.idxOf_lt_length_of_mem (hp.mem_iff.mpr (List.mem_range.mpr hpos))
  rwa [SuperMinhash.length_fisherYates] at this

theorem getElem?_rankOf (hpos : pos < m) : (fisherYates (Spec.drawn r m) m m)[rankOf r m pos]? = some pos := by
  have hp := shuffle_perm h0 h1 (m := m)
  exact List.getElem?_idxOf (hp.mem_iff.mpr (List.mem_range.mpr hpos))

theorem eq_rankOf {j : Nat} (hj : (fisherYates (Spec.drawn r m) m m)[j]? = some pos) : j = rankOf r m pos := by
  have hp := shuffle_perm h0 h1 (m := m)
  have hmem : pos ∈ fisherYates (Spec.drawn r m) m m := List.mem_of_getElem? hj
  have hpos : pos < m := List.mem_range.mp (hp.mem_iff.mp hmem)
  have h2 := getElem?_rankOf h0 h1 hpos
  have hn : (fisherYates (Spec.drawn r m) m m).Nodup := hp.nodup_iff.mpr List.nodup_range
  have hjl := (List.getElem?_eq_some_iff.mp hj).1
  exact (List.getElem?_inj hjl hn).mp (hj.trans h2.symm)

theorem rankOf_eq_zero (hpos : pos < m) : rankOf r m pos = 0 ↔ Spec.drawn r m 0 = pos := by
  have hk : ∀ j < m, Spec.drawn r m j < m := fun _ hj => SuperMinhash.drawn_lt h0 h1 hj
  have e : (fisherYates (Spec.drawn r m) m m)[0]? = some (Spec.drawn r m 0) := by
    rw [SuperMinhash.fisherYates_final hk (SuperMinhash.le_drawn r m) (by omega)]
    have hd := hk 0 (by omega)
    simp only [fisherYates]
    rw [SuperMinhash.getElem?_swapAt (by simpa using by omega) (by simpa using hd)]
    split
    · rename_i h
      rw [← h]
      simp [show 0 < m by omega]
    · simp [hd]
  constructor
  · intro h
    have := getElem?_rankOf h0 h1 hpos
    rw [h, e] at this
    exact Option.some.inj this
  · intro h
    rw [h] at e
    exact (eq_rankOf h0 h1 e).symm

end Rank

/-- The integers of a signature are the least ranks. -/
theorem super_signature_rank {rand : Nat → Nat → ℚ} (hr : LawfulRandom rand) {m : Nat} {tokens : List Nat} {signature : List Int}
    (h : IsSuperSignature rand m tokens signature) {pos : Nat} (hpos : pos < m) :
    ∃ x, signature[pos]? = some x ∧ (x = (m : Int) + 1 ∨ 0 ≤ x ∧ x < m) ∧
      ∀ v < m, x ≤ (v : Int) ↔ ∃ t ∈ tokens, rankOf (rand t) m pos ≤ v := by
  obtain ⟨v, hv, hs⟩ := h.2 pos hpos
  refine ⟨⌊v⌋, hs, ?_, ?_⟩
  · rcases hv.1 with e | ⟨t, _, j, hj, _, e⟩
    · left
      have := Int.floor_intCast (R := ℚ) ((m : Int) + 1)
      push_cast at this
      rw [e, this]
    · right
      have h1 := hr t j
      have : ⌊v⌋ = (j : Int) := by
        rw [Int.floor_eq_iff, e]
        push_cast
        constructor <;> linarith
      rw [this]
      omega
  · intro w hw
    rw [← Int.lt_add_one_iff, Int.floor_lt]
    push_cast
    constructor
    · intro hlt
      rcases hv.1 with e | ⟨t, ht, j, hj, hf, e⟩
      · have : (w : ℚ) + 1 ≤ m := by exact_mod_cast hw
        rw [e] at hlt
        linarith
      · refine ⟨t, ht, ?_⟩
        rw [← eq_rankOf (fun j => (hr t j).1) (fun j => (hr t j).2) hf]
        have h1 := (hr t j).1
        have : (j : ℚ) < w + 1 := by linarith
        have : j < w + 1 := by exact_mod_cast this
        omega
    · rintro ⟨t, ht, hle⟩
      have h2 := getElem?_rankOf (fun j => (hr t j).1) (fun j => (hr t j).2) hpos
      have h3 := rankOf_lt (fun j => (hr t j).1) (fun j => (hr t j).2) hpos
      have h4 := hv.2 (.inr ⟨t, ht, _, h3, h2, rfl⟩)
      have h5 := (hr t (rankOf (rand t) m pos)).2
      have h6 : ((rankOf (rand t) m pos : ℕ) : ℚ) ≤ w := by exact_mod_cast hle
      linarith

theorem super_agree_iff {T m N : Nat} (g : Fin T → Fin m → Fin N) {l l' : List Nat} (hl : ∀ t ∈ l, t < T) (hl' : ∀ t ∈ l', t < T)
    {a b : List Int} (ha : IsSuperSignature (seeded g) m l a) (hb : IsSuperSignature (seeded g) m l' b) {pos : Nat} (hpos : pos < m) :
    a[pos]? = b[pos]? ↔ SameLeast (fun d => rankOf (numbers d) m pos) (tokensBelow T l) (tokensBelow T l') g := by
  have hr := seeded_lawful g
  obtain ⟨x, hx, hx1, hx2⟩ := super_signature_rank hr ha hpos
  obtain ⟨y, hy, hy1, hy2⟩ := super_signature_rank hr hb hpos
  have key : ∀ l : List Nat, (∀ t ∈ l, t < T) → ∀ v, (∃ t ∈ l, rankOf (seeded g t) m pos ≤ v) ↔
      ∃ t ∈ tokensBelow T l, rankOf (numbers (g t)) m pos ≤ v := by
    intro l hl v
    have e : ∀ (t : Nat) (h : t < T), seeded g t = numbers (g ⟨t, h⟩) := by
      intro t h
      funext j
      simp [seeded, h]
    constructor
    · rintro ⟨t, ht, h⟩
      rw [e t (hl t ht)] at h
      exact ⟨⟨t, hl t ht⟩, by simpa [tokensBelow] using ht, h⟩
    · rintro ⟨t, ht, h⟩
      refine ⟨t.val, by simpa [tokensBelow] using ht, ?_⟩
      rw [e t.val t.isLt]
      exact h
  have hlt : ∀ d : Fin m → Fin N, rankOf (numbers d) m pos < m :=
    fun d => rankOf_lt (fun j => (numbers_lawful d j).1) (fun j => (numbers_lawful d j).2) hpos
  rw [hx, hy, Option.some.injEq]
  constructor
  · intro hxy v
    subst hxy
    by_cases hv : v < m
    · exact (key l hl v).symm.trans ((hx2 v hv).symm.trans ((hy2 v hv).trans (key l' hl' v)))
    · have e := (key l hl (m - 1)).symm.trans ((hx2 (m - 1) (by omega)).symm.trans ((hy2 (m - 1) (by omega)).trans (key l' hl' (m - 1))))
      have big : ∀ S : Finset (Fin T), (∃ t ∈ S, rankOf (numbers (g t)) m pos ≤ v) ↔ ∃ t ∈ S, rankOf (numbers (g t)) m pos ≤ m - 1 := by
        intro S
        constructor
        · rintro ⟨t, ht, _⟩
          exact ⟨t, ht, by have := hlt (g t); omega⟩
        · rintro ⟨t, ht, _⟩
          exact ⟨t, ht, by have := hlt (g t); omega⟩
      exact (big _).trans (e.trans (big _).symm)
  · intro h
    have h' : ∀ v < m, x ≤ (v : Int) ↔ y ≤ (v : Int) :=
      fun v hv => (hx2 v hv).trans ((key l hl v).trans ((h v).trans ((key l' hl' v).symm.trans (hy2 v hv).symm)))
    rcases hx1 with hx1 | hx1 <;> rcases hy1 with hy1 | hy1
    · omega
    · have := (h' y.toNat (by omega)).mpr (by omega)
      omega
    · have := (h' x.toNat (by omega)).mp (by omega)
      omega
    · have h1 := (h' y.toNat (by omega)).mpr (by omega)
      have h2 := (h' x.toNat (by omega)).mp (by omega)
      omega

/-- The chance that the two signatures agree, in the mean over the positions. -/
theorem super_similarity_average {ord : List Nat → List Nat} (ho : LawfulOrder ord) (hash : τ → Nat) {T m N : Nat} (hm : 0 < m)
    (x y : List τ) (hx : ∀ c ∈ x, hash c < T) (hy : ∀ c ∈ y, hash c < T) :
    ∃ X : (Fin T → Fin m → Fin N) → ℚ, (∀ g, superSimilarity ord hash x y g = .ok (X g)) ∧
      average (fun g => (X g : ℝ)) = (∑ pos : Fin m, share (SameLeast (fun d : Fin m → Fin N => rankOf (numbers d) m pos)
        (tokensBelow T (x.map hash)) (tokensBelow T (y.map hash)))) / m := by
  classical
  have main : ∀ g : Fin T → Fin m → Fin N, ∃ q : ℚ, superSimilarity ord hash x y g = .ok q ∧
      (q : ℝ) = (∑ pos : Fin m, if SameLeast (fun d : Fin m → Fin N => rankOf (numbers d) m pos)
        (tokensBelow T (x.map hash)) (tokensBelow T (y.map hash)) g then (1 : ℝ) else 0) / m := by
    intro g
    obtain ⟨a, e1, h1⟩ := super_minhash_eq ho hash (seeded_lawful g) hm x
    obtain ⟨b, e2, h2⟩ := super_minhash_eq ho hash (seeded_lawful g) hm y
    obtain ⟨q, hq, _, hq1, _⟩ := minhash_similarity_eq (A := a) (B := b) (by rw [h1.1, h2.1]) (by
      intro h0
      have := h1.1
      rw [h0] at this
      simp at this
      omega)
    refine ⟨q, ?_, ?_⟩
    · unfold superSimilarity
      simp only [e1, e2, bind, Except.bind, hq]
    · rw [hq1, h1.1]
      push_cast
      congr 1
      have hz : a.zip b = List.ofFn fun pos : Fin m => (a.getD pos 0, b.getD pos 0) := by
        apply List.ext_getElem?
        intro i
        by_cases hi : i < m
        · have ha : i < a.length := by rw [h1.1]; exact hi
          have hb : i < b.length := by rw [h2.1]; exact hi
          rw [List.getElem?_eq_getElem (by simp [ha, hb]), List.getElem?_eq_getElem (by simp [hi])]
          simp [ha, hb]
        · rw [List.getElem?_eq_none (by simp [h1.1, h2.1]; omega), List.getElem?_eq_none (by simp; omega)]
      rw [hz, countP_ofFn]
      refine Finset.sum_congr rfl fun pos _ => ?_
      have ha : pos.val < a.length := by rw [h1.1]; exact pos.isLt
      have hb : pos.val < b.length := by rw [h2.1]; exact pos.isLt
      have := super_agree_iff g (l := x.map hash) (l' := y.map hash) (by simpa using hx) (by simpa using hy) h1 h2 pos.isLt
      rw [List.getElem?_eq_getElem ha, List.getElem?_eq_getElem hb, Option.some.injEq] at this
      congr 1
      simp [ha, hb, this]
  choose X hX1 hX2 using main
  refine ⟨X, hX1, ?_⟩
  simp only [hX2]
  rw [average_div, average_sum]
  simp only [average_indicator]

/-! ### The cards -/

theorem tokensBelow_map {T : Nat} {l : List Nat} (hl : ∀ t ∈ l, t < T) : (tokensBelow T l).map Fin.valEmbedding = l.toFinset := by
  ext t
  simp only [tokensBelow, mem_map, mem_filter, mem_univ, true_and, Fin.valEmbedding_apply, List.mem_toFinset]
  constructor
  · rintro ⟨s, hs, rfl⟩; exact hs
  · intro h; exact ⟨⟨t, hl t h⟩, h, rfl⟩

section Cards

variable {T : Nat} {l l' : List Nat} (hl : ∀ t ∈ l, t < T) (hl' : ∀ t ∈ l', t < T)
include hl

theorem card_tokensBelow : (tokensBelow T l).card = l.toFinset.card := by rw [← tokensBelow_map hl, card_map]

include hl'

theorem card_tokensBelow_inter : (tokensBelow T l ∩ tokensBelow T l').card = (l.toFinset ∩ l'.toFinset).card := by
  rw [← tokensBelow_map hl, ← tokensBelow_map hl', ← map_inter, card_map]

theorem card_tokensBelow_union : (tokensBelow T l ∪ tokensBelow T l').card = (l.toFinset ∪ l'.toFinset).card := by
  rw [← tokensBelow_map hl, ← tokensBelow_map hl', ← map_union, card_map]

theorem card_tokensBelow_sdiff : (tokensBelow T l \ tokensBelow T l').card = (l.toFinset \ l'.toFinset).card := by
  rw [← tokensBelow_map hl, ← tokensBelow_map hl', ← map_sdiff, card_map]

end Cards

/-- The chance, for a token, to put a position at rank `v` or later. -/
noncomputable def later (m N pos v : Nat) : ℝ := share fun d : Fin m → Fin N => v ≤ rankOf (numbers d) m pos

/-- **C117** partial: the mean of `minhash_similarity` of two SuperMinHash signatures, over all generators, is at least the Jaccard
similarity of the tokens, and is told by the chances `later` and the numbers `a`, `b` and `c` of tokens of the first sequence only, of the
second only, and of both. Missing: it is not the Jaccard similarity, see below. -/
theorem super_minhash_estimates_partial {ord : List Nat → List Nat} (ho : LawfulOrder ord) (hash : τ → Nat) {T m N : Nat} (hm : 0 < m)
    (hN : 0 < N) (x y : List τ) (hx : ∀ c ∈ x, hash c < T) (hy : ∀ c ∈ y, hash c < T) (hne : x ≠ [] ∨ y ≠ []) (A B : Finset Nat)
    (hA : A = (x.map hash).toFinset) (hB : B = (y.map hash).toFinset) (a b c : Nat) (ha : a = (A \ B).card) (hb : b = (B \ A).card)
    (hc : c = (A ∩ B).card) :
    ∃ X : (Fin T → Fin m → Fin N) → ℚ, (∀ g, superSimilarity ord hash x y g = .ok (X g)) ∧
      (c : ℝ) / (a + b + c) ≤ average (fun g => (X g : ℝ)) ∧
      average (fun g => (X g : ℝ)) = (∑ pos ∈ range m, ∑ v ∈ range m,
        (later m N pos v ^ (a + b + c) - later m N pos (v + 1) ^ (a + c) * later m N pos v ^ b
          - later m N pos v ^ a * later m N pos (v + 1) ^ (b + c) + later m N pos (v + 1) ^ (a + b + c))) / m := by
  classical
  have : Nonempty (Fin N) := ⟨⟨0, hN⟩⟩
  have hl : ∀ t ∈ x.map hash, t < T := by simpa using hx
  have hl' : ∀ t ∈ y.map hash, t < T := by simpa using hy
  obtain ⟨X, hX, hav⟩ := super_similarity_average (N := N) ho hash hm x y hx hy
  have hmr : (0 : ℝ) < m := by exact_mod_cast hm
  have hu : (tokensBelow T (x.map hash) ∪ tokensBelow T (y.map hash)).Nonempty := by
    rw [← Finset.card_pos, card_tokensBelow_union hl hl', Finset.card_pos]
    rcases hne with h | h
    · obtain ⟨t, ht⟩ := List.exists_mem_of_ne_nil _ h
      exact ⟨hash t, mem_union_left _ (by simpa using ⟨t, ht, rfl⟩)⟩
    · obtain ⟨t, ht⟩ := List.exists_mem_of_ne_nil _ h
      exact ⟨hash t, mem_union_right _ (by simpa using ⟨t, ht, rfl⟩)⟩
  refine ⟨X, hX, ?_, ?_⟩
  · rw [hav, le_div_iff₀ hmr]
    have h1 : ∀ pos : Fin m, (c : ℝ) / (a + b + c) ≤ share (SameLeast (fun d : Fin m → Fin N => rankOf (numbers d) m pos)
        (tokensBelow T (x.map hash)) (tokensBelow T (y.map hash))) := by
      intro pos
      refine le_trans (le_of_eq ?_) (sameLeast_ge _ hu)
      rw [card_tokensBelow_inter hl hl', card_tokensBelow_union hl hl', ← hA, ← hB, ← hc]
      have : (A ∪ B).card = a + b + c := by
        rw [ha, hb, hc, add_assoc, Finset.inter_comm A B, Finset.card_sdiff_add_card_inter, Finset.card_sdiff_add_card]
      rw [this]
      push_cast
      rfl
    have h2 := Finset.sum_le_sum fun (pos : Fin m) (_ : pos ∈ univ) => h1 pos
    rw [Finset.sum_const, Finset.card_univ, Fintype.card_fin, nsmul_eq_mul] at h2
    rwa [mul_comm]
  · rw [hav, ← Fin.sum_univ_eq_sum_range]
    congr 1
    refine Finset.sum_congr rfl fun pos _ => ?_
    rw [share_sameLeast (M := m) (fun d => rankOf_lt (fun j => (numbers_lawful d j).1) (fun j => (numbers_lawful d j).2) pos.isLt) hu]
    refine Finset.sum_congr rfl fun v _ => ?_
    simp only [share_above, card_tokensBelow_inter hl hl', card_tokensBelow_sdiff hl hl', card_tokensBelow_sdiff hl' hl, ← hA, ← hB,
      ← ha, ← hb, ← hc, max_self, Nat.max_eq_left (Nat.le_succ v), Nat.max_eq_right (Nat.le_succ v)]
    unfold later
    ring

/-- Two sequences with one token in common out of three. -/
example : ∃ X : (Fin 4 → Fin 4 → Fin 8) → ℚ, (∀ g, superSimilarity List.reverse (fun n : Nat => n) [1, 2, 2] [2, 3] g = .ok (X g)) ∧
    1 / 3 ≤ average (fun g => (X g : ℝ)) := by
  obtain ⟨X, h1, h2, _⟩ := super_minhash_estimates_partial (T := 4) (m := 4) (N := 8) List.reverse_perm (fun n : Nat => n) (by decide)
    (by decide) [1, 2, 2] [2, 3] (by decide) (by decide) (by simp) {1, 2} {2, 3} (by decide) (by decide) 1 1 1 (by decide) (by decide)
    (by decide)
  refine ⟨X, h1, le_trans (le_of_eq (by norm_num)) h2⟩

/-- The position drawn first is any one, when `m` divides `N`. -/
theorem later_one {m q pos : Nat} (hq : 0 < q) (hpos : pos < m) : later m (m * q) pos 1 = 1 - 1 / m := by
  classical
  have hm : 0 < m := by omega
  have : Nonempty (Fin (m * q)) := ⟨⟨0, Nat.mul_pos hm hq⟩⟩
  have : Nonempty (Fin q) := ⟨⟨0, hq⟩⟩
  have hmr : (m : ℝ) ≠ 0 := by exact_mod_cast hm.ne'
  unfold later
  have e : ∀ d : Fin m → Fin (m * q), 1 ≤ rankOf (numbers d) m pos ↔ ¬ (d ⟨0, hm⟩).val / q = pos := by
    intro d
    rw [Nat.one_le_iff_ne_zero, ne_eq, rankOf_eq_zero (fun j => (numbers_lawful d j).1) (fun j => (numbers_lawful d j).2) hpos]
    apply not_congr
    have : Spec.drawn (numbers d) m 0 = (d ⟨0, hm⟩).val / q := by
      unfold Spec.drawn numbers
      rw [dif_pos hm]
      have hmq : (m : ℚ) ≠ 0 := by exact_mod_cast hm.ne'
      have hqq : (q : ℚ) ≠ 0 := by exact_mod_cast hq.ne'
      have : ((d ⟨0, hm⟩).val : ℚ) / ((m * q : Nat) : ℚ) * ((m : ℚ) - (0 : Nat)) = ((d ⟨0, hm⟩).val : ℚ) / (q : ℚ) := by
        push_cast
        rw [sub_zero]
        field_simp
      rw [this, Rat.floor_natCast_div_natCast]
      rw [Nat.zero_add, ← Int.natCast_div, Int.toNat_natCast]
    rw [this]
  have hplace := share_place (σ := Fin (m * q)) (ι := Fin m) ⟨0, hm⟩ fun n => n.val / q = pos
  rw [share_congr e, share_not, hplace]
  congr 1
  rw [← share_equiv (finProdFinEquiv (m := m) (n := q)), share_congr (F := fun o : Fin m × Fin q => o.1 = ⟨pos, hpos⟩)]
  · rw [share_fst (fun i : Fin m => i = ⟨pos, hpos⟩), share_of_card (s := {⟨pos, hpos⟩}) (by simp)]
    simp
  · rintro ⟨i, j⟩
    simp only [finProdFinEquiv_apply_val, Fin.ext_iff]
    rw [Nat.add_mul_div_left _ _ hq, Nat.div_eq_of_lt j.isLt, Nat.zero_add]

/-- **C117** is false: the numbers after the point being thrown away, all that is left of a token is a rank, and two sequences with many
tokens have zeros everywhere, whatever their tokens. -/
theorem super_minhash_saturates {ord : List Nat → List Nat} (ho : LawfulOrder ord) (hash : τ → Nat) {T m q : Nat} (hm : 0 < m)
    (hq : 0 < q) (x y : List τ) (hx : ∀ c ∈ x, hash c < T) (hy : ∀ c ∈ y, hash c < T) :
    ∃ X : (Fin T → Fin m → Fin (m * q)) → ℚ, (∀ g, superSimilarity ord hash x y g = .ok (X g)) ∧
      1 - (1 - 1 / (m : ℝ)) ^ (x.map hash).toFinset.card - (1 - 1 / (m : ℝ)) ^ (y.map hash).toFinset.card +
        (1 - 1 / (m : ℝ)) ^ ((x.map hash).toFinset ∪ (y.map hash).toFinset).card ≤ average (fun g => (X g : ℝ)) := by
  classical
  have : Nonempty (Fin (m * q)) := ⟨⟨0, Nat.mul_pos hm hq⟩⟩
  have hl : ∀ t ∈ x.map hash, t < T := by simpa using hx
  have hl' : ∀ t ∈ y.map hash, t < T := by simpa using hy
  obtain ⟨X, hX, hav⟩ := super_similarity_average (N := m * q) ho hash hm x y hx hy
  have hmr : (0 : ℝ) < m := by exact_mod_cast hm
  refine ⟨X, hX, ?_⟩
  rw [hav, le_div_iff₀ hmr]
  have h1 : ∀ pos : Fin m, 1 - (1 - 1 / (m : ℝ)) ^ (x.map hash).toFinset.card - (1 - 1 / (m : ℝ)) ^ (y.map hash).toFinset.card +
      (1 - 1 / (m : ℝ)) ^ ((x.map hash).toFinset ∪ (y.map hash).toFinset).card ≤
      share (SameLeast (fun d : Fin m → Fin (m * q) => rankOf (numbers d) m pos) (tokensBelow T (x.map hash)) (tokensBelow T (y.map hash))) := by
    intro pos
    have h := sameLeast_ge_zero (fun d : Fin m → Fin (m * q) => rankOf (numbers d) m pos) (tokensBelow T (x.map hash))
      (tokensBelow T (y.map hash))
    rwa [card_tokensBelow_union hl hl', card_tokensBelow hl, card_tokensBelow hl', show share (fun d : Fin m → Fin (m * q) =>
      1 ≤ rankOf (numbers d) m pos) = 1 - 1 / (m : ℝ) from later_one hq pos.isLt] at h
  have h2 := Finset.sum_le_sum fun (pos : Fin m) (_ : pos ∈ univ) => h1 pos
  rw [Finset.sum_const, Finset.card_univ, Fintype.card_fin, nsmul_eq_mul] at h2
  rwa [mul_comm]

/-- **C117** is false, with the default `h=256` and the numbers of Python: two sequences of a thousand tokens without any in common have a
mean similarity of more than 24 / 25. -/
theorem super_minhash_disjoint_similar {ord : List Nat → List Nat} (ho : LawfulOrder ord) (hash : τ → Nat) {T : Nat} (x y : List τ)
    (hx : ∀ c ∈ x, hash c < T) (hy : ∀ c ∈ y, hash c < T) (hxn : 1000 ≤ (x.map hash).toFinset.card)
    (hyn : 1000 ≤ (y.map hash).toFinset.card) :
    ∃ X : (Fin T → Fin 256 → Fin (2 ^ 53)) → ℚ, (∀ g, superSimilarity ord hash x y g = .ok (X g)) ∧
      24 / 25 < average (fun g => (X g : ℝ)) := by
  obtain ⟨X, hX, hav⟩ := super_minhash_saturates (m := 256) (q := 2 ^ 45) ho hash (by norm_num) (by norm_num) x y hx hy
  refine ⟨X, hX, lt_of_lt_of_le ?_ hav⟩
  have hp : ∀ n, 1000 ≤ n → (1 - 1 / ((256 : ℕ) : ℝ)) ^ n ≤ (255 / 256) ^ 1000 := by
    intro n hn
    rw [show (1 - 1 / ((256 : ℕ) : ℝ)) = 255 / 256 by norm_num]
    exact pow_le_pow_of_le_one (by norm_num) (by norm_num) hn
  have h1 := hp _ hxn
  have h2 := hp _ hyn
  have h3 : (0 : ℝ) ≤ (1 - 1 / ((256 : ℕ) : ℝ)) ^ ((x.map hash).toFinset ∪ (y.map hash).toFinset).card := by
    apply pow_nonneg
    norm_num
  have h4 : (255 / 256 : ℝ) ^ 1000 < 1 / 50 := by
    have h5 : (255 / 256 : ℝ) ^ 200 < 1143 / 2500 := by norm_num
    have h6 : ((255 / 256 : ℝ) ^ 200) ^ 5 ≤ (1143 / 2500) ^ 5 := pow_le_pow_left₀ (by positivity) h5.le 5
    rw [← pow_mul] at h6
    exact lt_of_le_of_lt h6 (by norm_num)
  have h7 := h1.trans_lt h4
  have h8 := h2.trans_lt h4
  clear h1 h2 h4 hp hav
  generalize (1 - 1 / ((256 : ℕ) : ℝ)) ^ ((x.map hash).toFinset ∪ (y.map hash).toFinset).card = u at *
  generalize (1 - 1 / ((256 : ℕ) : ℝ)) ^ (x.map hash).toFinset.card = v at *
  generalize (1 - 1 / ((256 : ℕ) : ℝ)) ^ (y.map hash).toFinset.card = w at *
  linarith

/-- Two such sequences, whose Jaccard similarity is zero. -/
example : ∃ X : (Fin 2000 → Fin 256 → Fin (2 ^ 53)) → ℚ,
    (∀ g, superSimilarity id (fun n : Nat => n) (List.range 1000) (List.range' 1000 1000) g = .ok (X g)) ∧
    24 / 25 < average (fun g => (X g : ℝ)) := by
  apply super_minhash_disjoint_similar (fun l => List.Perm.refl l)
  · intro c hc; rw [List.mem_range] at hc; omega
  · intro c hc; rw [List.mem_range'_1] at hc; omega
  · rw [List.map_id', List.toFinset_card_of_nodup List.nodup_range]; simp
  · rw [List.map_id', List.toFinset_card_of_nodup List.nodup_range']; simp

end Fog.Props
