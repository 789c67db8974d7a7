import Verif.Props.Simhash
import Verif.Props.LsbMinhashChances
import Mathlib.Logic.Equiv.Basic
import Mathlib.Data.Fintype.Pi
import Mathlib.Tactic.IntervalCases

/-!
# C120: the chances of simhash

The hash functions are drawn: each bit of the hash of each token is as likely to be zero as one, independently. An outcome
`o : Fin f → τ → Bool` gives bit `i` of the hash of a token.
-/

namespace Fog.Props

open Simhash LshUtils Spec

variable {τ : Type} [Fintype τ] [DecidableEq τ]

/-- The number whose bits are given. -/
def ofBits (f : Nat) (p : Nat → Bool) : Nat :=
  (List.range f).foldl (fun signature i => if p i = true then signature ||| (1 <<< i) else signature) 0

/-- Drawn hash functions: the first `f / 4` hexadecimal digits of the digest of a token are those of the number whose bits are drawn, the other
ones are zeros (simhash.py l. 49-51 reads only the first ones). -/
def drawnDigest {f : Nat} (o : Fin f → τ → Bool) (n : Nat) (token : τ) : List Nat :=
  (List.range (n / 4)).map fun j =>
    if j < f / 4 then ofBits f (fun i => if h : i < f then o ⟨i, h⟩ token else false) / 16 ^ (f / 4 - 1 - j) % 16 else 0

/-- The share of the drawings of one bit of each token for which the two sequences have the same majority: more ones than zeros in both,
or in none. -/
noncomputable def sameMajority (A B : List τ) : ℝ :=
  share fun v : τ → Bool => (A.length < 2 * A.countP v ↔ B.length < 2 * B.countP v)

/-- The share of the drawings of one bit of each token for which there are as many ones as zeros. -/
noncomputable def tied (A : List τ) : ℝ := share fun v : τ → Bool => 2 * A.countP v = A.length

theorem ofBits_lt (f : Nat) (p : Nat → Bool) : ofBits f p < 2 ^ f := by
  apply Nat.lt_pow_two_of_testBit
  intro i hi
  rw [ofBits, foldl_or_testBit]
  simp [Nat.not_lt.mpr hi]

omit [Fintype τ] [DecidableEq τ] in
theorem drawnDigest_lawful {f : Nat} (o : Fin f → τ → Bool) : LawfulDigest (drawnDigest o) := by
  intro n token hn
  refine ⟨by simp only [drawnDigest, List.length_map, List.length_range]; omega, fun d hd => ?_⟩
  simp only [drawnDigest, List.mem_map, List.mem_range] at hd
  obtain ⟨j, _, rfl⟩ := hd
  split
  · exact Nat.mod_lt _ (by omega)
  · omega

/-- Reading the digits of a number. -/
theorem foldl_digits (N : Nat) : ∀ l m, ((List.range l).map fun j => N / 16 ^ (l + m - 1 - j) % 16).foldl (fun n d => 16 * n + d) 0 =
    N / 16 ^ m % 16 ^ l := by
  intro l
  induction l with
  | zero => intro m; simp [Nat.mod_one]
  | succ l ih =>
      intro m
      rw [List.range_succ, List.map_append, List.foldl_append]
      have e : (List.range l).map (fun j => N / 16 ^ (l + 1 + m - 1 - j) % 16) =
          (List.range l).map (fun j => N / 16 ^ (l + (m + 1) - 1 - j) % 16) := by
        apply List.map_congr_left
        intro j hj
        rw [show l + 1 + m - 1 - j = l + (m + 1) - 1 - j by omega]
      rw [e, ih (m + 1)]
      simp only [List.map_cons, List.map_nil, List.foldl_cons, List.foldl_nil]
      rw [show l + 1 + m - 1 - l = m by omega, Nat.pow_succ, ← Nat.div_div_eq_div_mul, Nat.pow_succ, Nat.mul_comm (16 ^ l) 16,
        Nat.mod_mul, Nat.add_comm]

omit [Fintype τ] [DecidableEq τ] in
theorem firstBits_drawn {k : Nat} (hk : 2 ≤ k) (hk9 : k ≤ 9) (o : Fin (2 ^ k) → τ → Bool) (token : τ) (i : Fin (2 ^ k)) :
    (firstBits (drawnDigest o) (2 ^ k) token).testBit i = o i token := by
  have hl : 2 ^ k / 4 ≤ digestSize (2 ^ k) / 4 ∧ 4 * (2 ^ k / 4) = 2 ^ k := by
    interval_cases k <;> decide
  rw [firstBits_eq]
  have e : (drawnDigest o (digestSize (2 ^ k)) token).take (2 ^ k / 4) = (List.range (2 ^ k / 4)).map fun j =>
      ofBits (2 ^ k) (fun i => if h : i < 2 ^ k then o ⟨i, h⟩ token else false) / 16 ^ (2 ^ k / 4 + 0 - 1 - j) % 16 := by
    rw [drawnDigest, ← List.map_take, List.take_range, Nat.min_eq_left hl.1]
    apply List.map_congr_left
    intro j hj
    rw [if_pos (List.mem_range.mp hj), Nat.add_zero]
  rw [e, foldl_digits, Nat.pow_zero, Nat.div_one, Nat.mod_eq_of_lt, ofBits, foldl_or_testBit]
  · simp
  · refine Nat.lt_of_lt_of_eq (ofBits_lt _ _) ?_
    rw [show (16 : Nat) = 2 ^ 4 from rfl, ← Nat.pow_mul, hl.2]

omit [Fintype τ] [DecidableEq τ] in
/-- The similarity counts the bits with the same majority. -/
theorem simhash_similarity_drawn {k : Nat} (hk : 2 ≤ k) (hk9 : k ≤ 9) (A B : List τ) (o : Fin (2 ^ k) → τ → Bool) :
    ∃ a b : Nat, ∃ q : ℚ, simhash (drawnDigest o) A (2 ^ k) = .ok a ∧ simhash (drawnDigest o) B (2 ^ k) = .ok b ∧
      simhashSimilarity a b (2 ^ k) = .ok q ∧
      (q : ℝ) = (∑ i, if (A.length < 2 * A.countP (o i) ↔ B.length < 2 * B.countP (o i)) then (1 : ℝ) else 0) / ((2 ^ k : ℕ) : ℝ) := by
  obtain ⟨a, ha, ha', hab⟩ := simhash_majority_partial (drawnDigest_lawful o) A hk hk9
  obtain ⟨b, hb, hb', hbb⟩ := simhash_majority_partial (drawnDigest_lawful o) B hk hk9
  have hf : (2 : Nat) ^ k ≠ 0 := by positivity
  refine ⟨a, b, _, ha, hb, by rw [simhashSimilarity, if_neg hf], ?_⟩
  rw [popcount_eq (Nat.xor_lt_two_pow ha' hb'), bitCount, countP_range]
  have hpos : (0 : ℝ) < ((2 ^ k : ℕ) : ℝ) := by positivity
  have hcount : ∀ (L : List τ) (i : Fin (2 ^ k)), (L.countP fun t => (firstBits (drawnDigest o) (2 ^ k) t).testBit i) = L.countP (o i) := by
    intro L i
    congr 1
    funext t
    exact firstBits_drawn hk hk9 o t i
  have hsum : ((∑ i ∈ Finset.range (2 ^ k), if (a ^^^ b).testBit i = true then 1 else 0 : ℕ) : ℝ) =
      ((2 ^ k : ℕ) : ℝ) - ∑ i, if (A.length < 2 * A.countP (o i) ↔ B.length < 2 * B.countP (o i)) then (1 : ℝ) else 0 := by
    rw [← Fin.sum_univ_eq_sum_range (fun i => if (a ^^^ b).testBit i = true then 1 else 0), eq_sub_iff_add_eq]
    push_cast
    rw [← Finset.sum_add_distrib, Finset.sum_congr rfl (g := fun _ => (1 : ℝ))]
    · simp
    · intro i _
      have h1 := hab i
      have h2 := hbb i
      rw [hcount] at h1 h2
      rw [Nat.testBit_xor]
      simp only [← h1, ← h2]
      cases a.testBit i <;> cases b.testBit i <;> simp
  have hcast : ((1 - ((∑ i ∈ Finset.range (2 ^ k), if (a ^^^ b).testBit i = true then 1 else 0 : ℕ) : ℚ) / ((2 ^ k : ℕ) : ℚ) : ℚ) : ℝ) =
      1 - ((∑ i ∈ Finset.range (2 ^ k), if (a ^^^ b).testBit i = true then 1 else 0 : ℕ) : ℝ) / ((2 ^ k : ℕ) : ℝ) := by
    rw [Rat.cast_sub, Rat.cast_div, Rat.cast_natCast, Rat.cast_natCast, Rat.cast_one]
  rw [hcast, hsum]
  field_simp
  ring

/-! ### C120 -/

/-- **C120** partial: over the drawings of the hash functions, `simhash_similarity` is in the mean the chance that one bit of each token gives
the same majority in the two sequences; its variance is that of `f` independent bits, so that it is seldom far from it. Missing: this is
not one half for all sequences with no token in common (see below). -/
theorem simhash_estimates_partial {k : Nat} (hk : 2 ≤ k) (hk9 : k ≤ 9) (A B : List τ) (t : ℝ) (ht : t = sameMajority A B) :
    ∃ X : (Fin (2 ^ k) → τ → Bool) → ℚ,
      (∀ o, ∃ a b : Nat, simhash (drawnDigest o) A (2 ^ k) = .ok a ∧ simhash (drawnDigest o) B (2 ^ k) = .ok b ∧
        simhashSimilarity a b (2 ^ k) = .ok (X o)) ∧
      average (fun o => (X o : ℝ)) = t ∧
      average (fun o => ((X o : ℝ) - t) ^ 2) = t * (1 - t) / (2 ^ k : ℕ) ∧
      ∀ ε > 0, share (fun o => ε ≤ |(X o : ℝ) - t|) ≤ t * (1 - t) / (2 ^ k : ℕ) / ε ^ 2 := by
  have hX := fun o => simhash_similarity_drawn hk hk9 A B o
  choose a b X h1 h2 h3 h4 using hX
  have hf : 0 < 2 ^ k := by positivity
  have hv : average (fun o => ((X o : ℝ) - t) ^ 2) = t * (1 - t) / (2 ^ k : ℕ) := by
    rw [ht, sameMajority, ← variance_places (σ := τ → Bool) hf]
    congr 1
    funext o
    rw [h4]
  refine ⟨X, fun o => ⟨a o, b o, h1 o, h2 o, h3 o⟩, ?_, hv, ?_⟩
  · rw [ht, sameMajority, ← average_places (σ := τ → Bool) hf]
    congr 1
    funext o
    rw [h4]
  · intro ε hε
    rw [← hv]
    exact chebyshev _ _ hε

/-- Events about the bits of different tokens are independent. -/
theorem share_independent (p : τ → Prop) [DecidablePred p] (E F : (τ → Bool) → Prop)
    (hE : ∀ v w : τ → Bool, (∀ x, p x → v x = w x) → (E v ↔ E w)) (hF : ∀ v w : τ → Bool, (∀ x, ¬ p x → v x = w x) → (F v ↔ F w)) :
    share (fun v => E v ∧ F v) = share E * share F := by
  have e := Equiv.piEquivPiSubtypeProd p (fun _ : τ => Bool)
  let E' : ({ x // p x } → Bool) → Prop := fun u => E ((Equiv.piEquivPiSubtypeProd p (fun _ : τ => Bool)).symm (u, fun _ => false))
  let F' : ({ x // ¬ p x } → Bool) → Prop := fun u => F ((Equiv.piEquivPiSubtypeProd p (fun _ : τ => Bool)).symm (fun _ => false, u))
  have hE' : ∀ o : ({ x // p x } → Bool) × ({ x // ¬ p x } → Bool), E ((Equiv.piEquivPiSubtypeProd p (fun _ : τ => Bool)).symm o) ↔ E' o.1 := by
    intro o
    apply hE
    intro x hx
    simp [Equiv.piEquivPiSubtypeProd, hx]
  have hF' : ∀ o : ({ x // p x } → Bool) × ({ x // ¬ p x } → Bool), F ((Equiv.piEquivPiSubtypeProd p (fun _ : τ => Bool)).symm o) ↔ F' o.2 := by
    intro o
    apply hF
    intro x hx
    simp [Equiv.piEquivPiSubtypeProd, hx]
  have s1 : share E = share E' := by
    rw [← share_equiv (Equiv.piEquivPiSubtypeProd p (fun _ : τ => Bool)).symm E, share_congr hE']
    exact share_fst E'
  have s2 : share F = share F' := by
    rw [← share_equiv (Equiv.piEquivPiSubtypeProd p (fun _ : τ => Bool)).symm F, share_congr hF',
      ← share_equiv (Equiv.prodComm _ _) (fun o : ({ x // p x } → Bool) × ({ x // ¬ p x } → Bool) => F' o.2)]
    exact share_fst F'
  rw [← share_equiv (Equiv.piEquivPiSubtypeProd p (fun _ : τ => Bool)).symm (fun v => E v ∧ F v),
    share_congr (fun o => and_congr (hE' o) (hF' o)), share_prod, s1, s2]

/-- Two events which exclude each other. -/
theorem share_or {Ω : Type _} [Fintype Ω] (E F : Ω → Prop) (h : ∀ o, ¬ (E o ∧ F o)) : share (fun o => E o ∨ F o) = share E + share F := by
  classical
  rw [← average_indicator, ← average_indicator, ← average_indicator, ← average_add]
  congr 1
  funext o
  have := h o
  by_cases h1 : E o <;> by_cases h2 : F o <;> simp_all

/-- A bit and its opposite. -/
def flipBit : Bool ≃ Bool := ⟨not, not, Bool.not_not, Bool.not_not⟩

/-- A majority of ones is as likely as a majority of zeros. -/
theorem share_majority (A : List τ) : share (fun v : τ → Bool => A.length < 2 * A.countP v) = (1 - tied A) / 2 := by
  classical
  have hflip : share (fun v : τ → Bool => A.length < 2 * A.countP v) = share (fun v : τ → Bool => 2 * A.countP v < A.length) := by
    rw [← share_equiv (Equiv.arrowCongr (Equiv.refl τ) flipBit) (fun v : τ → Bool => A.length < 2 * A.countP v)]
    apply share_congr
    intro v
    have h := List.length_eq_countP_add_countP v (l := A)
    have e : A.countP ((Equiv.arrowCongr (Equiv.refl τ) flipBit) v) = A.countP fun a => decide ¬ v a = true := by
      congr 1
      funext a
      simp [flipBit]
    rw [e]
    omega
  have h1 := share_or (fun v : τ → Bool => A.length < 2 * A.countP v) (fun v : τ → Bool => 2 * A.countP v < A.length) (by intro v; omega)
  have h2 := share_not (fun v : τ → Bool => 2 * A.countP v = A.length)
  rw [share_congr (F := fun v : τ → Bool => A.length < 2 * A.countP v ∨ 2 * A.countP v < A.length) (by intro v; omega), h1, ← hflip] at h2
  unfold tied
  linarith

/-- C120: for two sequences with no token in common, the chance of the same majority is one half, plus half of the chance of a tie in both. -/
theorem simhash_disjoint (A B : List τ) (h : ∀ x ∈ A, x ∉ B) : sameMajority A B = 1 / 2 + tied A * tied B / 2 := by
  have hdep : ∀ (L : List τ) (v w : τ → Bool), (∀ x ∈ L, v x = w x) → L.countP v = L.countP w := by
    intro L v w hvw
    exact List.countP_congr fun x hx => by rw [hvw x hx]
  unfold sameMajority
  rw [share_congr (F := fun v : τ → Bool => (A.length < 2 * A.countP v ∧ B.length < 2 * B.countP v) ∨
    (¬ A.length < 2 * A.countP v ∧ ¬ B.length < 2 * B.countP v)) (by intro v; exact iff_iff_and_or_not_and_not), share_or _ _ (by intro v; omega),
    share_independent (fun x => x ∈ A) (fun v => A.length < 2 * A.countP v) (fun v => B.length < 2 * B.countP v),
    share_independent (fun x => x ∈ A) (fun v => ¬ A.length < 2 * A.countP v) (fun v => ¬ B.length < 2 * B.countP v),
    share_not, share_not, share_majority, share_majority]
  · ring
  · intro v w hvw; rw [hdep A v w hvw]
  · intro v w hvw; rw [hdep B v w fun x hx => hvw x fun hA => h x hA hx]
  · intro v w hvw; rw [hdep A v w hvw]
  · intro v w hvw; rw [hdep B v w fun x hx => hvw x fun hA => h x hA hx]

/-- C120: so the mean is one half when a sequence has an odd number of tokens. -/
theorem simhash_disjoint_odd (A B : List τ) (h : ∀ x ∈ A, x ∉ B) (hodd : A.length % 2 = 1 ∨ B.length % 2 = 1) :
    sameMajority A B = 1 / 2 := by
  have hzero : ∀ L : List τ, L.length % 2 = 1 → tied L = 0 := by
    intro L hL
    unfold tied
    rw [share_of_card (s := ∅) (by intro v; simp; omega)]
    simp
  rw [simhash_disjoint A B h]
  rcases hodd with hodd | hodd <;> simp [hzero _ hodd]

/-- Two bits are tied half of the time. -/
theorem tied_two (a b : Fin 4) (hab : a ≠ b) : tied [a, b] = 1 / 2 := by
  have hc : (Finset.univ.filter fun v : Fin 4 → Bool => 2 * [a, b].countP v = [a, b].length).card = 8 := by
    revert a b; decide +kernel
  unfold tied
  rw [share_of_card (s := Finset.univ.filter fun v : Fin 4 → Bool => 2 * [a, b].countP v = [a, b].length) (by intro v; simp), hc]
  simp
  norm_num

/-- C120 is false: two sequences of two tokens with none in common have a mean similarity of 5/8. -/
theorem simhash_even_biased {k : Nat} (hk : 2 ≤ k) (hk9 : k ≤ 9) :
    ∃ X : (Fin (2 ^ k) → Fin 4 → Bool) → ℚ,
      (∀ o, ∃ a b : Nat, simhash (drawnDigest o) [0, 1] (2 ^ k) = .ok a ∧ simhash (drawnDigest o) [2, 3] (2 ^ k) = .ok b ∧
        simhashSimilarity a b (2 ^ k) = .ok (X o)) ∧
      average (fun o => (X o : ℝ)) = 5 / 8 := by
  obtain ⟨X, h1, h2, _⟩ := simhash_estimates_partial hk hk9 [(0 : Fin 4), 1] [2, 3] (5 / 8) (by
    rw [simhash_disjoint _ _ (by decide), tied_two 0 1 (by decide), tied_two 2 3 (by decide)]
    norm_num)
  exact ⟨X, h1, h2⟩

/-- One bit is as likely to be one as zero. -/
theorem share_bit (a : τ) (b : Bool) : share (fun v : τ → Bool => v a = b) = 1 / 2 := by
  rw [share_place a (fun x : Bool => x = b), share_of_card (s := {b}) (by intro o; simp)]
  simp

/-- The number of ones among the bits of different tokens is binomial. -/
theorem share_ones : ∀ (A : List τ), A.Nodup → ∀ k, share (fun v : τ → Bool => A.countP v = k) = (A.length.choose k : ℝ) / 2 ^ A.length := by
  intro A
  induction A with
  | nil =>
    intro _ k
    cases k with
    | zero =>
      have := share_not (Ω := τ → Bool) (fun _ => False)
      rw [share_of_card (E := fun _ : τ → Bool => False) (s := ∅) (by simp)] at this
      rw [share_congr (F := fun _ : τ → Bool => ¬ False) (by simp), this]
      simp
    | succ k =>
      rw [share_of_card (s := ∅) (by simp)]
      simp
  | cons a A ih =>
    intro hA k
    obtain ⟨ha, hA⟩ := List.nodup_cons.mp hA
    have hind : ∀ b m, share (fun v : τ → Bool => v a = b ∧ A.countP v = m) = 1 / 2 * ((A.length.choose m : ℝ) / 2 ^ A.length) := by
      intro b m
      rw [share_independent (fun x => x = a) (fun v => v a = b) (fun v => A.countP v = m) (by intro v w h; rw [h a rfl]) (by
        intro v w h
        rw [List.countP_congr (p := v) (q := w) (fun x hx => by rw [h x (by rintro rfl; exact ha hx)])]), share_bit, ih hA]
    cases k with
    | zero =>
      rw [share_congr (F := fun v : τ → Bool => v a = false ∧ A.countP v = 0) (by
        intro v; rw [List.countP_cons]; cases v a <;> simp), hind]
      rw [List.length_cons, Nat.choose_zero_right, Nat.choose_zero_right, pow_succ]
      field_simp
    | succ k =>
      rw [share_congr (F := fun v : τ → Bool => (v a = true ∧ A.countP v = k) ∨ (v a = false ∧ A.countP v = k + 1)) (by
        intro v; rw [List.countP_cons]; cases v a <;> simp), share_or _ _ (by
        rintro v ⟨⟨h1, -⟩, h2, -⟩; rw [h1] at h2; cases h2), hind, hind]
      rw [List.length_cons, Nat.choose_succ_succ, pow_succ]
      push_cast
      field_simp

/-- C120: the chance of a tie between `2 m` different tokens. -/
theorem simhash_tied (A : List τ) (hA : A.Nodup) (m : ℕ) (hm : A.length = 2 * m) : tied A = ((2 * m).choose m : ℝ) / 4 ^ m := by
  unfold tied
  rw [share_congr (F := fun v : τ → Bool => A.countP v = m) (by intro v; rw [hm]; omega), share_ones A hA, hm, pow_mul]
  norm_num

/-- C120: the mean of the similarity of two sequences of different tokens, an even number of them in both, with none in common. -/
theorem simhash_even_mean {k : Nat} (hk : 2 ≤ k) (hk9 : k ≤ 9) (A B : List τ) (hA : A.Nodup) (hB : B.Nodup) (h : ∀ x ∈ A, x ∉ B) (m n : ℕ)
    (hm : A.length = 2 * m) (hn : B.length = 2 * n) :
    ∃ X : (Fin (2 ^ k) → τ → Bool) → ℚ,
      (∀ o, ∃ a b : Nat, simhash (drawnDigest o) A (2 ^ k) = .ok a ∧ simhash (drawnDigest o) B (2 ^ k) = .ok b ∧
        simhashSimilarity a b (2 ^ k) = .ok (X o)) ∧
      average (fun o => (X o : ℝ)) = 1 / 2 + ((2 * m).choose m : ℝ) / 4 ^ m * (((2 * n).choose n : ℝ) / 4 ^ n) / 2 := by
  obtain ⟨X, h1, h2, _⟩ := simhash_estimates_partial hk hk9 A B _ rfl
  refine ⟨X, h1, h2.trans ?_⟩
  rw [simhash_disjoint A B h, simhash_tied A hA m hm, simhash_tied B hB n hn]

-- Four tokens and two others.
example : ([0, 1, 2, 3] : List (Fin 6)).Nodup ∧ ([4, 5] : List (Fin 6)).Nodup ∧ (∀ x ∈ ([0, 1, 2, 3] : List (Fin 6)), x ∉ ([4, 5] : List (Fin 6))) ∧
    ([0, 1, 2, 3] : List (Fin 6)).length = 2 * 2 ∧ ([4, 5] : List (Fin 6)).length = 2 * 1 := by decide

-- Three tokens and two others: one half in the mean.
example : ∃ X : (Fin (2 ^ 7) → Fin 5 → Bool) → ℚ,
    (∀ o, ∃ a b : Nat, simhash (drawnDigest o) [0, 1, 0] (2 ^ 7) = .ok a ∧ simhash (drawnDigest o) [2, 3] (2 ^ 7) = .ok b ∧
      simhashSimilarity a b (2 ^ 7) = .ok (X o)) ∧ average (fun o => (X o : ℝ)) = 1 / 2 := by
  obtain ⟨X, h1, h2, _⟩ := simhash_estimates_partial (k := 7) (by decide) (by decide) [(0 : Fin 5), 1, 0] [2, 3] (1 / 2)
    (simhash_disjoint_odd _ _ (by decide) (by decide)).symm
  exact ⟨X, h1, h2⟩

end Fog.Props
