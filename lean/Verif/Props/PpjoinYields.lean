import Verif.Props.Ppjoin
import Verif.Lemmas.PpjoinYields
import Mathlib.Tactic.NormNum

/-!
# C134: when ppjoin, ppjoin+ and all_pairs raise, and what they have yielded by then
-/

namespace Fog.Props

open Ppjoin Spec

variable {τ : Type} [LinearOrder τ]

theorem ppjoin_prepared_yields {K : Type} [Field K] [LinearOrder K] [FloorRing K] (h : Helper K) (config : Config)
    {tokenizer : Bool} (records : List (List τ)) {ordering : Ppjoin.Ordering τ} (hcrc : NoCollision records ordering)
    (hc : Counted tokenizer ordering) :
    ∃ (σ : Type) (_ : LinearOrder σ) (tok : List (List σ)), Faithful records tok ∧
      ppjoinRecords h config tokenizer records ordering = ppjoin h config tok ∧
      ppjoinRecordsYields h config tokenizer records ordering = ppjoinYields h config tok := by
  cases ordering with
  | none => exact ⟨τ, inferInstance, _, faithful_none records, rfl, rfl⟩
  | crc32 hash => exact ⟨Nat, inferInstance, _, faithful_crc hash records hcrc, rfl, rfl⟩
  | freq =>
      obtain ⟨tok, htok, hf⟩ := faithful_freq records
      simp only [Counted] at hc
      subst hc
      exact ⟨Nat, inferInstance, tok, hf, by simp only [ppjoinRecords, htok], by simp only [ppjoinRecordsYields, htok]⟩

theorem ppjoin_yields_of_ok {K : Type} [Field K] [LinearOrder K] [FloorRing K] {h : Helper K} {config : Config}
    {tokenizer : Bool} {records : List (List τ)} {ordering : Ppjoin.Ordering τ} {out : List (Nat × Nat)}
    (hout : ppjoinRecords h config tokenizer records ordering = .ok out) :
    ppjoinRecordsYields h config tokenizer records ordering = (out, none) := by
  cases ordering with
  | none => exact joinYields_of_ok hout
  | crc32 hash => exact joinYields_of_ok hout
  | freq =>
      cases hp : preprocessFreq tokenizer records with
      | error e => simp [ppjoinRecords, hp] at hout
      | ok tok =>
          simp only [ppjoinRecords, hp] at hout
          simp only [ppjoinRecordsYields, hp]
          exact joinYields_of_ok hout

/-- The shortest record is visited first: the prefix is longer than it if it is longer than some record. -/
theorem ppjoin_yields_raises {K : Type} [Field K] [LinearOrder K] [IsStrictOrderedRing K] [FloorRing K] {h : Helper K}
    (hmono : ∀ l l' : Nat, l ≤ l' → (l' : Int) < h.probeLength l' → (l : Int) < h.probeLength l) (config : Config)
    {tokenizer : Bool} {records : List (List τ)} {ordering : Ppjoin.Ordering τ} (hcrc : NoCollision records ordering)
    (hc : Counted tokenizer ordering)
    (hr : ∃ i < records.length, ((tokenSet records i).card : Int) < h.probeLength (tokenSet records i).card) :
    ppjoinRecordsYields h config tokenizer records ordering = ([], some .indexError) := by
  obtain ⟨σ, _, tok, hf, -, hy⟩ := ppjoin_prepared_yields h config records hcrc hc
  obtain ⟨i, hi, hp⟩ := hr
  rw [hy, ppjoinYields]
  have hmem : i ∈ argsort tok := by
    rw [(argsort_perm tok).mem_iff, hf.length, List.mem_range]; exact hi
  cases ha : argsort tok with
  | nil => rw [ha] at hmem; simp at hmem
  | cons k ks =>
      apply joinYields_raises hf.increasing
      have hle : (recordAt tok k).length ≤ (recordAt tok i).length := by
        rw [ha] at hmem
        have hs := argsort_sorted tok
        rw [ha] at hs
        rcases List.mem_cons.mp hmem with rfl | hmem
        · exact le_rfl
        · exact (List.pairwise_cons.mp hs).1 i hmem
      exact hmono _ _ hle (by rw [hf.card]; exact hp)

theorem ppjoin_yields_unindexed {K : Type} [Field K] [LinearOrder K] [IsStrictOrderedRing K] [FloorRing K] {h : Helper K}
    (hn : ∀ l, ¬ h.threshold < (h.indexLength l : K)) (config : Config)
    {tokenizer : Bool} {records : List (List τ)} {ordering : Ppjoin.Ordering τ} (hcrc : NoCollision records ordering)
    (hc : Counted tokenizer ordering)
    (hp : ∀ i < records.length, h.probeLength (tokenSet records i).card ≤ ((tokenSet records i).card : Int)) :
    ppjoinRecordsYields h config tokenizer records ordering = ([], none) := by
  obtain ⟨σ, _, tok, hf, -, hy⟩ := ppjoin_prepared_yields h config records hcrc hc
  rw [hy, ppjoinYields]
  refine joinYields_unindexed hn (fun k hk => ?_) (by intro w; simp [Dict.get?])
  rw [(argsort_perm tok).mem_iff, hf.length, List.mem_range] at hk
  rw [hf.card]
  exact hp k hk

/-- The size of a shortest record. -/
theorem exists_shortest {records : List (List τ)} (hne : records ≠ []) :
    ∃ m < records.length, ∀ i < records.length, (tokenSet records m).card ≤ (tokenSet records i).card := by
  have hpos : 0 < records.length := List.length_pos_of_ne_nil hne
  obtain ⟨m, hm, hle⟩ := Finset.exists_min_image (Finset.range records.length) (fun i => (tokenSet records i).card)
    ⟨0, Finset.mem_range.mpr hpos⟩
  exact ⟨m, Finset.mem_range.mp hm, fun i hi => hle i (Finset.mem_range.mpr hi)⟩

/-- What the theorems below share: `u` is the part of a record which is left out of its prefix. -/
theorem ppjoin_yields_any {K : Type} [Field K] [LinearOrder K] [IsStrictOrderedRing K] [FloorRing K] {h : Helper K} {u : K}
    (hprobe : ∀ l, h.probeLength l = pyInt ((1 - u) * (l : K) + 1 + epsilon))
    {Similar : Nat → Nat → Nat → Prop} (hsymm : ∀ a b o, Similar a b o → Similar b a o)
    (hlaw : h.threshold < 1 → ∀ L N : Nat, 1 ≤ L → epsilon < u * L → LawfulBetween L N h Similar)
    (hn : 1 ≤ h.threshold → ∀ l, ¬ h.threshold < (h.indexLength l : K)) (config : Config)
    {tokenizer : Bool} {records : List (List τ)} {ordering : Ppjoin.Ordering τ} (hcrc : NoCollision records ordering)
    (hc : Counted tokenizer ordering) :
    ((∃ i < records.length, u * ((tokenSet records i).card : K) ≤ epsilon) →
      ppjoinRecordsYields h config tokenizer records ordering = ([], some .indexError)) ∧
    ((∀ i < records.length, epsilon < u * ((tokenSet records i).card : K)) →
      ∃ out, ppjoinRecordsYields h config tokenizer records ordering = (out, none) ∧
        (1 ≤ h.threshold → out = []) ∧
        (h.threshold < 1 → config.all_pairs = true → ∀ i j, i < records.length → j < records.length → i ≠ j →
          Similar (tokenSet records i).card (tokenSet records j).card (tokenSet records i ∩ tokenSet records j).card →
          (i, j) ∈ out ∨ (j, i) ∈ out)) := by
  have hiff : ∀ l : Nat, (l : Int) < h.probeLength l ↔ u * (l : K) ≤ epsilon := fun l => by rw [hprobe]; exact lt_pyInt_iff l
  constructor
  · rintro ⟨i, hi, hle⟩
    refine ppjoin_yields_raises (fun l l' hl h' => ?_) config hcrc hc ⟨i, hi, (hiff _).mpr hle⟩
    rw [hiff] at h' ⊢
    have : (l : K) ≤ (l' : K) := by exact_mod_cast hl
    rcases le_or_gt 0 u with hu | hu
    · exact (mul_le_mul_of_nonneg_left this hu).trans h'
    · exact (mul_nonpos_of_nonpos_of_nonneg hu.le (Nat.cast_nonneg l)).trans epsilon_pos.le
  · intro hall
    by_cases hne : records = []
    · subst hne
      obtain ⟨σ, _, tok, hf, -, hy⟩ := ppjoin_prepared_yields h config [] hcrc hc
      have htok : tok = [] := List.length_eq_zero_iff.mp hf.length
      subst htok
      exact ⟨[], by rw [hy]; simp [ppjoinYields, argsort, joinYields], fun _ => rfl, by simp⟩
    rcases lt_or_ge h.threshold 1 with h1 | h1
    · have key : ∃ L N : Nat, LawfulBetween L N h Similar ∧ ∀ i < records.length, L ≤ (tokenSet records i).card ∧ (tokenSet records i).card ≤ N := by
        obtain ⟨m, hm, hmin⟩ := exists_shortest hne
        have hpos : 1 ≤ (tokenSet records m).card := by
          rcases Nat.eq_zero_or_pos (tokenSet records m).card with h0 | h0
          · have := hall m hm
            rw [h0, Nat.cast_zero, mul_zero] at this
            exact absurd this (not_lt.mpr epsilon_pos.le)
          · exact h0
        exact ⟨_, _, hlaw h1 _ ((List.range records.length).map fun i => (tokenSet records i).card).sum hpos (hall m hm),
          fun i hi => ⟨hmin i hi, List.le_sum_of_mem (List.mem_map.mpr ⟨i, List.mem_range.mpr hi, rfl⟩)⟩⟩
      obtain ⟨L, N, hlaw', hb⟩ := key
      obtain ⟨out, hout, hcomp⟩ := ppjoin_complete_between hlaw' hsymm (config := config) hcrc hc
        (fun i hi => (hb i hi).1) (fun i hi => (hb i hi).2)
      refine ⟨out, ppjoin_yields_of_ok hout, fun h2 => absurd h1 (not_lt.mpr h2), fun _ ha i j hi hj hij hs => ?_⟩
      exact hcomp i j hi hj hij hs (fun h => by rw [ha] at h; simp at h)
    · refine ⟨[], ppjoin_yields_unindexed (hn h1) config hcrc hc (fun i hi => ?_), fun _ => rfl, fun h2 => absurd h2 (not_lt.mpr h1)⟩
      by_contra hlt
      rw [not_le, hiff] at hlt
      exact absurd (hall i hi) (not_lt.mpr hlt)

/-- **C134** for Jaccard and any threshold `t`: `ppjoin`, `ppjoin_plus` and `all_pairs` raise an `IndexError` exactly when
`t l ≤ 0.000001` for some record of `l` tokens, and have yielded nothing then. When they do not raise, they yield nothing if `t ≥ 1`, and otherwise
`all_pairs` yields every pair of similar records. -/
theorem ppjoin_jaccard_raises {t : ℚ} (config : Config)
    {tokenizer : Bool} {records : List (List τ)} {ordering : Ppjoin.Ordering τ} (hcrc : NoCollision records ordering)
    (hc : Counted tokenizer ordering) :
    ((∃ i < records.length, t * (tokenSet records i).card ≤ 1 / 1000000) →
      ppjoinRecordsYields (jaccardHelper t) config tokenizer records ordering = ([], some .indexError)) ∧
    ((∀ i < records.length, 1 / 1000000 < t * (tokenSet records i).card) →
      ∃ out, ppjoinRecordsYields (jaccardHelper t) config tokenizer records ordering = (out, none) ∧
        (1 ≤ t → out = []) ∧
        (t < 1 → config.all_pairs = true → ∀ i j, i < records.length → j < records.length → i ≠ j →
          t ≤ jaccard (tokenSet records i) (tokenSet records j) → (i, j) ∈ out ∨ (j, i) ∈ out)) := by
  obtain ⟨h1, h2⟩ := ppjoin_yields_any (h := jaccardHelper t) (u := t) (fun l => rfl)
    (Similar := fun l1 l2 o => t ≤ (o : ℚ) / ((l1 : ℚ) + l2 - o)) (fun a b o h => by rw [add_comm]; exact h)
    (fun ht L N hL hε => jaccard_lawful_between (pos_of_mul_pos_left (epsilon_pos.trans hε) (Nat.cast_nonneg L)) ht hL hε N)
    (fun ht l => not_lt_pyInt ht (by
      have ht' : 1 ≤ t := ht
      have h3 : 1 ≤ 2 * t / (1 + t) := by rw [le_div_iff₀ (by linarith)]; linarith
      have h4 : (0 : ℚ) ≤ (l : ℚ) := Nat.cast_nonneg l
      nlinarith)) config hcrc hc
  refine ⟨h1, fun hall => ?_⟩
  obtain ⟨out, ho, ho1, ho2⟩ := h2 hall
  refine ⟨out, ho, ho1, fun ht ha i j hi hj hij hs => ho2 ht ha i j hi hj hij ?_⟩
  rw [jaccard, card_union_cast] at hs
  exact hs

/-- **C134** for Dice and any threshold `t` other than two: `t l / (2 - t) ≤ 0.000001` for some record of `l` tokens. -/
theorem ppjoin_dice_raises {t : ℚ} (h2 : t ≠ 2) (config : Config)
    {tokenizer : Bool} {records : List (List τ)} {ordering : Ppjoin.Ordering τ} (hcrc : NoCollision records ordering)
    (hc : Counted tokenizer ordering) :
    ((∃ i < records.length, t / (2 - t) * (tokenSet records i).card ≤ 1 / 1000000) →
      ppjoinRecordsYields (diceHelper t) config tokenizer records ordering = ([], some .indexError)) ∧
    ((∀ i < records.length, 1 / 1000000 < t / (2 - t) * (tokenSet records i).card) →
      ∃ out, ppjoinRecordsYields (diceHelper t) config tokenizer records ordering = (out, none) ∧
        (1 ≤ t → out = []) ∧
        (t < 1 → config.all_pairs = true → ∀ i j, i < records.length → j < records.length → i ≠ j →
          t ≤ dice (tokenSet records i) (tokenSet records j) → (i, j) ∈ out ∨ (j, i) ∈ out)) := by
  obtain ⟨g1, g2⟩ := ppjoin_yields_any (h := diceHelper t) (u := t / (2 - t)) (fun l => rfl)
    (Similar := fun l1 l2 o => t ≤ 2 * (o : ℚ) / ((l1 : ℚ) + l2)) (fun a b o h => by rw [add_comm]; exact h)
    (fun ht L N hL hε => dice_lawful_between (by
      have h3 := pos_of_mul_pos_left (epsilon_pos.trans hε) (Nat.cast_nonneg L)
      have ht' : t < 1 := ht
      exact (div_pos_iff_of_pos_right (by linarith)).mp h3) ht hL hε N)
    (fun ht l => not_lt_pyInt ht (by
      have ht' : 1 ≤ t := ht
      have h4 : (0 : ℚ) ≤ (l : ℚ) := Nat.cast_nonneg l
      nlinarith)) config hcrc hc
  refine ⟨g1, fun hall => ?_⟩
  obtain ⟨out, ho, ho1, ho2⟩ := g2 hall
  refine ⟨out, ho, ho1, fun ht ha i j hi hj hij hs => ho2 ht ha i j hi hj hij ?_⟩
  rw [dice] at hs
  push_cast at hs
  exact hs

/-- **C134** for the binary cosine and any threshold `t` which is not negative: `t² l ≤ 0.000001` for some record of `l` tokens. -/
theorem ppjoin_cosine_raises {t : ℝ} (h0 : 0 ≤ t) (config : Config)
    {tokenizer : Bool} {records : List (List τ)} {ordering : Ppjoin.Ordering τ} (hcrc : NoCollision records ordering)
    (hc : Counted tokenizer ordering) :
    ((∃ i < records.length, t * t * (tokenSet records i).card ≤ 1 / 1000000) →
      ppjoinRecordsYields (binaryCosineHelper t) config tokenizer records ordering = ([], some .indexError)) ∧
    ((∀ i < records.length, 1 / 1000000 < t * t * (tokenSet records i).card) →
      ∃ out, ppjoinRecordsYields (binaryCosineHelper t) config tokenizer records ordering = (out, none) ∧
        (1 ≤ t → out = []) ∧
        (t < 1 → config.all_pairs = true → ∀ i j, i < records.length → j < records.length → i ≠ j →
          t ≤ binaryCosine (tokenSet records i) (tokenSet records j) → (i, j) ∈ out ∨ (j, i) ∈ out)) := by
  obtain ⟨g1, g2⟩ := ppjoin_yields_any (h := binaryCosineHelper t) (u := t * t) (fun l => rfl)
    (Similar := fun l1 l2 o => t ≤ (o : ℝ) / Real.sqrt ((l1 : ℝ) * l2)) (fun a b o h => by rw [mul_comm]; exact h)
    (fun ht L N hL hε => binaryCosine_lawful_between (by
      have h3 := pos_of_mul_pos_left (epsilon_pos.trans hε) (Nat.cast_nonneg L)
      exact pos_of_mul_pos_left h3 h0) ht hL hε N)
    (fun ht l => not_lt_pyInt ht (by
      have ht' : 1 ≤ t := ht
      have h4 : (0 : ℝ) ≤ (l : ℝ) := Nat.cast_nonneg l
      nlinarith)) config hcrc hc
  refine ⟨g1, fun hall => ?_⟩
  obtain ⟨out, ho, ho1, ho2⟩ := g2 hall
  exact ⟨out, ho, ho1, fun ht ha i j hi hj hij hs => ho2 ht ha i j hi hj hij hs⟩

/-- Without a tokenizer, records which are all empty are prepared as with one. -/
theorem preprocessFreq_all_empty {records : List (List τ)} (hall : ∀ r ∈ records, r = []) :
    preprocessFreq false records = preprocessFreq true records := by
  have hcount : ∀ rs : List (List τ), (∀ r ∈ rs, r = []) → countTokens true rs = countTokens false rs := by
    intro rs
    unfold countTokens
    simp only [if_true, Bool.false_eq_true, if_false]
    induction rs with
    | nil => intro _; rfl
    | cons r rs ih =>
        intro hr
        rw [List.foldl_cons, hr r (by simp), List.foldl_nil]
        exact ih fun r' hr' => hr r' (by simp [hr'])
  unfold preprocessFreq
  rw [hcount records hall]

/-- Whatever the helper, what is yielded is what is returned when the pairs are put into a list, and the same exception is raised. -/
theorem ppjoin_yields_exact {K : Type} [Field K] [LinearOrder K] [FloorRing K] (h : Helper K) (config : Config)
    (tokenizer : Bool) (records : List (List τ)) (ordering : Ppjoin.Ordering τ) :
    ppjoinRecords h config tokenizer records ordering =
      match (ppjoinRecordsYields h config tokenizer records ordering).2 with
      | some e => .error e
      | none => .ok (ppjoinRecordsYields h config tokenizer records ordering).1 := by
  cases ho : ppjoinRecords h config tokenizer records ordering with
  | ok out => simp only [ppjoin_yields_of_ok ho]
  | error e =>
      have : (ppjoinRecordsYields h config tokenizer records ordering).2 = some e := by
        cases ordering with
        | none => exact joinYields_of_error ho
        | crc32 hash => exact joinYields_of_error ho
        | freq =>
            cases hp : preprocessFreq tokenizer records with
            | error e' =>
                simp only [ppjoinRecords, hp, Except.error.injEq] at ho
                simp only [ppjoinRecordsYields, hp, ho]
            | ok tok =>
                simp only [ppjoinRecords, hp] at ho
                simp only [ppjoinRecordsYields, hp]
                exact joinYields_of_error ho
      rw [this]

/-- Whatever the ordering, what is yielded comes from faithful records. -/
theorem ppjoin_preprocessed_yields {K : Type} [Field K] [LinearOrder K] [FloorRing K] (h : Helper K) (config : Config)
    (tokenizer : Bool) (records : List (List τ)) {ordering : Ppjoin.Ordering τ} (hcrc : NoCollision records ordering) :
    (ppjoinRecordsYields h config tokenizer records ordering).1 = [] ∨
    ∃ (σ : Type) (_ : LinearOrder σ) (tok : List (List σ)), Faithful records tok ∧
      ppjoinRecordsYields h config tokenizer records ordering = ppjoinYields h config tok := by
  have key : ∀ tk, Counted tk ordering → ∃ (σ : Type) (_ : LinearOrder σ) (tok : List (List σ)), Faithful records tok ∧
      ppjoinRecordsYields h config tk records ordering = ppjoinYields h config tok := by
    intro tk hc
    obtain ⟨σ, i, tok, hf, -, hy⟩ := ppjoin_prepared_yields h config records hcrc hc
    exact ⟨σ, i, tok, hf, hy⟩
  cases ordering with
  | none => exact Or.inr (key _ trivial)
  | crc32 hash => exact Or.inr (key _ trivial)
  | freq =>
      cases tokenizer with
      | true => exact Or.inr (key _ rfl)
      | false =>
          by_cases hne : ∃ r ∈ records, r ≠ []
          · left
            simp only [ppjoinRecordsYields, preprocessFreq_raises hne]
          · have hall : ∀ r ∈ records, r = [] := fun r hr => by
              by_contra hc
              exact hne ⟨r, hr, hc⟩
            right
            obtain ⟨σ, i, tok, hf, hy⟩ := key true rfl
            exact ⟨σ, i, tok, hf, by rw [← hy]; simp only [ppjoinRecordsYields, preprocessFreq_all_empty hall]⟩

/-- Pairs yielded for any helper, whether an exception follows or not. -/
theorem ppjoin_yields_sound_any {K : Type} [Field K] [LinearOrder K] [FloorRing K] {h : Helper K} {config : Config}
    {tokenizer : Bool} {records : List (List τ)} {ordering : Ppjoin.Ordering τ} (hcrc : NoCollision records ordering)
    {out : List (Nat × Nat)} {raised : Option PyErr}
    (hout : ppjoinRecordsYields h config tokenizer records ordering = (out, raised)) :
    out.Nodup ∧ ∀ p ∈ out, p.1 < records.length ∧ p.2 < records.length ∧ p.1 ≠ p.2 ∧ (p.2, p.1) ∉ out ∧
      h.threshold ≤ h.computeSimilarity (tokenSet records p.1).card (tokenSet records p.2).card
        (((tokenSet records p.1 ∩ tokenSet records p.2).card : Nat) : Int) := by
  rcases ppjoin_preprocessed_yields h config tokenizer records hcrc with he | ⟨σ, _, tok, hf, hj⟩
  · rw [hout] at he
    simp only at he
    subst he
    simp
  rw [hj] at hout
  have hnd : (argsort tok).Nodup := (argsort_perm tok).nodup_iff.mpr List.nodup_range
  obtain ⟨h1, h2⟩ := joinYields_sound (h := h) (config := config) (M := 0) hf.increasing (order := argsort tok) (prev := [])
    (index := []) (by simpa using hnd) (fun j => (Inv.empty h tok False 0).congr fun c cp => by simp [Indexed])
  rw [show joinYields h config tok (argsort tok) [] = (out, raised) from hout] at h1 h2
  refine ⟨h1, ?_⟩
  intro p hp
  obtain ⟨g1, g2, g3⟩ := h2 p hp
  rw [List.nil_append] at g1
  have hlt : ∀ i ∈ argsort tok, i < records.length := by
    intro i hi
    have := (argsort_perm tok).mem_iff.mp hi
    rw [hf.length] at this
    exact List.mem_range.mp this
  refine ⟨hlt _ (g1.subset (by simp)), hlt _ (g1.subset (by simp)), ?_, ?_, ?_⟩
  · have := hnd.sublist g1
    simp only [List.nodup_cons, List.mem_singleton] at this
    exact fun heq => this.1 heq.symm
  · intro hm
    have := (h2 _ hm).1
    rw [List.nil_append] at this
    exact pair_sublist_asymm hnd g1 this
  · rw [hf.card, hf.card, hf.inter] at g3
    exact g3

/-- **C31** for Jaccard, any threshold and whether an exception follows or not: every pair yielded is a pair of distinct records
whose similarity is at least the threshold, up to epsilon, and no pair is yielded twice, in whichever order. -/
theorem ppjoin_jaccard_yields_sound {t : ℚ} {config : Config} {tokenizer : Bool} {records : List (List τ)}
    {ordering : Ppjoin.Ordering τ} (hcrc : NoCollision records ordering) {out : List (Nat × Nat)} {raised : Option PyErr}
    (hout : ppjoinRecordsYields (jaccardHelper t) config tokenizer records ordering = (out, raised)) :
    out.Nodup ∧ ∀ p ∈ out, p.1 < records.length ∧ p.2 < records.length ∧ p.1 ≠ p.2 ∧ (p.2, p.1) ∉ out ∧
      t - 1 / 1000000 ≤ jaccard (tokenSet records p.1) (tokenSet records p.2) := by
  obtain ⟨h1, h2⟩ := ppjoin_yields_sound_any hcrc hout
  refine ⟨h1, fun p hp => ?_⟩
  obtain ⟨g1, g2, g3, g4, g5⟩ := h2 p hp
  refine ⟨g1, g2, g3, g4, ?_⟩
  simp only [jaccardHelper, epsilon, Int.cast_natCast] at g5
  rw [jaccard, card_union_cast]
  linarith

/-- **C31** for Dice, whether an exception follows or not. -/
theorem ppjoin_dice_yields_sound {t : ℚ} {config : Config} {tokenizer : Bool} {records : List (List τ)}
    {ordering : Ppjoin.Ordering τ} (hcrc : NoCollision records ordering) {out : List (Nat × Nat)} {raised : Option PyErr}
    (hout : ppjoinRecordsYields (diceHelper t) config tokenizer records ordering = (out, raised)) :
    out.Nodup ∧ ∀ p ∈ out, p.1 < records.length ∧ p.2 < records.length ∧ p.1 ≠ p.2 ∧ (p.2, p.1) ∉ out ∧
      t - 1 / 1000000 ≤ dice (tokenSet records p.1) (tokenSet records p.2) := by
  obtain ⟨h1, h2⟩ := ppjoin_yields_sound_any hcrc hout
  refine ⟨h1, fun p hp => ?_⟩
  obtain ⟨g1, g2, g3, g4, g5⟩ := h2 p hp
  refine ⟨g1, g2, g3, g4, ?_⟩
  simp only [diceHelper, epsilon, Int.cast_natCast] at g5
  rw [dice]
  push_cast
  linarith

/-- **C31** for the binary cosine, whether an exception follows or not. -/
theorem ppjoin_cosine_yields_sound {t : ℝ} {config : Config} {tokenizer : Bool} {records : List (List τ)}
    {ordering : Ppjoin.Ordering τ} (hcrc : NoCollision records ordering) {out : List (Nat × Nat)} {raised : Option PyErr}
    (hout : ppjoinRecordsYields (binaryCosineHelper t) config tokenizer records ordering = (out, raised)) :
    out.Nodup ∧ ∀ p ∈ out, p.1 < records.length ∧ p.2 < records.length ∧ p.1 ≠ p.2 ∧ (p.2, p.1) ∉ out ∧
      t - 1 / 1000000 ≤ binaryCosine (tokenSet records p.1) (tokenSet records p.2) := by
  obtain ⟨h1, h2⟩ := ppjoin_yields_sound_any hcrc hout
  refine ⟨h1, fun p hp => ?_⟩
  obtain ⟨g1, g2, g3, g4, g5⟩ := h2 p hp
  refine ⟨g1, g2, g3, g4, ?_⟩
  simp only [binaryCosineHelper, epsilon, Int.cast_natCast] at g5
  rw [binaryCosine]
  linarith

theorem ppjoin_raises_before_any {K : Type} [Field K] [LinearOrder K] [FloorRing K] {h : Helper K} {config : Config}
    {tokenizer : Bool} {records : List (List τ)} {ordering : Ppjoin.Ordering τ}
    (key : ∀ {tk : Bool}, Counted tk ordering → ppjoinRecordsYields h config tk records ordering = ([], some .indexError) ∨
      ∃ out, ppjoinRecordsYields h config tk records ordering = (out, none))
    {out : List (Nat × Nat)} {e : PyErr} (hout : ppjoinRecordsYields h config tokenizer records ordering = (out, some e)) :
    out = [] ∧ (e = .indexError ∨ e = .keyError ∧ tokenizer = false ∧ ∃ r ∈ records, r ≠ []) := by
  have key : ∀ {tk : Bool}, Counted tk ordering →
      ppjoinRecordsYields h config tk records ordering = (out, some e) → out = [] ∧ e = .indexError := by
    intro tk hc hout
    rcases key hc with h1 | ⟨out', h1⟩
    · have := hout.symm.trans h1
      simp only [Prod.mk.injEq, Option.some.injEq] at this
      exact this
    · have := hout.symm.trans h1
      simp at this
  cases ordering with
  | none => exact ⟨(key trivial hout).1, Or.inl (key trivial hout).2⟩
  | crc32 hash => exact ⟨(key trivial hout).1, Or.inl (key trivial hout).2⟩
  | freq =>
      cases tokenizer with
      | true => exact ⟨(key rfl hout).1, Or.inl (key rfl hout).2⟩
      | false =>
          by_cases hne : ∃ r ∈ records, r ≠ []
          · simp only [ppjoinRecordsYields, preprocessFreq_raises hne, Prod.mk.injEq, Option.some.injEq] at hout
            exact ⟨hout.1.symm, Or.inr ⟨hout.2.symm, rfl, hne⟩⟩
          · have hall : ∀ r ∈ records, r = [] := fun r hr => by
              by_contra hc
              exact hne ⟨r, hr, hc⟩
            have heq : ppjoinRecordsYields h config true records .freq = (out, some e) := by
              rw [← hout]
              simp only [ppjoinRecordsYields, preprocessFreq_all_empty hall]
            exact ⟨(key rfl heq).1, Or.inl (key rfl heq).2⟩

/-- Whatever is raised for Jaccard is raised before anything is yielded: an `IndexError`, or, with the default arguments, a `KeyError`. -/
theorem ppjoin_raises_before_yielding {t : ℚ} (config : Config)
    {tokenizer : Bool} {records : List (List τ)} {ordering : Ppjoin.Ordering τ} (hcrc : NoCollision records ordering)
    {out : List (Nat × Nat)} {e : PyErr}
    (hout : ppjoinRecordsYields (jaccardHelper t) config tokenizer records ordering = (out, some e)) :
    out = [] ∧ (e = .indexError ∨ e = .keyError ∧ tokenizer = false ∧ ∃ r ∈ records, r ≠ []) := by
  refine ppjoin_raises_before_any (fun hc => ?_) hout
  obtain ⟨h1, h2⟩ := ppjoin_jaccard_raises (t := t) config hcrc hc
  by_cases hr : ∃ i < records.length, t * (tokenSet records i).card ≤ 1 / 1000000
  · exact Or.inl (h1 hr)
  · obtain ⟨out', ho, -⟩ := h2 fun i hi => not_le.mp fun h => hr ⟨i, hi, h⟩
    exact Or.inr ⟨out', ho⟩

/-- The same for Dice. -/
theorem ppjoin_dice_raises_before_yielding {t : ℚ} (h2 : t ≠ 2) (config : Config)
    {tokenizer : Bool} {records : List (List τ)} {ordering : Ppjoin.Ordering τ} (hcrc : NoCollision records ordering)
    {out : List (Nat × Nat)} {e : PyErr}
    (hout : ppjoinRecordsYields (diceHelper t) config tokenizer records ordering = (out, some e)) :
    out = [] ∧ (e = .indexError ∨ e = .keyError ∧ tokenizer = false ∧ ∃ r ∈ records, r ≠ []) := by
  refine ppjoin_raises_before_any (fun hc => ?_) hout
  obtain ⟨h1, h2⟩ := ppjoin_dice_raises h2 config hcrc hc
  by_cases hr : ∃ i < records.length, t / (2 - t) * (tokenSet records i).card ≤ 1 / 1000000
  · exact Or.inl (h1 hr)
  · obtain ⟨out', ho, -⟩ := h2 fun i hi => not_le.mp fun h => hr ⟨i, hi, h⟩
    exact Or.inr ⟨out', ho⟩

/-- The same for the binary cosine. -/
theorem ppjoin_cosine_raises_before_yielding {t : ℝ} (h0 : 0 ≤ t) (config : Config)
    {tokenizer : Bool} {records : List (List τ)} {ordering : Ppjoin.Ordering τ} (hcrc : NoCollision records ordering)
    {out : List (Nat × Nat)} {e : PyErr}
    (hout : ppjoinRecordsYields (binaryCosineHelper t) config tokenizer records ordering = (out, some e)) :
    out = [] ∧ (e = .indexError ∨ e = .keyError ∧ tokenizer = false ∧ ∃ r ∈ records, r ≠ []) := by
  refine ppjoin_raises_before_any (fun hc => ?_) hout
  obtain ⟨h1, h2⟩ := ppjoin_cosine_raises h0 config hcrc hc
  by_cases hr : ∃ i < records.length, t * t * (tokenSet records i).card ≤ 1 / 1000000
  · exact Or.inl (h1 hr)
  · obtain ⟨out', ho, -⟩ := h2 fun i hi => not_le.mp fun h => hr ⟨i, hi, h⟩
    exact Or.inr ⟨out', ho⟩

-- With a cosine threshold of a thousandth, a record of one token makes `all_pairs` raise though two other records are equal.
example : ppjoinRecordsYields (binaryCosineHelper (1 / 1000)) ⟨true, false⟩ true [[1, 2, 3], [3, 2, 1], [4]] .freq = ([], some .indexError) :=
  (ppjoin_cosine_raises (by norm_num) ⟨true, false⟩ (records := [[1, 2, 3], [3, 2, 1], [4]]) (ordering := .freq) trivial rfl).1
    ⟨2, by simp, by
      have : (tokenSet [[1, 2, 3], [3, 2, 1], [4]] 2).card = 1 := by decide +kernel
      rw [this]; norm_num⟩

-- Without it the two records are found.
example : ∃ out, ppjoinRecordsYields (binaryCosineHelper (1 / 1000)) ⟨true, false⟩ true [[1, 2, 3], [3, 2, 1]] .freq = (out, none) ∧
    ((0, 1) ∈ out ∨ (1, 0) ∈ out) := by
  have h0 : (tokenSet [[1, 2, 3], [3, 2, 1]] 0).card = 3 := by decide +kernel
  have h1 : (tokenSet [[1, 2, 3], [3, 2, 1]] 1).card = 3 := by decide +kernel
  have h2 : (tokenSet [[1, 2, 3], [3, 2, 1]] 0 ∩ tokenSet [[1, 2, 3], [3, 2, 1]] 1).card = 3 := by decide +kernel
  obtain ⟨out, ho, -, hc⟩ := (ppjoin_cosine_raises (t := 1 / 1000) (by norm_num) ⟨true, false⟩ (records := [[1, 2, 3], [3, 2, 1]]) (ordering := .freq)
    trivial (tokenizer := true) rfl).2 (by
      intro i hi
      have : i = 0 ∨ i = 1 := by simp at hi; omega
      rcases this with rfl | rfl
      · rw [h0]; norm_num
      · rw [h1]; norm_num)
  refine ⟨out, ho, hc (by norm_num) rfl 0 1 (by simp) (by simp) (by simp) ?_⟩
  rw [binaryCosine, h0, h1, h2]
  have : Real.sqrt (((3 : Nat) : ℝ) * ((3 : Nat) : ℝ)) = 3 := by
    rw [Real.sqrt_mul_self (by norm_num)]; norm_num
  rw [this]; norm_num

-- A Jaccard threshold above one raises nothing and yields nothing; a Dice threshold of one millionth raises.
example : ppjoinRecordsYields (jaccardHelper (3 / 2 : ℚ)) ⟨false, true⟩ true [[1, 2, 3], [3, 2, 1]] .freq = ([], none) := by
  obtain ⟨out, ho, h1, -⟩ := (ppjoin_jaccard_raises (t := 3 / 2) ⟨false, true⟩ (records := [[1, 2, 3], [3, 2, 1]]) (ordering := .freq)
    trivial (tokenizer := true) rfl).2 (by decide +kernel)
  rw [ho, h1 (by norm_num)]

example : ppjoinRecordsYields (diceHelper (1 / 1000000 : ℚ)) ⟨false, false⟩ true [[1], [1]] .freq = ([], some .indexError) :=
  (ppjoin_dice_raises (by norm_num) ⟨false, false⟩ (records := [[1], [1]]) (ordering := .freq) trivial rfl).1
    ⟨0, by simp, by decide +kernel⟩

-- Nor does it yield anything for a negative threshold, though every pair of records is similar, or for a Dice threshold above two.
example : ppjoinRecordsYields (jaccardHelper (-1 : ℚ)) ⟨true, false⟩ true [[1, 2], [1, 2]] .freq = ([], some .indexError) :=
  (ppjoin_jaccard_raises ⟨true, false⟩ (records := [[1, 2], [1, 2]]) (ordering := .freq) trivial rfl).1 ⟨0, by simp, by decide +kernel⟩

example : ppjoinRecordsYields (diceHelper (3 : ℚ)) ⟨true, false⟩ true [[1, 2], [1, 2]] .freq = ([], some .indexError) :=
  (ppjoin_dice_raises (by norm_num) ⟨true, false⟩ (records := [[1, 2], [1, 2]]) (ordering := .freq) trivial rfl).1 ⟨0, by simp, by decide +kernel⟩

-- A pair is yielded, to which the soundness applies.
example : ∃ out raised, ppjoinRecordsYields (jaccardHelper (1 / 2 : ℚ)) ⟨true, false⟩ true [[1, 2, 3], [3, 2, 1], [4]] .freq = (out, raised) ∧ out ≠ [] ∧
    ∀ p ∈ out, 1 / 2 - 1 / 1000000 ≤ jaccard (tokenSet [[1, 2, 3], [3, 2, 1], [4]] p.1) (tokenSet [[1, 2, 3], [3, 2, 1], [4]] p.2) := by
  obtain ⟨out, ho, -, h1⟩ := (ppjoin_jaccard_raises (t := 1 / 2) ⟨true, false⟩ (records := [[1, 2, 3], [3, 2, 1], [4]]) (ordering := .freq)
    trivial (tokenizer := true) rfl).2 (by decide +kernel)
  refine ⟨out, none, ho, ?_, fun p hp => ((ppjoin_jaccard_yields_sound (ordering := .freq) trivial ho).2 p hp).2.2.2.2⟩
  rcases h1 (by norm_num) rfl 0 1 (by simp) (by simp) (by simp) (by decide +kernel) with h | h <;> exact List.ne_nil_of_mem h

end Fog.Props
