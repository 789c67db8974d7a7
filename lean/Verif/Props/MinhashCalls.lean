import Verif.Model.MinhashCalls
import Verif.Props.MinhashBands
import Verif.Props.BlockingCalls

/-!
# minhash clustering: how many similarities it computes (C155)
-/

namespace Fog.Props

open MinhashClustering Minhash Metrics KeyCollision ClusteringUtils Spec

variable {α τ : Type _} [DecidableEq α] [DecidableEq τ]

/-- The number of bands on which two signatures agree. -/
def agreements (bands rows : Nat) (x y : List Nat) : Nat :=
  (List.range bands).countP fun band => decide (∀ i < rows, x[band * rows + i]? = y[band * rows + i]?)

/-- C155. The calls which answer that two items are similar are the pairs from which the clusters are made, and the errors are the same. -/
theorem minhash_calls_same (ord : α → List α → List α) (setOrd : List Nat → List Nat) (hash : τ → Nat) (params : List (Nat × Nat))
    (same : α → α → Bool) (keyOf : α → List τ) (data : List α) (radius : ℚ) (bands : Option Nat) :
    minhash ord setOrd hash params same keyOf data radius bands =
      match minhashCalls setOrd hash params same keyOf data radius bands with
      | .error e => .error e
      | .ok calls => clustersFromPairs ord ((calls.filter Prod.snd).map Prod.fst) 2 none .connectedComponents false := by
  have key : ∀ b rows : Nat, clustersFromBuckets ord ((bucketsOf (data.flatMap fun item =>
      (bandKeys b rows (createSignature setOrd hash params (keyOf item))).map fun k => (k, item))).map Prod.snd) 2 none .connectedComponents
        (some fun A B => decide (radius ≤ jaccardSimilarity (same A B) (keyOf A) (keyOf B))) false =
      clustersFromPairs ord (((bandCalls setOrd hash params same keyOf data radius b rows).filter Prod.snd).map Prod.fst) 2 none
        .connectedComponents false := by
    intro b rows
    unfold clustersFromBuckets bandCalls
    dsimp only
    congr 1
    rw [List.filter_map, List.map_map]
    simp only [Function.comp_def, List.map_id']
  unfold minhash minhashCalls
  dsimp only
  simp only [key]
  cases bands with
  | none =>
      dsimp only
      by_cases h1 : guessBands params.length radius = 0
      · rw [if_pos h1, if_pos h1]
      · rw [if_neg h1, if_neg h1]
        by_cases h2 : data ≠ [] ∧ params.length / guessBands params.length radius = 0
        · rw [if_pos h2, if_pos h2]
        · rw [if_neg h2, if_neg h2]
  | some b =>
      dsimp only
      by_cases h1 : b = 0
      · rw [if_pos h1, if_pos h1]
      · rw [if_neg h1, if_neg h1]
        by_cases h2 : data ≠ [] ∧ params.length / b = 0
        · rw [if_pos h2, if_pos h2]
        · rw [if_neg h2, if_neg h2]

theorem bandKeys_inter {bands rows : Nat} {x y : List Nat} (hr : rows ≠ 0) (hx : bands * rows ≤ x.length) (hy : bands * rows ≤ y.length) :
    ((bandKeys bands rows x).toFinset ∩ (bandKeys bands rows y).toFinset).card = agreements bands rows x y := by
  unfold agreements
  rw [List.countP_eq_length_filter, ← List.toFinset_card_of_nodup (List.nodup_range.filter _)]
  refine (Finset.card_bij (fun band _ => (band * rows, String.intercalate "%" ((slice x (band * rows) (band * rows + rows)).map toString)))
    ?_ ?_ ?_).symm
  · intro band hband
    simp only [List.mem_toFinset, List.mem_filter, List.mem_range, decide_eq_true_eq] at hband
    obtain ⟨hb, h⟩ := hband
    simp only [Finset.mem_inter, List.mem_toFinset, bandKeys, List.map_map, List.mem_map, Function.comp, List.mem_range]
    refine ⟨⟨band, hb, rfl⟩, band, hb, ?_⟩
    have : slice y (band * rows) (band * rows + rows) = slice x (band * rows) (band * rows + rows) := by
      apply List.ext_getElem?
      intro j
      rw [slice_getElem?, slice_getElem?]
      split
      · next hj => exact (h j hj).symm
      · rfl
    rw [this]
  · intro i _ j _ hij
    exact Nat.eq_of_mul_eq_mul_right (Nat.pos_of_ne_zero hr) (Prod.mk.inj hij).1
  · intro k hk
    simp only [Finset.mem_inter, List.mem_toFinset, bandKeys, List.map_map, List.mem_map, Function.comp, List.mem_range] at hk
    obtain ⟨⟨i, hi, rfl⟩, j, hj, h⟩ := hk
    obtain ⟨h1, h2⟩ := Prod.mk.inj h
    have hij : j = i := Nat.eq_of_mul_eq_mul_right (Nat.pos_of_ne_zero hr) h1
    subst hij
    have hle : (j + 1) * rows ≤ bands * rows := Nat.mul_le_mul_right _ hi
    rw [Nat.add_mul, Nat.one_mul] at hle
    have hs := joined_inj (by simp [slice]; omega) h2
    refine ⟨j, ?_, rfl⟩
    simp only [List.mem_toFinset, List.mem_filter, List.mem_range, decide_eq_true_eq]
    refine ⟨hi, fun n hn => ?_⟩
    have h5 := congrArg (·[n]?) hs
    simp only [slice_getElem?, if_pos hn] at h5
    exact h5.symm

theorem bandCalls_fst (setOrd : List Nat → List Nat) (hash : τ → Nat) (params : List (Nat × Nat)) (same : α → α → Bool) (keyOf : α → List τ)
    (data : List α) (radius : ℚ) (bands rows : Nat) :
    (bandCalls setOrd hash params same keyOf data radius bands rows).map Prod.fst = ((bucketsOf (data.flatMap fun item =>
      (bandKeys bands rows (createSignature setOrd hash params (keyOf item))).map fun k => (k, item))).map Prod.snd).flatMap bucketPairs := by
  unfold bandCalls
  dsimp only
  rw [List.map_map]
  exact List.map_id _

/-- C155. The similarity of `a` and `b`, in this order, is computed once for each band on which their signatures agree, and for each place of `a` before a
place of `b` in the data. -/
theorem minhash_calls_count_partial {setOrd : List Nat → List Nat} (hso : LawfulOrder setOrd) (hash : τ → Nat) (params : List (Nat × Nat))
    (same : α → α → Bool) (keyOf : α → List τ) (data : List α) (radius : ℚ) {bands : Nat} (hb : 1 ≤ bands) (hbh : bands ≤ params.length) (a b : α) :
    ∃ calls, minhashCalls setOrd hash params same keyOf data radius (some bands) = .ok calls ∧ (calls.map Prod.fst).count (a, b) =
      agreements bands (params.length / bands) (createSignature setOrd hash params (keyOf a)) (createSignature setOrd hash params (keyOf b)) *
        (data.sublistsLen 2).count [a, b] := by
  have hr : params.length / bands ≠ 0 := by
    have := Nat.div_pos hbh hb
    omega
  have hlen : ∀ s, bands * (params.length / bands) ≤ (createSignature setOrd hash params s).length := by
    intro s
    rw [(create_signature_values hso hash params s).1]
    exact Nat.mul_div_le _ _
  refine ⟨_, by unfold minhashCalls; dsimp only; rw [if_neg (by omega), if_neg fun h => hr h.2], ?_⟩
  rw [bandCalls_fst, count_buckets (fun item => bandKeys bands (params.length / bands) (createSignature setOrd hash params (keyOf item)))
    (fun a => bandKeys_nodup hr _), bandKeys_inter hr (hlen _) (hlen _)]

theorem length_buckets_same {κ : Type _} [DecidableEq κ] (ks : List κ) (hks : ks.Nodup) (data : List α) :
    (((bucketsOf (data.flatMap fun item => ks.map fun b => (b, item))).map Prod.snd).flatMap bucketPairs).length = ks.length * data.length.choose 2 := by
  cases data with
  | nil => simp [bucketsOf]
  | cons x data =>
      have hu := under_flatMap (fun _ : α => ks) (fun _ => hks) (x :: data)
      rw [bucketsOf_eq, List.map_map, List.flatMap_map, List.length_flatMap]
      simp only [Function.comp_def, hu]
      set keys := firsts (((x :: data).flatMap fun item => ks.map fun b => (b, item)).map Prod.fst) with hkeys
      have hmem : ∀ k, k ∈ keys ↔ k ∈ ks := by
        intro k
        rw [hkeys, mem_firsts]
        simp only [List.mem_map, List.mem_flatMap, List.mem_cons]
        constructor
        · rintro ⟨_, ⟨_, _, b, hb, rfl⟩, rfl⟩; exact hb
        · intro h; exact ⟨(k, x), ⟨x, Or.inl rfl, k, h, rfl⟩, rfl⟩
      have hperm : keys.Perm ks := (List.perm_ext_iff_of_nodup (nodup_firsts _) hks).mpr hmem
      have hconst : keys.map (fun k => (bucketPairs ((x :: data).filter fun _ => decide (k ∈ ks))).length) =
          keys.map fun _ => (x :: data).length.choose 2 := by
        refine List.map_congr_left fun k hk => ?_
        rw [List.filter_eq_self.mpr fun _ _ => by simpa using (hmem k).mp hk, length_bucketPairs]
      rw [hconst, List.map_const', List.sum_replicate, hperm.length_eq, smul_eq_mul]

/-- C155 is false: when all items have the same signature, each pair is compared once per band, although the first comparison settles it. -/
theorem minhash_calls_many {setOrd : List Nat → List Nat} (hash : τ → Nat) (params : List (Nat × Nat)) (same : α → α → Bool)
    (key : List τ) (data : List α) (radius : ℚ) {bands : Nat} (hb : 1 ≤ bands) (hbh : bands ≤ params.length) :
    ∃ calls, minhashCalls setOrd hash params same (fun _ => key) data radius (some bands) = .ok calls ∧
      calls.length = bands * data.length.choose 2 := by
  have hr : params.length / bands ≠ 0 := by
    have := Nat.div_pos hbh hb
    omega
  refine ⟨_, by unfold minhashCalls; dsimp only; rw [if_neg (by omega), if_neg fun h => hr h.2], ?_⟩
  rw [← List.length_map (f := Prod.fst), bandCalls_fst, length_buckets_same _ (bandKeys_nodup hr _)]
  simp [bandKeys]

/-- C155. With any signatures, there are at most as many similarities as there are pairs, times the number of bands. -/
theorem minhash_calls_bound {setOrd : List Nat → List Nat} (hso : LawfulOrder setOrd) (hash : τ → Nat) (params : List (Nat × Nat))
    (same : α → α → Bool) (keyOf : α → List τ) (data : List α) (radius : ℚ) {bands : Nat} (hb : 1 ≤ bands) (hbh : bands ≤ params.length) (a b : α) :
    ∃ calls, minhashCalls setOrd hash params same keyOf data radius (some bands) = .ok calls ∧
      (calls.map Prod.fst).count (a, b) ≤ bands * (data.sublistsLen 2).count [a, b] := by
  obtain ⟨calls, h1, h2⟩ := minhash_calls_count_partial hso hash params same keyOf data radius hb hbh a b
  refine ⟨calls, h1, ?_⟩
  rw [h2]
  refine Nat.mul_le_mul_right _ ?_
  unfold agreements
  exact le_trans List.countP_le_length (by simp)

/-- Two bands of two rows: the signatures agree on the second one. -/
example : agreements 2 2 [5, 6, 7, 8, 1] [4, 6, 7, 8, 2] = 1 := by decide +kernel

/-- The hypotheses can be met: four coefficients and two bands. -/
example : LawfulOrder id ∧ 1 ≤ 2 ∧ 2 ≤ [(1, 0), (3, 5), (7, 1), (2, 2)].length := ⟨fun l => .refl l, by decide, by decide⟩

end Fog.Props
