import Verif.Model.PassjoinCalls
import Verif.Props.PassjoinFuzzy
import Mathlib.Tactic.Ring

/-!
# C147: how many times passjoin calls the distance
-/

namespace Fog.Props

open Fog.ClusteringUtils Fog.KeyCollision Fog.Passjoin Fog.Spec

variable {α : Type _} [DecidableEq α]

theorem matchStringTrials_eq (k : Nat) (distance : List α → List α → Nat) (sort : Bool) (L : Index α) (A : List α) :
    matchStringTrials k distance sort L A =
      (pyRange (if sort then A.length else A.length - k) (A.length + k + 1)).flatMap fun l =>
        (partition k l).flatMap fun p => (multiMatchAwareSubstrings k A l p.1 p.2.1 p.2.2).flatMap fun substring =>
          (lookup L l (p.1, substring)).map fun B =>
            if A.length ≤ k ∧ l ≤ k then ⟨(A, B), false, true⟩ else ⟨(A, B), true, decide (distance A B ≤ k)⟩ := by
  unfold matchStringTrials
  refine congrArg (List.flatMap · _) (funext fun l => ?_)
  unfold lookup
  cases hLl : L.get? l with
  | none => simp
  | some Ll =>
      refine congrArg (List.flatMap · _) (funext fun p => ?_)
      obtain ⟨i, start, length⟩ := p
      refine congrArg (List.flatMap · _) (funext fun substring => ?_)
      cases hc : Ll.get? (i, substring) with
      | none => simp [hc]
      | some candidates => simp [hc]

theorem matchStringTrials_yielded (k : Nat) (distance : List α → List α → Nat) (sort : Bool) (L : Index α) (A : List α) :
    ((matchStringTrials k distance sort L A).filter Trial.yielded).map Trial.pair = matchString k distance sort L A := by
  rw [matchStringTrials_eq, matchString_eq, List.filter_flatMap, List.map_flatMap]
  refine congrArg (List.flatMap · _) (funext fun l => ?_)
  rw [List.filter_flatMap, List.map_flatMap]
  refine congrArg (List.flatMap · _) (funext fun p => ?_)
  rw [List.filter_flatMap, List.map_flatMap]
  refine congrArg (List.flatMap · _) (funext fun substring => ?_)
  induction lookup L l (p.1, substring) with
  | nil => rfl
  | cons B bs ih =>
      rw [List.map_cons, List.filterMap_cons, List.filter_cons]
      by_cases h1 : A.length ≤ k ∧ l ≤ k
      · simp only [h1, and_self, if_true, true_or, List.map_cons] at ih ⊢
        rw [ih]
      · by_cases h2 : distance A B ≤ k
        · simp only [h1, if_false, h2, decide_true, if_true, or_true, List.map_cons] at ih ⊢
          rw [ih]
        · simp only [h1, if_false, h2, decide_false, Bool.false_eq_true, or_self] at ih ⊢
          rw [ih]

/-- The pairs tried are those which would be yielded if all distances were zero. -/
theorem matchStringTrials_pairs (k : Nat) (distance : List α → List α → Nat) (sort : Bool) (L : Index α) (A : List α) :
    (matchStringTrials k distance sort L A).map Trial.pair = matchString k (fun _ _ => 0) sort L A := by
  rw [matchStringTrials_eq, matchString_eq, List.map_flatMap]
  refine congrArg (List.flatMap · _) (funext fun l => ?_)
  rw [List.map_flatMap]
  refine congrArg (List.flatMap · _) (funext fun p => ?_)
  rw [List.map_flatMap]
  refine congrArg (List.flatMap · _) (funext fun substring => ?_)
  induction lookup L l (p.1, substring) with
  | nil => rfl
  | cons B bs ih =>
      rw [List.map_cons, List.map_cons, List.filterMap_cons, ih]
      by_cases h1 : A.length ≤ k ∧ l ≤ k
      · simp [h1]
      · simp [h1]

theorem matchStringTrials_called {k : Nat} {distance : List α → List α → Nat} {sort : Bool} {prev : List (List α)} {L : Index α}
    (h : IndexesInOrder k prev L) {A : List α} {t : Trial α} (ht : t ∈ matchStringTrials k distance sort L A) :
    t.called = decide (¬ (t.pair.1.length ≤ k ∧ t.pair.2.length ≤ k)) := by
  rw [matchStringTrials_eq] at ht
  obtain ⟨l, _, ht⟩ := List.mem_flatMap.mp ht
  obtain ⟨p, _, ht⟩ := List.mem_flatMap.mp ht
  obtain ⟨sub, _, ht⟩ := List.mem_flatMap.mp ht
  obtain ⟨B, hB, rfl⟩ := List.mem_map.mp ht
  rw [h, List.mem_filter] at hB
  simp only [decide_eq_true_eq] at hB
  obtain ⟨_, rfl, _⟩ := hB
  by_cases h1 : A.length ≤ k ∧ B.length ≤ k
  · simp [h1]
  · simp only [h1, if_false, not_false_eq_true, decide_true]

theorem matchStringTrials_calls {k : Nat} {distance : List α → List α → Nat} {sort : Bool} {prev : List (List α)} {L : Index α}
    (h : IndexesInOrder k prev L) (A : List α) :
    ((matchStringTrials k distance sort L A).filter Trial.called).map Trial.pair =
      (matchString k (fun _ _ => 0) sort L A).filter fun p => decide (¬ (p.1.length ≤ k ∧ p.2.length ≤ k)) := by
  rw [← matchStringTrials_pairs k distance, List.filter_map]
  congr 1
  apply List.filter_congr
  intro t ht
  exact matchStringTrials_called h ht

theorem clusteringTrials_yielded (k : Nat) (distance : List α → List α → Nat) (sort : Bool) (data : List (List α)) : ∀ L : Index α,
    ((clusteringTrials k distance sort L data).filter Trial.yielded).map Trial.pair = clustering k distance sort L data := by
  induction data with
  | nil => intro L; rfl
  | cons A data ih =>
      intro L
      rw [clusteringTrials, clustering, List.filter_append, List.map_append, matchStringTrials_yielded, ih]

theorem clusteringTrials_calls {k : Nat} {distance : List α → List α → Nat} {sort : Bool} (data : List (List α)) :
    ∀ {prev : List (List α)} {L : Index α}, IndexesInOrder k prev L →
    ((clusteringTrials k distance sort L data).filter Trial.called).map Trial.pair =
      (clustering k (fun _ _ => 0) sort L data).filter fun p => decide (¬ (p.1.length ≤ k ∧ p.2.length ≤ k)) := by
  induction data with
  | nil => intro prev L _; rfl
  | cons A data ih =>
      intro prev L h
      rw [clusteringTrials, clustering, List.filter_append, List.map_append, List.filter_append, matchStringTrials_calls h,
        ih (indexesInOrder_snoc h A)]

theorem indexesInOrder_nil (k : Nat) : IndexesInOrder (α := α) k [] [] := by
  intro l key; simp [lookup, Dict.get?]

/-- The order in which the strings are read. -/
theorem passjoin_read (lexLe : List α → List α → Bool)
    (htrans : ∀ a b c, lexLe a b = true → lexLe b c = true → lexLe a c = true) (htotal : ∀ a b, (lexLe a b || lexLe b a) = true)
    (data : List (List α)) : (data.mergeSort (sortKeyLe lexLe)).Perm data ∧
      (data.mergeSort (sortKeyLe lexLe)).Pairwise fun b a => a.length ≤ b.length := by
  refine ⟨List.mergeSort_perm _ _, ?_⟩
  refine (List.pairwise_mergeSort (le := sortKeyLe lexLe) ?_ ?_ data).imp ?_
  · intro a b c h1 h2
    unfold sortKeyLe at *
    simp only [Bool.or_eq_true, decide_eq_true_eq, Bool.and_eq_true] at *
    rcases h1 with h1 | h1 <;> rcases h2 with h2 | h2
    · left; omega
    · left; omega
    · left; omega
    · right; exact ⟨by omega, htrans _ _ _ h1.2 h2.2⟩
  · intro a b
    have := htotal a b
    unfold sortKeyLe
    simp only [Bool.or_eq_true, decide_eq_true_eq, Bool.and_eq_true] at *
    rcases Nat.lt_trichotomy a.length b.length with h | h | h
    · right; left; omega
    · rcases this with g | g
      · left; right; exact ⟨h.symm, g⟩
      · right; right; exact ⟨h, g⟩
    · left; left; omega
  · intro a b h
    unfold sortKeyLe at h
    simp only [Bool.or_eq_true, decide_eq_true_eq, Bool.and_eq_true] at h
    omega

/-- C147. The pairs yielded are those of the candidates for which the test holds. -/
theorem passjoin_trials_same (ord : List α → List (List α) → List (List α)) (lexLe : List α → List α → Bool) (data : List (List α)) (k : Nat)
    (distance : List α → List α → Nat) (sort : Bool) (min : Nat) (max : Option Nat) (mode : Mode) :
    passjoin ord lexLe data k distance sort min max mode =
      clustersFromPairs ord (((passjoinTrials lexLe data k distance sort).filter Trial.yielded).map Trial.pair) min max mode false := by
  unfold passjoin passjoinTrials
  rw [clusteringTrials_yielded]

/-- How many times a string is tried with an earlier one. -/
theorem count_trials {k : Nat} {sort : Bool} {read : List (List α)} (hn : read.Nodup)
    (hs : sort = true → read.Pairwise fun b a => a.length ≤ b.length) {A B : List α} (h : [B, A].Sublist read) :
    (clustering k (fun _ _ => 0) sort [] read).count (A, B) =
      if A.length ≤ B.length + k ∧ B.length ≤ A.length + k then finds k A B else 0 := by
  have hlen : sort = true → A.length ≤ B.length := fun e => by simpa using (hs e).sublist h
  obtain ⟨pre, post, rfl⟩ := List.append_of_mem (h.subset (show A ∈ [B, A] by simp))
  rw [List.nodup_append] at hn
  obtain ⟨hn1, hn2, hn3⟩ := hn
  have hA : A ∉ pre := fun g => hn3 A g A (by simp) rfl
  have hB : B ∈ pre := by
    rw [List.sublist_append_iff] at h
    obtain ⟨l1, l2, e, g1, g2⟩ := h
    cases l1 with
    | cons x l1 =>
        injection e with e1 e2
        exact g1.subset (by simp [e1])
    | nil =>
        rw [List.nil_append] at e
        subst e
        exfalso
        have hA' := (List.nodup_cons.mp hn2).1
        cases g2 with
        | cons _ g => exact hA' (g.subset (by simp))
        | cons_cons _ g => exact hA' (g.subset (by simp))
  obtain ⟨L', h5, h6⟩ := count_clustering (k := k) (distance := fun _ _ => 0) (sort := sort) (B := B) (List.nodup_cons.mp hn2).1 pre
    (prev := []) (L := []) (indexesInOrder_nil k) hA
  rw [h6, count_matchString h5 (by simpa using hn1) (by simpa using hB)]
  refine if_congr ?_ rfl rfl
  cases sort with
  | true =>
      have := hlen rfl
      simp
      omega
  | false => simp; omega

/-- C147. Take strings which are all different, `B` being read before `A`. The distance between them is computed as many times as pieces of `B` are
found in `A`, when their lengths differ by `k` at most and are not both `k` at most, and never otherwise. -/
theorem passjoin_calls_count_partial (lexLe : List α → List α → Bool)
    (htrans : ∀ a b c, lexLe a b = true → lexLe b c = true → lexLe a c = true) (htotal : ∀ a b, (lexLe a b || lexLe b a) = true)
    {data : List (List α)} (hn : data.Nodup) (k : Nat) (distance : List α → List α → Nat) (sort : Bool) :
    ∃ read, read.Perm data ∧ (sort = true → read.Pairwise fun b a => a.length ≤ b.length) ∧ (sort = false → read = data) ∧
      ∀ A B, [B, A].Sublist read → (passjoinCalls lexLe data k distance sort).count (A, B) =
        if (A.length ≤ B.length + k ∧ B.length ≤ A.length + k) ∧ ¬ (A.length ≤ k ∧ B.length ≤ k) then finds k A B else 0 := by
  have hread : ∃ read, read = (if sort then data.mergeSort (sortKeyLe lexLe) else data) := ⟨_, rfl⟩
  obtain ⟨read, hread⟩ := hread
  obtain ⟨hp, hs⟩ := passjoin_read lexLe htrans htotal data
  have hperm : read.Perm data := by
    rw [hread]; split
    · exact hp
    · exact .refl _
  have hsort : sort = true → read.Pairwise fun b a => a.length ≤ b.length := by
    intro e; rw [hread, if_pos e]; exact hs
  refine ⟨read, hperm, hsort, fun e => by rw [hread, e]; rfl, ?_⟩
  intro A B hAB
  have hc : passjoinCalls lexLe data k distance sort =
      (clustering k (fun _ _ => 0) sort [] read).filter fun p => decide (¬ (p.1.length ≤ k ∧ p.2.length ≤ k)) := by
    rw [hread]
    exact clusteringTrials_calls _ (indexesInOrder_nil k)
  rw [hc]
  by_cases hk : A.length ≤ k ∧ B.length ≤ k
  · rw [if_neg (fun g => g.2 hk)]
    refine List.count_eq_zero_of_not_mem fun hm => ?_
    rw [List.mem_filter] at hm
    have := of_decide_eq_true hm.2
    exact this hk
  · rw [List.count_filter (by exact decide_eq_true hk), count_trials (hperm.nodup_iff.mpr hn) hsort hAB]
    simp [hk]

/-- C147. The pieces of `B` are found in `A` at most `(k² - d²) / 2 + k + 1` times, `d` being the difference of their lengths. -/
theorem finds_le {α : Type} (k : Nat) (A B : List α) (h1 : A.length ≤ B.length + k) (h2 : B.length ≤ A.length + k) :
    (finds k A B : Int) ≤ ((k : Int) ^ 2 - (A.length - B.length : Int) ^ 2) / 2 + k + 1 := by
  classical
  have h := passjoin_substrings_bound k A B.length h1 h2
  have e : finds k A B ≤ (selected k A B.length).length := by
    unfold finds selected
    rw [partition_eq, List.flatMap_map, List.length_flatMap]
    refine List.sum_le_sum fun i hi => ?_
    rw [List.mem_range] at hi
    rw [← count_substrings k A B (by omega)]
    exact List.count_le_length
  have e2 : countSubstringsL k A.length B.length = ((k : Int) ^ 2 - (A.length - B.length : Int) ^ 2) / 2 + k + 1 := by
    unfold countSubstringsL
    rw [Int.natAbs_sq]
  omega

/-! ### More calls than pairs -/

theorem sum_count_le (A : List α) (l : List (List α × List α)) : ∀ bs : List (List α), bs.Nodup →
    (bs.map fun B => l.count (A, B)).sum = l.countP fun p => decide (p.1 = A ∧ p.2 ∈ bs) := by
  intro bs hn
  induction bs with
  | nil => simp
  | cons B bs ih =>
      rw [List.nodup_cons] at hn
      rw [List.map_cons, List.sum_cons, ih hn.2]
      clear ih
      induction l with
      | nil => rfl
      | cons p l ih2 =>
          rw [List.count_cons, List.countP_cons, List.countP_cons, ← ih2]
          obtain ⟨x, y⟩ := p
          by_cases hx : x = A
          · by_cases hy : y = B
            · subst hx hy
              simp [hn.1]
              omega
            · by_cases hb : y ∈ bs
              · simp [hx, hy, hb]; omega
              · simp [hx, hy, hb]
          · simp [hx]

/-- With strings of the same length, longer than `k`, of which any two differ at one place at most, the distance is called at least `k` times per
pair. -/
theorem clustering_many {k c : Nat} {sort : Bool} (hk : k < c) (data : List (List α)) :
    ∀ {prev : List (List α)} {L : Index α}, IndexesInOrder k prev L → (prev ++ data).Nodup → (∀ a ∈ prev ++ data, a.length = c) →
    (∀ a ∈ prev ++ data, ∀ b ∈ prev ++ data, (List.range c).countP (fun p => decide (a[p]? ≠ b[p]?)) ≤ 1) →
    k * (data.length * prev.length * 2 + data.length * data.length) ≤
      2 * ((clustering k (fun _ _ => 0) sort L data).filter fun p => decide (¬ (p.1.length ≤ k ∧ p.2.length ≤ k))).length + k * data.length := by
  induction data with
  | nil => intro prev L _ _ _ _; simp
  | cons A data ih =>
      intro prev L h hn hc hd
      have hn' : ((prev ++ [A]) ++ data).Nodup := by simpa using hn
      have hc' : ∀ a ∈ (prev ++ [A]) ++ data, a.length = c := by simpa using hc
      have hd' : ∀ a ∈ (prev ++ [A]) ++ data, ∀ b ∈ (prev ++ [A]) ++ data,
          (List.range c).countP (fun p => decide (a[p]? ≠ b[p]?)) ≤ 1 := by
        intro a ha b hb
        refine hd a ?_ b ?_
        · simpa using ha
        · simpa using hb
      have hrec := ih (indexesInOrder_snoc h A) hn' hc' hd'
      have hAc : A.length = c := hc A (by simp)
      have hpn : prev.Nodup := (List.nodup_append.mp hn).1
      have hstep : k * prev.length ≤
          ((matchString k (fun _ _ => 0) sort L A).filter fun p => decide (¬ (p.1.length ≤ k ∧ p.2.length ≤ k))).length := by
        have h1 := sum_count_le A ((matchString k (fun _ _ => 0) sort L A).filter fun p => decide (¬ (p.1.length ≤ k ∧ p.2.length ≤ k))) prev hpn
        have h2 : k * prev.length ≤ (prev.map fun B =>
            ((matchString k (fun _ _ => 0) sort L A).filter fun p => decide (¬ (p.1.length ≤ k ∧ p.2.length ≤ k))).count (A, B)).sum := by
          have : ∀ bs : List (List α), (∀ B ∈ bs, B ∈ prev) → k * bs.length ≤ (bs.map fun B =>
              ((matchString k (fun _ _ => 0) sort L A).filter fun p => decide (¬ (p.1.length ≤ k ∧ p.2.length ≤ k))).count (A, B)).sum := by
            intro bs
            induction bs with
            | nil => intro _; simp
            | cons B bs ih3 =>
                intro hbs
                have hB := hbs B (by simp)
                have hBc : B.length = c := hc B (by simp [hB])
                rw [List.map_cons, List.sum_cons, List.length_cons, Nat.mul_succ]
                have h3 := ih3 fun x hx => hbs x (by simp [hx])
                have h4 : k ≤ ((matchString k (fun _ _ => 0) sort L A).filter fun p =>
                    decide (¬ (p.1.length ≤ k ∧ p.2.length ≤ k))).count (A, B) := by
                  rw [List.count_filter (by simp; omega), count_matchString h hpn hB, if_pos]
                  · have h5 := finds_ge k (A := A) (B := B) (by omega)
                    have h6 := hd A (by simp) B (by simp [hB])
                    rw [hAc] at h5
                    omega
                  · refine ⟨⟨?_, by omega⟩, Or.inr (Nat.zero_le _)⟩
                    split <;> omega
                omega
          exact this prev fun B hB => hB
        rw [h1] at h2
        exact h2.trans List.countP_le_length
      rw [clustering, List.filter_append, List.length_append]
      simp only [List.length_append, List.length_cons, List.length_nil] at hrec ⊢
      have e1 : k * ((data.length + 1) * prev.length * 2 + (data.length + 1) * (data.length + 1)) =
          k * (data.length * (prev.length + (0 + 1)) * 2 + data.length * data.length) + 2 * (k * prev.length) + k := by ring
      have e2 : k * (data.length + 1) = k * data.length + k := by ring
      rw [e1, e2]
      omega

/-- C147 is false: passjoin may call the distance more times than there are pairs of strings, up to `k` times as many and more. For all `k` and `n`
there are `n` different strings for which it is called at least `k n (n - 1) / 2` times, whatever the distance, sorted or not. -/
theorem passjoin_calls_many (lexLe : List Nat → List Nat → Bool)
    (htrans : ∀ a b c, lexLe a b = true → lexLe b c = true → lexLe a c = true) (htotal : ∀ a b, (lexLe a b || lexLe b a) = true) (k n : Nat)
    (distance : List Nat → List Nat → Nat) (sort : Bool) :
    ∃ data : List (List Nat), data.Nodup ∧ data.length = n ∧ k * (n * (n - 1) / 2) ≤ (passjoinCalls lexLe data k distance sort).length := by
  obtain ⟨data, hdata⟩ : ∃ data, data = (List.range n).map fun i => List.replicate k 0 ++ [i] := ⟨_, rfl⟩
  have hn : data.Nodup := by
    rw [hdata]
    exact List.Nodup.map (fun a b h => by simpa using h) List.nodup_range
  have hlen : data.length = n := by rw [hdata]; simp
  have hc : ∀ a ∈ data, a.length = k + 1 := by
    intro a ha
    rw [hdata] at ha
    obtain ⟨i, _, rfl⟩ := List.mem_map.mp ha
    simp
  have hd : ∀ a ∈ data, ∀ b ∈ data, (List.range (k + 1)).countP (fun p => decide (a[p]? ≠ b[p]?)) ≤ 1 := by
    intro a ha b hb
    rw [hdata] at ha hb
    obtain ⟨i, _, rfl⟩ := List.mem_map.mp ha
    obtain ⟨j, _, rfl⟩ := List.mem_map.mp hb
    rw [List.range_succ, List.countP_append]
    have : (List.range k).countP (fun p => decide ((List.replicate k 0 ++ [i])[p]? ≠ (List.replicate k 0 ++ [j])[p]?)) = 0 := by
      rw [List.countP_eq_zero]
      intro p hp
      rw [List.mem_range] at hp
      rw [List.getElem?_append_left (by simpa using hp), List.getElem?_append_left (by simpa using hp)]
      simp
    rw [this]
    exact (Nat.zero_add _).trans_le List.countP_le_length
  refine ⟨data, hn, hlen, ?_⟩
  obtain ⟨read, hread⟩ : ∃ read, read = (if sort then data.mergeSort (sortKeyLe lexLe) else data) := ⟨_, rfl⟩
  have hperm : read.Perm data := by
    rw [hread]; split
    · exact (passjoin_read lexLe htrans htotal data).1
    · exact .refl _
  have hcalls : passjoinCalls lexLe data k distance sort =
      (clustering k (fun _ _ => 0) sort [] read).filter fun p => decide (¬ (p.1.length ≤ k ∧ p.2.length ≤ k)) := by
    rw [hread]
    exact clusteringTrials_calls _ (indexesInOrder_nil k)
  have h := clustering_many (k := k) (c := k + 1) (sort := sort) (Nat.lt_succ_self k) read (indexesInOrder_nil k)
    (by simpa using hperm.nodup_iff.mpr hn) (by intro a ha; exact hc a (hperm.subset (by simpa using ha)))
    (by intro a ha b hb; exact hd a (hperm.subset (by simpa using ha)) b (hperm.subset (by simpa using hb)))
  rw [hcalls]
  rw [hperm.length_eq, hlen, List.length_nil, Nat.mul_zero, Nat.zero_mul, Nat.zero_add] at h
  have h2 : k * (n * (n - 1) / 2) * 2 ≤ k * (n * (n - 1)) := by
    rw [Nat.mul_assoc]
    exact Nat.mul_le_mul_left _ (Nat.div_mul_le_self _ _)
  have h3 : k * (n * n) = k * (n * (n - 1)) + k * n := by
    cases n with
    | zero => simp
    | succ m => rw [Nat.add_sub_cancel]; ring
  omega

/-! ### Examples -/

/-- Three different strings: three pairs, six calls with `k = 2`. -/
example : (passjoinCalls (fun _ _ => true) ["abcx".toList, "abcy".toList, "abcz".toList] 2 (fun _ _ => 0) false).length = 6 := by decide +kernel

/-- Strings whose lengths differ too much are not compared, and neither are two short ones, though these are candidates. -/
example : passjoinCalls (fun _ _ => true) ["abc".toList, "abcdef".toList] 2 (fun _ _ => 0) false = [] ∧
    passjoinCalls (fun _ _ => true) ["ab".toList, "b".toList] 2 (fun _ _ => 0) false = [] ∧
    (passjoinTrials (fun _ _ => true) ["ab".toList, "b".toList] 2 (fun _ _ => 0) false).map (fun t => (t.called, t.yielded)) ≠ [] := by
  decide +kernel

end Fog.Props
