import Verif.Model.JoinPivotsTable
import Verif.Props.Quickjoin
import Mathlib.Tactic.Linarith
import Mathlib.Tactic.Ring

/-!
# quickjoin_join_pivots: its tables, and how many distances it computes (C153)
-/

namespace Fog.Props

open Fog.Quickjoin Fog.JoinPivots Fog.Spec

variable {α K : Type _} [Field K] [LinearOrder K]

theorem getD_set' (l : List K) (n m : Nat) (a : K) : (l.set n a).getD m 0 = if n = m ∧ n < l.length then a else l.getD m 0 := by
  rw [List.getD_eq_getElem?_getD, List.getD_eq_getElem?_getD, List.getElem?_set]
  by_cases h : n = m
  · subst h
    by_cases h' : n < l.length
    · simp [h']
    · simp [h', List.getElem?_eq_none (Nat.le_of_not_lt h')]
  · simp [h]

theorem fillRow_length (distance : α → α → K) (radius : K) (N2 i : Nat) (A : α) (S : List α) : ∀ (j : Nat) (P : List K),
    (fillRow distance radius N2 i A j S P).2.length = P.length := by
  induction S with
  | nil => intro j P; rfl
  | cons B S ih => intro j P; rw [fillRow]; dsimp only; rw [ih, List.length_set]

theorem fillRow_get (distance : α → α → K) (radius : K) (N2 i : Nat) (A : α) (S : List α) : ∀ (j : Nat) (P : List K),
    i * N2 + j + S.length ≤ P.length → ∀ x, (fillRow distance radius N2 i A j S P).2.getD x 0 =
      if h : i * N2 + j ≤ x ∧ x - (i * N2 + j) < S.length then distance A S[x - (i * N2 + j)] else P.getD x 0 := by
  induction S with
  | nil => intro j P _ x; simp [fillRow]
  | cons B S ih =>
      intro j P hP x
      simp only [List.length_cons] at hP
      rw [fillRow]
      dsimp only
      rw [ih (j + 1) _ (by rw [List.length_set]; omega) x, getD_set']
      by_cases h1 : i * N2 + j = x
      · subst h1
        rw [dif_neg (by omega), if_pos ⟨rfl, by omega⟩, dif_pos ⟨le_rfl, by simp⟩]
        simp
      · rw [if_neg fun h => h1 h.1]
        by_cases h2 : i * N2 + (j + 1) ≤ x ∧ x - (i * N2 + (j + 1)) < S.length
        · rw [dif_pos h2, dif_pos ⟨by omega, by simp only [List.length_cons]; omega⟩]
          have e : x - (i * N2 + j) = x - (i * N2 + (j + 1)) + 1 := by omega
          simp only [e, List.getElem_cons_succ]
        · rw [dif_neg h2, dif_neg (by simp only [List.length_cons]; omega)]

theorem fillTable_get (distance : α → α → K) (radius : K) (S2 : List α) (pivots : List α) : ∀ (i : Nat) (P : List K),
    (i + pivots.length) * S2.length ≤ P.length →
    (∀ x, x < i * S2.length → (fillTable distance radius S2 i pivots P).2.getD x 0 = P.getD x 0) ∧
    ∀ (l j : Nat) (A B : α), pivots[l]? = some A → S2[j]? = some B →
      (fillTable distance radius S2 i pivots P).2.getD ((i + l) * S2.length + j) 0 = distance A B := by
  induction pivots with
  | nil => intro i P _; exact ⟨fun x _ => rfl, fun l j A B h => by simp at h⟩
  | cons A pivots ih =>
      intro i P hP
      simp only [List.length_cons] at hP
      have e1 : (i + (pivots.length + 1)) * S2.length = i * S2.length + S2.length + pivots.length * S2.length := by ring
      have e2 : (i + 1) * S2.length = i * S2.length + S2.length := by ring
      have hP' : i * S2.length + 0 + S2.length ≤ P.length := by
        have := Nat.zero_le (pivots.length * S2.length)
        omega
      have hrow := fillRow_get distance radius S2.length i A S2 0 P hP'
      have hlen := fillRow_length distance radius S2.length i A S2 0 P
      have e3 : (i + 1 + pivots.length) * S2.length = (i + (pivots.length + 1)) * S2.length := by ring
      obtain ⟨h1, h2⟩ := ih (i + 1) (fillRow distance radius S2.length i A 0 S2 P).2 (by rw [hlen, e3]; exact hP)
      rw [fillTable]
      dsimp only
      constructor
      · intro x hx
        rw [h1 x (by omega), hrow, dif_neg (by omega)]
      · intro l j A' B hA hB
        obtain ⟨hj, rfl⟩ := List.getElem?_eq_some_iff.mp hB
        cases l with
        | zero =>
            simp only [List.getElem?_cons_zero, Option.some.injEq] at hA
            subst hA
            simp only [Nat.add_zero]
            rw [h1 _ (by omega), hrow, dif_pos ⟨by omega, by omega⟩]
            congr 2
            omega
        | succ l =>
            rw [List.getElem?_cons_succ] at hA
            have := h2 l j A' S2[j] hA (List.getElem?_eq_getElem hj)
            rw [← this]
            congr 3
            omega

theorem fillDistances_length (distance : α → α → K) (A : α) (pivots : List α) : ∀ (l : Nat) (D : List K),
    (fillDistances distance A l pivots D).2.length = D.length := by
  induction pivots with
  | nil => intro l D; rfl
  | cons p pivots ih => intro l D; rw [fillDistances]; dsimp only; rw [ih, List.length_set]

theorem fillDistances_get (distance : α → α → K) (A : α) (pivots : List α) : ∀ (i : Nat) (D : List K),
    i + pivots.length ≤ D.length →
    (∀ x, x < i → (fillDistances distance A i pivots D).2.getD x 0 = D.getD x 0) ∧
    ∀ (l : Nat) (p : α), pivots[l]? = some p → (fillDistances distance A i pivots D).2.getD (i + l) 0 = distance p A := by
  induction pivots with
  | nil => intro i D _; exact ⟨fun x _ => rfl, fun l p h => by simp at h⟩
  | cons p pivots ih =>
      intro i D hD
      simp only [List.length_cons] at hD
      obtain ⟨h1, h2⟩ := ih (i + 1) (D.set i (distance p A)) (by rw [List.length_set]; omega)
      rw [fillDistances]
      dsimp only
      constructor
      · intro x hx
        rw [h1 x (by omega), getD_set', if_neg (by omega)]
      · intro l q hq
        cases l with
        | zero =>
            simp only [List.getElem?_cons_zero, Option.some.injEq] at hq
            subst hq
            simp only [Nat.add_zero]
            rw [h1 i (by omega), getD_set', if_pos ⟨rfl, by omega⟩]
        | succ l =>
            rw [List.getElem?_cons_succ] at hq
            rw [← h2 l q hq]
            congr 1
            omega

theorem excluded_eq (P D : List K) (radius : K) (N2 j : Nat) (ls : List Nat) :
    excluded P D radius N2 j ls = ls.any fun l =>
      decide (max (P.getD (l * N2 + j) 0 - D.getD l 0) (-(P.getD (l * N2 + j) 0 - D.getD l 0)) > radius) := by
  induction ls with
  | nil => rfl
  | cons l ls ih =>
      rw [excluded, ih, List.any_cons]
      by_cases h : max (P.getD (l * N2 + j) 0 - D.getD l 0) (-(P.getD (l * N2 + j) 0 - D.getD l 0)) > radius
      · rw [if_pos h, decide_eq_true h, Bool.true_or]
      · rw [if_neg h, decide_eq_false h, Bool.false_or]

theorem excluded_keeps (P D : List K) (radius : K) (N2 j : Nat) (pivots : List α) (distance : α → α → K) (A B : α)
    (hP : ∀ (l : Nat) (p : α), pivots[l]? = some p → P.getD (l * N2 + j) 0 = distance p B)
    (hD : ∀ (l : Nat) (p : α), pivots[l]? = some p → D.getD l 0 = distance p A) :
    excluded P D radius N2 j (List.range pivots.length) = !keeps pivots distance radius A B := by
  rw [excluded_eq, keeps, List.not_all_eq_any_not, Bool.eq_iff_iff, List.any_eq_true, List.any_eq_true]
  constructor
  · rintro ⟨l, hl, h⟩
    have hl' := List.mem_range.mp hl
    have hg : pivots[l]? = some pivots[l] := List.getElem?_eq_getElem hl'
    refine ⟨pivots[l], List.getElem_mem hl', ?_⟩
    rw [hP l _ hg, hD l _ hg] at h
    rw [h]; rfl
  · rintro ⟨p, hp, h⟩
    obtain ⟨l, hl, rfl⟩ := List.getElem_of_mem hp
    have hg : pivots[l]? = some pivots[l] := List.getElem?_eq_getElem hl
    refine ⟨l, List.mem_range.mpr hl, ?_⟩
    rw [hP l _ hg, hD l _ hg]
    rwa [Bool.not_not] at h

/-! ### The pairs and the calls -/

theorem fillRow_steps (distance : α → α → K) (radius : K) (N2 i : Nat) (A : α) (S : List α) : ∀ (j : Nat) (P : List K),
    (fillRow distance radius N2 i A j S P).1.filterMap Step.pair? =
      (S.filterMap fun B => if distance A B ≤ radius then some (A, B) else none) ∧
    (fillRow distance radius N2 i A j S P).1.filterMap Step.call? = S.map fun B => (A, B) := by
  induction S with
  | nil => intro j P; exact ⟨rfl, rfl⟩
  | cons B S ih =>
      intro j P
      rw [fillRow]
      dsimp only
      obtain ⟨h1, h2⟩ := ih (j + 1) (P.set (i * N2 + j) (distance A B))
      by_cases h : distance A B ≤ radius <;> simp [h, List.filterMap_cons, Step.pair?, Step.call?, h1, h2]

theorem fillTable_steps (distance : α → α → K) (radius : K) (S2 pivots : List α) : ∀ (i : Nat) (P : List K),
    (fillTable distance radius S2 i pivots P).1.filterMap Step.pair? =
      (pivots.flatMap fun A => S2.filterMap fun B => if distance A B ≤ radius then some (A, B) else none) ∧
    (fillTable distance radius S2 i pivots P).1.filterMap Step.call? = pivots.flatMap fun A => S2.map fun B => (A, B) := by
  induction pivots with
  | nil => intro i P; exact ⟨rfl, rfl⟩
  | cons A pivots ih =>
      intro i P
      rw [fillTable]
      dsimp only
      obtain ⟨h1, h2⟩ := ih (i + 1) (fillRow distance radius S2.length i A 0 S2 P).2
      obtain ⟨h3, h4⟩ := fillRow_steps distance radius S2.length i A S2 0 P
      rw [List.filterMap_append, List.filterMap_append, h1, h2, h3, h4]
      exact ⟨rfl, rfl⟩

theorem fillDistances_steps (distance : α → α → K) (A : α) (pivots : List α) : ∀ (l : Nat) (D : List K),
    (fillDistances distance A l pivots D).1.filterMap Step.pair? = [] ∧
    (fillDistances distance A l pivots D).1.filterMap Step.call? = pivots.map fun p => (p, A) := by
  induction pivots with
  | nil => intro l D; exact ⟨rfl, rfl⟩
  | cons p pivots ih =>
      intro l D
      rw [fillDistances]
      dsimp only
      obtain ⟨h1, h2⟩ := ih (l + 1) (D.set l (distance p A))
      rw [List.filterMap_cons, List.filterMap_cons, h1, h2]
      exact ⟨rfl, rfl⟩

theorem scanRow_steps (distance : α → α → K) (radius : K) (N2 : Nat) (pivots : List α) (P D : List K) (A : α)
    (hD : ∀ (l : Nat) (p : α), pivots[l]? = some p → D.getD l 0 = distance p A) (S : List α) : ∀ j : Nat,
    (∀ (l m : Nat) (p B : α), pivots[l]? = some p → S[m]? = some B → P.getD (l * N2 + (j + m)) 0 = distance p B) →
    (scanRow distance radius N2 pivots.length P D A j S).filterMap Step.pair? =
      (S.filterMap fun B => if keeps pivots distance radius A B && decide (distance A B ≤ radius) then some (A, B) else none) ∧
    (scanRow distance radius N2 pivots.length P D A j S).filterMap Step.call? =
      (S.filter fun B => keeps pivots distance radius A B).map fun B => (A, B) := by
  induction S with
  | nil => intro j _; exact ⟨rfl, rfl⟩
  | cons B S ih =>
      intro j hP
      obtain ⟨h1, h2⟩ := ih (j + 1) fun l m p B' hp hB => by
        have := hP l (m + 1) p B' hp (by rw [List.getElem?_cons_succ]; exact hB)
        rw [← this]
        congr 2
        omega
      have hex := excluded_keeps P D radius N2 j pivots distance A B (fun l p hp => hP l 0 p B hp rfl) hD
      rw [scanRow, hex, List.filterMap_cons, List.filter_cons]
      cases hk : keeps pivots distance radius A B
      · rw [if_pos (by rfl)]
        simp only [Bool.false_and, Bool.false_eq_true, if_false, h1, h2, and_self]
      · rw [if_neg (by simp)]
        by_cases h : distance A B ≤ radius <;> simp [h, List.filterMap_cons, Step.pair?, Step.call?, h1, h2]

theorem scan_steps (distance : α → α → K) (radius : K) (S2 pivots : List α) (P : List K)
    (hP : ∀ (l m : Nat) (p B : α), pivots[l]? = some p → S2[m]? = some B → P.getD (l * S2.length + m) 0 = distance p B) (S1 : List α) :
    ∀ D : List K, pivots.length ≤ D.length →
    (scan distance radius S2 pivots P S1 D).filterMap Step.pair? = (S1.flatMap fun A => S2.filterMap fun B =>
      if keeps pivots distance radius A B && decide (distance A B ≤ radius) then some (A, B) else none) ∧
    (scan distance radius S2 pivots P S1 D).filterMap Step.call? = S1.flatMap fun A =>
      (pivots.map fun p => (p, A)) ++ (S2.filter fun B => keeps pivots distance radius A B).map fun B => (A, B) := by
  induction S1 with
  | nil => intro D _; exact ⟨rfl, rfl⟩
  | cons A S1 ih =>
      intro D hlen
      rw [scan]
      obtain ⟨h1, h2⟩ := ih (fillDistances distance A 0 pivots D).2 (by rw [fillDistances_length]; exact hlen)
      obtain ⟨h3, h4⟩ := fillDistances_steps distance A pivots 0 D
      have hD := (fillDistances_get distance A pivots 0 D (by omega)).2
      simp only [Nat.zero_add] at hD
      obtain ⟨h5, h6⟩ := scanRow_steps distance radius S2.length pivots P (fillDistances distance A 0 pivots D).2 A hD S2 0 (by
        intro l m p B hp hB
        rw [Nat.zero_add]
        exact hP l m p B hp hB)
      rw [List.filterMap_append, List.filterMap_append, List.filterMap_append, List.filterMap_append, h1, h2, h3, h4, h5, h6,
        List.flatMap_cons, List.flatMap_cons]
      exact ⟨rfl, rfl⟩

theorem steps_spec (S1 S2 : List α) (distance : α → α → K) (radius : K) (ss : List (Step α)) (h : steps S1 S2 distance radius = .ok ss) :
    joinPivots S1 S2 distance radius = .ok (ss.filterMap Step.pair?) ∧
    ss.filterMap Step.call? = ((S1.take (max 1 (min 16 (S1.length / 8)))).flatMap fun A => S2.map fun B => (A, B)) ++
      (S1.drop (max 1 (min 16 (S1.length / 8)))).flatMap fun A =>
        ((S1.take (max 1 (min 16 (S1.length / 8)))).map fun p => (p, A)) ++
          (S2.filter fun B => keeps (S1.take (max 1 (min 16 (S1.length / 8)))) distance radius A B).map fun B => (A, B) := by
  unfold steps at h
  unfold joinPivots
  dsimp only at h ⊢
  generalize max 1 (min 16 (S1.length / 8)) = k at *
  by_cases hk : S1.length < k
  · rw [if_pos hk] at h; cases h
  · rw [if_neg hk] at h ⊢
    have htake : (S1.take k).length = k := by rw [List.length_take]; omega
    cases h
    obtain ⟨h1, h2⟩ := fillTable_steps distance radius S2 (S1.take k) 0 (List.replicate (S2.length * k) (0 : K))
    have hg := (fillTable_get distance radius S2 (S1.take k) 0 (List.replicate (S2.length * k) (0 : K)) (by
      rw [List.length_replicate, htake, Nat.zero_add, Nat.mul_comm])).2
    simp only [Nat.zero_add] at hg
    obtain ⟨h3, h4⟩ := scan_steps distance radius S2 (S1.take k) _ hg (S1.drop k) (List.replicate k 0) (by
      rw [List.length_replicate, htake])
    rw [List.filterMap_append, List.filterMap_append, h1, h2, h3, h4]
    exact ⟨rfl, rfl⟩

/-- C153. Written and read as the code does, the tables hold the distances: the pairs are those of the model of C60, and the same `IndexError` is raised. -/
theorem join_pivots_tables (S1 S2 : List α) (distance : α → α → K) (radius : K) :
    (match steps S1 S2 distance radius with
      | .error e => .error e
      | .ok ss => .ok (ss.filterMap Step.pair?)) = joinPivots S1 S2 distance radius := by
  rcases h : steps S1 S2 distance radius with e | ss
  · unfold steps at h
    unfold joinPivots
    dsimp only at h ⊢
    by_cases hk : S1.length < max 1 (min 16 (S1.length / 8))
    · rw [if_pos hk] at h ⊢; cases h; rfl
    · rw [if_neg hk] at h; cases h
  · exact (steps_spec S1 S2 distance radius ss h).1.symm

/-- C153. The number of distances computed: with `k` pivots, `k` for each item of `S2` and for each other item of `S1`, and one for each two items which the
distances to the pivots do not exclude. -/
theorem join_pivots_calls_partial (S1 S2 : List α) (distance : α → α → K) (radius : K) (ss : List (Step α))
    (h : steps S1 S2 distance radius = .ok ss) :
    ∃ k, k = max 1 (min 16 (S1.length / 8)) ∧ k ≤ S1.length ∧ (ss.filterMap Step.call?).length =
      k * S2.length + (S1.length - k) * k + ((S1.drop k).map fun A => S2.countP fun B =>
        decide (∀ p ∈ S1.take k, |distance p B - distance p A| ≤ radius)).sum := by
  have hs := (steps_spec S1 S2 distance radius ss h).2
  have hk : ¬ S1.length < max 1 (min 16 (S1.length / 8)) := by
    intro hk
    unfold steps at h
    dsimp only at h
    rw [if_pos hk] at h; cases h
  refine ⟨max 1 (min 16 (S1.length / 8)), rfl, by omega, ?_⟩
  rw [hs]
  generalize max 1 (min 16 (S1.length / 8)) = k at *
  have htake : (S1.take k).length = k := by rw [List.length_take]; omega
  have hkeeps : ∀ A B, keeps (S1.take k) distance radius A B = decide (∀ p ∈ S1.take k, |distance p B - distance p A| ≤ radius) := by
    intro A B
    rw [keeps, Bool.eq_iff_iff, List.all_eq_true, decide_eq_true_eq]
    refine forall₂_congr fun p _ => ?_
    rw [Bool.not_eq_true', decide_eq_false_iff_not, gt_iff_lt, not_lt]
    exact Iff.rfl
  have hconst : ∀ (l : List α) (c : Nat), (l.map fun _ => c).sum = l.length * c := by
    intro l c; induction l with
    | nil => simp
    | cons _ _ ih => rw [List.map_cons, List.sum_cons, ih, List.length_cons]; ring
  have hadd : ∀ (l : List α) (c : Nat) (f : α → Nat), (l.map fun A => c + f A).sum = l.length * c + (l.map f).sum := by
    intro l c f; induction l with
    | nil => simp
    | cons _ _ ih => rw [List.map_cons, List.sum_cons, ih, List.length_cons, List.map_cons, List.sum_cons]; ring
  rw [List.length_append, List.length_flatMap, List.length_flatMap]
  simp only [List.length_map, List.length_append, hconst, hadd, htake, List.length_drop, ← List.countP_eq_length_filter, hkeeps]
  ring

/-- C153. There are at most as many as there are pairs, and those from the pivots to the other items of `S1`. -/
theorem join_pivots_calls_bound (S1 S2 : List α) (distance : α → α → K) (radius : K) (ss : List (Step α))
    (h : steps S1 S2 distance radius = .ok ss) :
    (ss.filterMap Step.call?).length ≤ S1.length * S2.length + 16 * (S1.length - 1) := by
  obtain ⟨k, h1, hk, e⟩ := join_pivots_calls_partial S1 S2 distance radius ss h
  rw [e]
  have hsum : ∀ (l : List α) (f : α → Nat) (n : Nat), (∀ A, f A ≤ n) → (l.map f).sum ≤ l.length * n := by
    intro l f n hf; induction l with
    | nil => simp
    | cons A l ih =>
        rw [List.map_cons, List.sum_cons, List.length_cons, Nat.succ_mul]
        have := hf A
        omega
  have hs := hsum (S1.drop k) (fun A => S2.countP fun B => decide (∀ p ∈ S1.take k, |distance p B - distance p A| ≤ radius)) S2.length
    fun A => List.countP_le_length
  rw [List.length_drop] at hs
  have e2 : k * S2.length + (S1.length - k) * S2.length = S1.length * S2.length := by
    rw [← Nat.add_mul]; congr 1; omega
  have e3 : (S1.length - k) * k ≤ (S1.length - 1) * 16 := Nat.mul_le_mul (by omega) (by omega)
  omega

/-- C153. When all items are at the same distance of each other, more distances are computed than there are pairs, if `S1` has several items. -/
theorem join_pivots_calls_many [IsStrictOrderedRing K] (S1 S2 : List α) (c radius : K) (hr : 0 ≤ radius) (ss : List (Step α))
    (h : steps S1 S2 (fun _ _ => c) radius = .ok ss) (h2 : 1 < S1.length) :
    S1.length * S2.length < (ss.filterMap Step.call?).length := by
  obtain ⟨k, h1, hk, e⟩ := join_pivots_calls_partial S1 S2 _ radius ss h
  rw [e]
  have hall : ∀ A : α, (S2.countP fun B => decide (∀ p ∈ S1.take k, |c - c| ≤ radius)) = S2.length := by
    intro A
    refine List.countP_eq_length.mpr fun B _ => ?_
    simp [hr]
  have hconst : ∀ (l : List α) (n : Nat), (l.map fun _ => n).sum = l.length * n := by
    intro l n; induction l with
    | nil => simp
    | cons _ _ ih => rw [List.map_cons, List.sum_cons, ih, List.length_cons]; ring
  have : ((S1.drop k).map fun A => S2.countP fun B => decide (∀ p ∈ S1.take k, |c - c| ≤ radius)).sum = (S1.length - k) * S2.length := by
    rw [List.map_congr_left fun A _ => hall A, hconst, List.length_drop]
  rw [this]
  obtain ⟨m, hm⟩ : ∃ m, S1.length = k + (m + 1) := ⟨S1.length - k - 1, by omega⟩
  rw [hm, Nat.add_sub_cancel_left]
  have : 0 < (m + 1) * k := Nat.mul_pos (by omega) (by omega)
  nlinarith

/-- Three numbers and two others: the first one is the pivot. Its two distances are written, then those to the two others; of the four other pairs, two are
excluded. -/
example : (steps [0, 5, 9] [1, 8] (fun a b : Int => ((a - b).natAbs : Rat)) 1).toOption.map (fun ss => (ss.filterMap Step.call?, ss.filterMap Step.pair?)) =
    some ([(0, 1), (0, 8), (0, 5), (0, 9), (9, 8)], [(0, 1), (9, 8)]) := by
  decide +kernel

/-- Three items and two others, all at distance 1: eight distances for six pairs. -/
example : (steps [1, 2, 3] [4, 5] (fun _ _ : Nat => (1 : Rat)) 1).toOption.map (fun ss => (ss.filterMap Step.call?).length) = some 8 := by
  decide +kernel

end Fog.Props
