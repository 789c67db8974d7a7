import Verif.Lemmas.FaginCounts
import Verif.Lemmas.FaginThreshold
import Verif.Props.Metrics

/-!
# Claims about `fog/clustering/fagin.py`
-/

namespace Fog.Props

open Fog.Spec Fog.Fagin

variable {κ F : Type} [DecidableEq κ]

/-! ### C75 -/

/-- C75: `naive_cosine_pairs` yields every pair of vectors which have a dimension in common, once, the greater index first. -/
theorem naive_cosine_pairs_eq {vectors : List (Dict κ F)} (hv : AreVectors vectors) :
    (naiveCosinePairs vectors).Nodup ∧ ∀ i j, (i, j) ∈ naiveCosinePairs vectors ↔ j < i ∧ ShareDimension vectors i j := by
  obtain ⟨s, hs, h⟩ := naive_inv hv vectors 0 (by simp) ⟨[], [], []⟩
    ⟨by simp [Dict.get?], by simp, by simp, by simp⟩
  rw [naiveCosinePairs, hs]
  refine ⟨h.nodup, fun i j => ?_⟩
  have := h.out i j
  simp only [Nat.zero_add, List.not_mem_nil, false_and, exists_false, and_false, or_false] at this
  refine this.trans ?_
  refine ⟨fun h => ⟨h.1, h.2.2⟩, fun h => ⟨h.1, ?_, h.2⟩⟩
  obtain ⟨d, w, w', ⟨v, hv, _⟩, _⟩ := h.2
  exact (List.getElem?_eq_some_iff.1 hv).1

/-- Two vectors are never left out when their dot product is not zero. -/
theorem naive_cosine_pairs_dot {vectors : List (Dict κ ℝ)} (hv : AreVectors vectors) {i j : Nat} {A B : Dict κ ℝ}
    (hA : vectors[i]? = some A) (hB : vectors[j]? = some B) (hji : j < i) (hdot : Metrics.sparseDotProduct A B ≠ 0) :
    (i, j) ∈ naiveCosinePairs vectors := by
  rw [(naive_cosine_pairs_eq hv).2]
  refine ⟨hji, ?_⟩
  by_contra hs
  have hno : ∀ k, k ∈ A.keys → k ∉ B.keys := by
    intro k hk hk'
    rw [← has_iff hA] at hk
    rw [← has_iff hB] at hk'
    exact hs ⟨k, hk.choose, hk'.choose, hk.choose_spec, hk'.choose_spec⟩
  have hfold : ∀ (A B : Dict κ ℝ), (∀ k, k ∈ A.keys → k ∉ B.keys) → ∀ (p : ℝ), A.foldl (fun product item =>
      match Dict.get? B item.1 with | some w2 => product + item.2 * w2 | none => product) p = p := by
    intro A B h
    induction A with
    | nil => intro p; rfl
    | cons x A ih =>
        intro p
        rw [List.foldl_cons, (Dict.get?_eq_none_iff B x.1).2 (h x.1 (by simp [Dict.keys]))]
        exact ih (fun k hk => h k (by simp only [Dict.keys, List.map_cons, List.mem_cons]; exact Or.inr hk)) p
  apply hdot
  rw [show Metrics.sparseDotProduct A B = (Metrics.swapped A B).1.foldl (fun product item =>
    match Dict.get? (Metrics.swapped A B).2 item.1 with | some w2 => product + item.2 * w2 | none => product) 0 from rfl]
  by_cases h : A.length > B.length
  · rw [show Metrics.swapped A B = (B, A) from if_pos h]
    exact hfold B A (fun k hk hk' => hno k hk' hk) 0
  · rw [show Metrics.swapped A B = (A, B) from if_neg h]
    exact hfold A B hno 0

/-- Three vectors, the first two of which have the dimension `'b'` in common. -/
example : AreVectors [[('a', (1 : ℝ)), ('b', 2)], [('b', 1)], [('c', 5)]] := by
  intro v hv; simp at hv; rcases hv with rfl | rfl | rfl <;> simp

example : naiveCosinePairs [[('a', 1), ('b', 2)], [('b', 1), ('a', 3)], [('c', 5)], [('b', 1), ('c', 1)]] = [(1, 0), (3, 0), (3, 1), (3, 2)] := by
  decide

/-! ### C76 -/

/-- C76: `fagin_k1` ends. It answers for the vectors whose dimensions are all found in another vector, in order. One of the candidates is
the farthest such vector: its weights are no greater than those of the vectors which are not candidates, since the lists are read from the
least weight. -/
theorem fagin_k1_partial [LinearOrder F] {vectors : List (Dict κ F)} (hv : AreVectors vectors) {fuel : Nat}
    (hf : vectors.length < fuel) : ∃ out, faginK1 fuel vectors = some out ∧ (∀ i, i ∈ out.map Prod.fst ↔ Covered vectors i) ∧
      (out.map Prod.fst).Pairwise (· < ·) ∧ ∀ e ∈ out, Candidates vectors e.1 e.2 := by
  obtain ⟨parts, hp, h1, h2, h3⟩ := candidates_all hv hf vectors 0 (by simp)
  refine ⟨parts.flatten, ?_, fun i => ?_, h2, h3⟩
  · rw [faginK1, hp]; rfl
  · rw [h1]; simp

/-- Two vectors in the same direction, and one in another. -/
def opposite : List (Dict Char ℝ) := [[('a', 3), ('b', 4)], [('a', 24), ('b', 7)], [('a', 30), ('b', 40)]]

theorem opposite_vectors : AreVectors opposite := by
  intro v hv
  simp only [opposite, List.mem_cons, List.not_mem_nil, or_false] at hv
  rcases hv with rfl | rfl | rfl <;> simp

example : ∃ out, faginK1 4 opposite = some out ∧ (∀ i, i ∈ out.map Prod.fst ↔ Covered opposite i) ∧
    (out.map Prod.fst).Pairwise (· < ·) ∧ ∀ e ∈ out, Candidates opposite e.1 e.2 :=
  fagin_k1_partial opposite_vectors (by simp [opposite])

example : Covered opposite 0 := by
  refine ⟨⟨'a', 3, [('a', 3), ('b', 4)], by simp [opposite], by simp⟩, 1, by decide, ?_⟩
  rintro d w ⟨v, hv, hd⟩
  simp only [opposite, List.getElem?_cons_zero, Option.some.injEq] at hv
  subst hv
  simp only [List.mem_cons, Prod.mk.injEq, List.not_mem_nil, or_false] at hd
  rcases hd with ⟨rfl, _⟩ | ⟨rfl, _⟩
  · exact ⟨24, _, rfl, by simp⟩
  · exact ⟨7, _, rfl, by simp⟩

theorem opposite_lists : invertedList opposite 'a' = [(3, 0), (24, 1), (30, 2)] ∧ invertedList opposite 'b' = [(4, 0), (7, 1), (40, 2)] := by
  constructor
  · rw [invertedList, postings_get]
    change [((3 : ℝ), 0), (24, 1), (30, 2)].mergeSort tupleLe = _
    norm_num [List.mergeSort, List.MergeSort.Internal.splitInTwo, List.merge, tupleLe]
  · rw [invertedList, postings_get]
    change [((4 : ℝ), 0), (7, 1), (40, 2)].mergeSort tupleLe = _
    norm_num [List.mergeSort, List.MergeSort.Internal.splitInTwo, List.merge, tupleLe]

theorem cosine_two (x y p q : ℝ) : Metrics.sparseCosineSimilarity false [('a', x), ('b', y)] [('a', p), ('b', q)] =
    if Real.sqrt ((0 + x ^ 2 + y ^ 2) * (0 + p ^ 2 + q ^ 2)) = 0 then .error .zeroDivisionError
    else .ok ((0 + x * p + y * q) / Real.sqrt ((0 + x ^ 2 + y ^ 2) * (0 + p ^ 2 + q ^ 2))) := rfl

theorem opposite_cosine :
    Metrics.sparseCosineSimilarity false [('a', 3), ('b', 4)] [('a', 24), ('b', 7)] = .ok (4 / 5 : ℝ) ∧
    Metrics.sparseCosineSimilarity false [('a', 3), ('b', 4)] [('a', 30), ('b', 40)] = .ok (1 : ℝ) := by
  have h1 : Real.sqrt (25 * 625) = 125 := by
    rw [show (25 * 625 : ℝ) = 125 * 125 by norm_num, Real.sqrt_mul_self (by norm_num)]
  have h2 : Real.sqrt (25 * 2500) = 250 := by
    rw [show (25 * 2500 : ℝ) = 250 * 250 by norm_num, Real.sqrt_mul_self (by norm_num)]
  constructor
  · rw [cosine_two, show (0 + 3 ^ 2 + 4 ^ 2 : ℝ) = 25 by norm_num, show (0 + 24 ^ 2 + 7 ^ 2 : ℝ) = 625 by norm_num, h1]
    norm_num
  · rw [cosine_two, show (0 + 3 ^ 2 + 4 ^ 2 : ℝ) = 25 by norm_num, show (0 + 30 ^ 2 + 40 ^ 2 : ℝ) = 2500 by norm_num, h2]
    norm_num

/-- The nearest vector is not among the candidates: the third vector has a cosine of 1 with the first, and the second a cosine of 4/5. -/
theorem fagin_k1_misses : faginK1 4 opposite = some [(0, [1]), (1, [0]), (2, [0, 1])] := by
  have hz : opposite.zipIdx = [([('a', 3), ('b', 4)], 0), ([('a', 24), ('b', 7)], 1), ([('a', 30), ('b', 40)], 2)] := rfl
  rw [faginK1, hz]
  simp [Dict.keys, countLoop, countTurn, opposite_lists, Dict.update, Dict.get?, Dict.set]

/-! ### C77 -/

/-- The cosine of the angle of two sparse vectors. -/
noncomputable def angle (A B : Dict κ ℝ) : ℝ :=
  cosine (A.keys.toFinset ∪ B.keys.toFinset) (Metrics.weight A) (Metrics.weight B)

theorem sparse_cosine_angle {same : Bool} {A B : Dict κ ℝ} (hs : same = true → A = B) (hA : A.keys.Nodup) (hB : B.keys.Nodup)
    (hA0 : ∀ e ∈ A, 0 < e.2) (hB0 : ∀ e ∈ B, 0 < e.2) (hne : same = true → A ≠ []) :
    Metrics.sparseCosineSimilarity same A B = .ok (angle A B) := by
  by_cases h : A = [] ∨ B = []
  · have hsame : same = false := by
      cases same with
      | false => rfl
      | true =>
          rcases h with h | h
          · exact absurd h (hne rfl)
          · exact absurd ((hs rfl).trans h) (hne rfl)
    subst hsame
    have h0 : angle A B = 0 := by
      have : dot (A.keys.toFinset ∪ B.keys.toFinset) (Metrics.weight A) (Metrics.weight B) = 0 := by
        unfold dot
        refine Finset.sum_eq_zero fun k _ => ?_
        rcases h with rfl | rfl <;> simp [Metrics.weight, Dict.get?]
      rw [angle, cosine, this, zero_div]
    rw [h0, Metrics.sparseCosineSimilarity]
    rcases h with rfl | rfl <;> simp
  · rw [not_or] at h
    have nz : ∀ D : Dict κ ℝ, D.keys.Nodup → (∀ e ∈ D, 0 < e.2) → D ≠ [] → ∃ k, Metrics.weight D k ≠ 0 := by
      intro D hD hD0 hDe
      obtain ⟨e, he⟩ := List.exists_mem_of_ne_nil _ hDe
      refine ⟨e.1, ?_⟩
      rw [Metrics.weight_of_mem hD (show (e.1, e.2) ∈ D from he)]
      exact (hD0 e he).ne'
    exact sparse_cosine_eq hs hA hB (nz A hA hA0 h.1) (nz B hB hB0 h.2)

/-- C77: on vectors of positive weights, `threshold_algorithm_k1` ends without raising and gives one answer for each vector, in order.
Missing: the answer is the nearest vector, which is false (see `threshold_algorithm_k1_misses`). -/
theorem threshold_algorithm_k1_partial {vectors : List (Dict κ ℝ)} (hv : AreVectors vectors) (hpos : ∀ v ∈ vectors, ∀ e ∈ v, 0 < e.2)
    {same : Nat → Nat → Bool} (hs : ∀ i j, same i j = true → vectors[i]? = vectors[j]?) {fuel : Nat} (hf : vectors.length < fuel) :
    ∃ js : List Nat, js.length = vectors.length ∧
      thresholdAlgorithmK1 (cosineOf same vectors) (cosineTo vectors) fuel vectors = .ok (js.zipIdx.map fun e => (e.2, some e.1)) ∧
      ∀ i j A, js[i]? = some j → vectors[i]? = some A →
        ThresholdAnswer vectors i (fun j => angle A ((vectors[j]?).getD [])) (fun t => angle A t) j := by
  have hsim : ∀ i j, j ≠ i → ShareDimension vectors i j →
      cosineOf same vectors i j = .ok (angle ((vectors[i]?).getD []) ((vectors[j]?).getD [])) := by
    rintro i j hji ⟨d, w, w', ⟨A, hA, hAd⟩, ⟨B, hB, hBd⟩⟩
    simp only [cosineOf, hA, hB, Option.getD_some]
    refine sparse_cosine_angle ?_ ?_ ?_ (hpos A (List.mem_of_getElem? hA)) (hpos B (List.mem_of_getElem? hB)) ?_
    · intro h; have := hs i j h; rw [hA, hB] at this; exact Option.some.inj this
    · simpa [Dict.keys] using hv A (List.mem_of_getElem? hA)
    · simpa [Dict.keys] using hv B (List.mem_of_getElem? hB)
    · intro _ h; rw [h] at hAd; cases hAd
  have hthr : ∀ i (t : Dict κ ℝ), i < vectors.length → t.keys.Nodup → (∀ e ∈ t, ∃ j, j ≠ i ∧ HasWeight vectors j e.1 e.2) →
      cosineTo vectors i t = .ok (angle ((vectors[i]?).getD []) t) := by
    intro i t hi hn ht
    have hA : vectors[i]? = some vectors[i] := List.getElem?_eq_getElem hi
    simp only [cosineTo, hA, Option.getD_some]
    refine sparse_cosine_angle (by simp) ?_ hn (hpos _ (List.getElem_mem hi)) ?_ (by simp)
    · simpa [Dict.keys] using hv _ (List.getElem_mem hi)
    · intro e he
      obtain ⟨j, _, v, hv', hm⟩ := ht e he
      exact hpos v (List.mem_of_getElem? hv') e hm
  obtain ⟨js, h1, h2, h3⟩ := answers_all hv (cs := fun i j => angle ((vectors[i]?).getD []) ((vectors[j]?).getD []))
    (T := fun i t => angle ((vectors[i]?).getD []) t) hsim hthr hf
  refine ⟨js, h1, h2, fun i j A hj hA => ?_⟩
  have := h3 i j hj
  simpa only [hA, Option.getD_some] using this

example : (∀ v ∈ opposite, ∀ e ∈ v, 0 < e.2) ∧ ∀ i j : Nat, (decide (i = j)) = true → opposite[i]? = opposite[j]? := by
  refine ⟨?_, fun i j h => by rw [of_decide_eq_true h]⟩
  intro v hv e he
  simp only [opposite, List.mem_cons, List.not_mem_nil, or_false] at hv
  rcases hv with rfl | rfl | rfl <;> · simp at he; rcases he with rfl | rfl <;> norm_num

/-- The answer for the first vector is the second, though the third has a cosine of 1 with it. -/
theorem threshold_algorithm_k1_misses :
    thresholdAlgorithmK1 (cosineOf (fun i j => decide (i = j)) opposite) (cosineTo opposite) 4 opposite =
      .ok [(0, some 1), (1, some 0), (2, some 0)] := by
  obtain ⟨h01, h02⟩ := opposite_cosine
  have h10 : Metrics.sparseCosineSimilarity false [('a', 24), ('b', 7)] [('a', 3), ('b', 4)] = .ok (4 / 5 : ℝ) := by
    rw [← h01, cosine_two, cosine_two, mul_comm (0 + 24 ^ 2 + 7 ^ 2 : ℝ), mul_comm (24 : ℝ), mul_comm (7 : ℝ)]
  have h20 : Metrics.sparseCosineSimilarity false [('a', 30), ('b', 40)] [('a', 3), ('b', 4)] = .ok (1 : ℝ) := by
    rw [← h02, cosine_two, cosine_two, mul_comm (0 + 30 ^ 2 + 40 ^ 2 : ℝ), mul_comm (30 : ℝ), mul_comm (40 : ℝ)]
  have hz : opposite.zipIdx = [([('a', 3), ('b', 4)], 0), ([('a', 24), ('b', 7)], 1), ([('a', 30), ('b', 40)], 2)] := rfl
  have e0 : opposite[0]? = some [('a', 3), ('b', 4)] := rfl
  have e1 : opposite[1]? = some [('a', 24), ('b', 7)] := rfl
  have e2 : opposite[2]? = some [('a', 30), ('b', 40)] := rfl
  rw [thresholdAlgorithmK1, hz]
  simp [Dict.keys, thresholdLoop, look, opposite_lists, cosineOf, cosineTo, e0, e1, e2, h01, h02, h10, h20, Dict.set, List.foldlM_cons, bind,
    Except.bind, pure, Except.pure]

/-! ### C78 -/

section sqrtIndexation

variable {F : Type} [Field F] [LinearOrder F] [IsStrictOrderedRing F]

/-- `x` is the first of the most similar elements of `l`. -/
def FirstBest (cs : Nat → F) (l : List Nat) (x : Nat) : Prop :=
  ∃ pre post, l = pre ++ x :: post ∧ (∀ y ∈ pre, cs y < cs x) ∧ ∀ y ∈ post, cs y ≤ cs x

theorem closest_some {similarity : Nat → Nat → Py F} {i : Nat} {cs : Nat → F} (leaders : List Nat)
    (hcs : ∀ x ∈ leaders, similarity i x = .ok (cs x)) (b : Nat) :
    ∃ x, closest similarity i leaders (some (1 - cs b, b)) = .ok x ∧ FirstBest cs (b :: leaders) x := by
  induction leaders generalizing b with
  | nil => exact ⟨b, rfl, [], [], rfl, by simp, by simp⟩
  | cons a leaders ih =>
      have ih := ih (fun x hx => hcs x (List.mem_cons_of_mem _ hx))
      rw [closest, hcs a List.mem_cons_self]
      simp only [Option.all_some, decide_eq_true_eq]
      by_cases h : 1 - cs a < 1 - cs b
      · rw [if_pos h]
        obtain ⟨x, hx, pre, post, hl, h1, h2⟩ := ih a
        refine ⟨x, hx, b :: pre, post, by rw [hl]; rfl, ?_, h2⟩
        have hba : cs b < cs a := by linarith
        intro y hy
        rcases List.mem_cons.1 hy with rfl | hy
        · cases pre with
          | nil => simp only [List.nil_append, List.cons.injEq] at hl; rw [← hl.1]; exact hba
          | cons p pre =>
              simp only [List.cons_append, List.cons.injEq] at hl
              have := h1 p List.mem_cons_self
              rw [← hl.1] at this
              exact lt_trans hba this
        · exact h1 y hy
      · rw [if_neg h]
        obtain ⟨x, hx, pre, post, hl, h1, h2⟩ := ih b
        have hab : cs a ≤ cs b := by linarith
        cases pre with
        | nil =>
            simp only [List.nil_append, List.cons.injEq] at hl
            obtain ⟨rfl, rfl⟩ := hl
            refine ⟨b, hx, [], a :: leaders, rfl, by simp, ?_⟩
            intro y hy
            rcases List.mem_cons.1 hy with rfl | hy
            · exact hab
            · exact h2 y hy
        | cons p pre =>
            simp only [List.cons_append, List.cons.injEq] at hl
            obtain ⟨rfl, rfl⟩ := hl
            refine ⟨x, hx, b :: a :: pre, post, rfl, ?_, h2⟩
            intro y hy
            rcases List.mem_cons.1 hy with rfl | hy
            · exact h1 y List.mem_cons_self
            · rcases List.mem_cons.1 hy with rfl | hy
              · exact lt_of_le_of_lt hab (h1 b List.mem_cons_self)
              · exact h1 y (List.mem_cons_of_mem _ hy)

theorem closest_spec {similarity : Nat → Nat → Py F} {i : Nat} {cs : Nat → F} {leaders : List Nat}
    (hcs : ∀ x ∈ leaders, similarity i x = .ok (cs x)) (hne : leaders ≠ []) :
    ∃ x, closest similarity i leaders none = .ok x ∧ FirstBest cs leaders x := by
  cases leaders with
  | nil => exact absurd rfl hne
  | cons a leaders =>
      rw [closest, hcs a List.mem_cons_self]
      exact closest_some leaders (fun x hx => hcs x (List.mem_cons_of_mem _ hx)) a

theorem leaderLoop_spec {similarity : Nat → Nat → Py F} {leaders : List Nat} {leader : Nat → Nat} (m k : Nat)
    (h : ∀ i, i < k + m → closest similarity i leaders none = .ok (leader i)) (proximities : Dict Nat (List Nat))
    (hp : ∀ l, (proximities.get? l).getD [] = (List.range k).filter fun j => decide (leader j = l)) :
    leaderLoop similarity leaders (List.range' k m) proximities = .ok ((List.range' k m).flatMap fun i =>
      (i, leader i) :: ((List.range i).filter fun j => decide (leader j = leader i)).map fun j => (i, j)) := by
  induction m generalizing k proximities with
  | zero => rfl
  | succ m ih =>
      rw [List.range'_succ, leaderLoop, h k (by omega)]
      simp only
      rw [ih (k + 1) (fun i hi => h i (by omega))]
      · simp only [hp, List.flatMap_cons]
      · intro l
        rw [Dict.get?_update, List.range_succ, List.filter_append]
        by_cases hl : leader k = l
        · simp [hl, hp]
        · simp [hl, hp]

/-- C78: `sqrt_indexation_pairs` yields, for each vector in order, the pair it forms with its leader, then those it forms with the previous
vectors which have the same leader. The leader is the first of the most similar ones. Missing: no pair is repeated nor made of a vector and
itself, which is false (see `sqrt_indexation_self_pair`). -/
theorem sqrt_indexation_pairs_partial {vectors : List (Dict κ F)} {indices : List Nat} (hi : indices.Perm (List.range vectors.length))
    {similarity : Nat → Nat → Py F} {cs : Nat → Nat → F}
    (hcs : ∀ i j, i < vectors.length → j < vectors.length → similarity i j = .ok (cs i j)) :
    ∃ leader : Nat → Nat, (∀ i, i < vectors.length → FirstBest (cs i) (indices.take vectors.length.sqrt) (leader i)) ∧
      sqrtIndexationPairs similarity indices vectors = .ok ((List.range vectors.length).flatMap fun i =>
        (i, leader i) :: ((List.range i).filter fun j => decide (leader j = leader i)).map fun j => (i, j)) := by
  have hleader : ∀ i, ∃ x, i < vectors.length → closest similarity i (indices.take vectors.length.sqrt) none = .ok x ∧
      FirstBest (cs i) (indices.take vectors.length.sqrt) x := by
    intro i
    by_cases h : i < vectors.length
    · have hpos : 0 < vectors.length.sqrt := Nat.sqrt_pos.2 (by omega)
      obtain ⟨x, hx⟩ := closest_spec (similarity := similarity) (i := i) (cs := cs i) (leaders := indices.take vectors.length.sqrt) (by
        intro x hx
        have : x ∈ List.range vectors.length := hi.mem_iff.1 ((List.take_sublist _ _).subset hx)
        exact hcs i x h (List.mem_range.1 this)) (by
        have := hi.length_eq
        rw [List.length_range] at this
        intro hc
        have := congrArg List.length hc
        simp only [List.length_take, List.length_nil] at this
        omega)
      exact ⟨x, fun _ => hx⟩
    · exact ⟨0, fun h' => absurd h' h⟩
  choose leader hl using hleader
  refine ⟨leader, fun i h => (hl i h).2, ?_⟩
  have := leaderLoop_spec (similarity := similarity) (leaders := indices.take vectors.length.sqrt) (leader := leader) vectors.length 0
    (fun i h => (hl i (by omega)).1) [] (by simp [Dict.get?])
  rw [sqrtIndexationPairs, List.range_eq_range']
  exact this

/-- The first leader always forms a pair with itself. -/
theorem sqrt_indexation_self_pair {vectors : List (Dict κ F)} {indices : List Nat} (hi : indices.Perm (List.range vectors.length))
    {similarity : Nat → Nat → Py F} {cs : Nat → Nat → F}
    (hcs : ∀ i j, i < vectors.length → j < vectors.length → similarity i j = .ok (cs i j)) (h1 : ∀ i j, cs i j ≤ cs i i) {l : Nat}
    (hl : indices.head? = some l) : ∃ out, sqrtIndexationPairs similarity indices vectors = .ok out ∧ (l, l) ∈ out := by
  obtain ⟨leader, hlead, hout⟩ := sqrt_indexation_pairs_partial hi hcs
  refine ⟨_, hout, ?_⟩
  cases indices with
  | nil => simp at hl
  | cons a indices =>
      simp only [List.head?_cons, Option.some.injEq] at hl
      subst hl
      have hlt : a < vectors.length := List.mem_range.1 (hi.mem_iff.1 List.mem_cons_self)
      have hpos : 0 < vectors.length.sqrt := Nat.sqrt_pos.2 (by omega)
      obtain ⟨pre, post, hsplit, hpre, _⟩ := hlead a hlt
      have ha : leader a = a := by
        cases pre with
        | nil =>
            cases hs : vectors.length.sqrt with
            | zero => omega
            | succ n =>
                rw [hs, List.take_succ_cons, List.nil_append, List.cons.injEq] at hsplit
                exact hsplit.1.symm
        | cons p pre =>
            cases hs : vectors.length.sqrt with
            | zero => omega
            | succ n =>
                rw [hs, List.take_succ_cons, List.cons_append, List.cons.injEq] at hsplit
                have := hpre p List.mem_cons_self
                rw [← hsplit.1] at this
                exact absurd (h1 a (leader a)) (not_le.2 this)
      refine List.mem_flatMap.2 ⟨a, List.mem_range.2 hlt, ?_⟩
      rw [ha]
      exact List.mem_cons_self

/-- Four vectors, the leaders being the third and the second: the pair of the third and of its leader, itself, is yielded, and that of the
fourth and of the second is yielded twice. -/
example : sqrtIndexationPairs (F := ℚ) (fun i j => .ok (if i % 2 = j % 2 then 1 else 0)) [2, 1, 0, 3] ([[], [], [], []] : List (Dict Char ℚ)) =
    .ok [(0, 2), (1, 1), (2, 2), (2, 0), (3, 1), (3, 1)] := by
  decide +kernel

example : ([2, 1, 0, 3].Perm (List.range 4)) := by decide

end sqrtIndexation

end Fog.Props
