import Verif.Model.Pairwise
import Verif.Lemmas.FuzzyClusters
import Verif.Lemmas.AlignPath

/-!
# Chunks and pairs of positions
-/

namespace Fog.Pairwise

open Fog.ClusteringUtils Fog.Spec

variable {β : Type _}

theorem flatMap_congr' {γ δ : Type _} {f g : γ → List δ} {l : List γ} (h : ∀ x ∈ l, f x = g x) :
    l.flatMap f = l.flatMap g := by
  induction l with
  | nil => rfl
  | cons x l ih =>
      rw [List.flatMap_cons, List.flatMap_cons, h x (by simp), ih fun y hy => h y (by simp [hy])]

theorem mem_pyRange {a b x : Nat} : x ∈ pyRange a b ↔ a ≤ x ∧ x < b := by
  unfold pyRange
  rw [List.mem_range'_1]; omega

theorem nodup_pyRange (a b : Nat) : (pyRange a b).Nodup := List.nodup_range'

theorem getElem?_slice (s : List β) (i j k : Nat) (h : i + k < j) : (slice s i j)[k]? = s[i + k]? := by
  unfold slice
  rw [List.getElem?_drop, List.getElem?_take]
  simp [h]

theorem length_slice (s : List β) (i j : Nat) : (slice s i j).length = min j s.length - i := by
  unfold slice; simp

theorem similarAt_lt {similarity : β → β → Bool} {keys : List β} {i j : Nat} (h : similarAt similarity keys i j = true) :
    i < keys.length ∧ j < keys.length := by
  unfold similarAt at h
  constructor
  · apply Decidable.byContradiction
    intro hi
    rw [List.getElem?_eq_none (by omega)] at h
    simp at h
  · apply Decidable.byContradiction
    intro hj
    rw [List.getElem?_eq_none (l := keys) (i := j) (by omega)] at h
    split at h <;> simp_all

/-- The chunk in row `i` and column `j` of the triangle. -/
def chunkAt (data : List β) (cs i j : Nat) : Chunk β :=
  { I := slice data (i * cs) (i * cs + cs)
    J := if i * cs ≠ j * cs then slice data (j * cs) (j * cs + cs) else []
    i_offset := i * cs
    j_offset := j * cs }

theorem chunks_eq (data : List β) (cs : Nat) (h : 0 < cs) :
    upperTriangularMatrixChunkIter data cs = .ok ((List.range ((data.length + cs - 1) / cs)).flatMap fun j =>
      (List.range (j + 1)).map fun i => chunkAt data cs i j) := by
  unfold upperTriangularMatrixChunkIter
  rw [if_neg (by omega)]
  simp only [Except.ok.injEq]
  apply flatMap_congr'
  intro j hj
  rw [List.mem_range] at hj
  rw [Nat.min_eq_left (by omega)]
  rfl

theorem mem_worker (similarity : β → β → Bool) (data : List β) (cs i j : Nat) (h : 0 < cs) (hij : i ≤ j) (p q : Nat) :
    (p, q) ∈ pairwiseWorker similarity (chunkAt data cs i j) ↔
      p / cs = i ∧ q / cs = j ∧ p < q ∧ similarAt similarity data p q = true := by
  have hdiv : ∀ x k, x / cs = k ↔ k * cs ≤ x ∧ x < k * cs + cs := by
    intro x k
    rw [Nat.div_eq_iff (by omega)]
    omega
  have hmul : i * cs = j * cs ↔ i = j := by
    constructor
    · intro h2; exact Nat.eq_of_mul_eq_mul_right h h2
    · rintro rfl; rfl
  have hJ : (if i * cs = j * cs then slice data (i * cs) (i * cs + cs)
      else if i * cs ≠ j * cs then slice data (j * cs) (j * cs + cs) else []) = slice data (j * cs) (j * cs + cs) := by
    by_cases e : i * cs = j * cs
    · rw [if_pos e, e]
    · rw [if_neg e, if_pos e]
  unfold pairwiseWorker chunkAt
  simp only [hJ, List.mem_flatMap, List.mem_range, List.mem_filterMap, mem_pyRange, length_slice]
  constructor
  · rintro ⟨a, ha, b, ⟨hb1, hb2⟩, hm⟩
    rw [getElem?_slice _ _ _ _ (by omega), getElem?_slice _ _ _ _ (by omega)] at hm
    have hs : p = i * cs + a ∧ q = j * cs + b ∧ similarAt similarity data (i * cs + a) (j * cs + b) = true := by
      unfold similarAt
      split at hm
      · next A B e1 e2 =>
          split at hm
          · next e3 => simp at hm; exact ⟨hm.1.symm, hm.2.symm, e3⟩
          · simp at hm
      · simp at hm
    obtain ⟨rfl, rfl, hs⟩ := hs
    rw [hdiv, hdiv]
    refine ⟨by omega, by omega, ?_, hs⟩
    rcases Nat.lt_or_eq_of_le hij with hlt | rfl
    · have : i * cs + cs ≤ j * cs := by
        have := Nat.mul_le_mul_right cs hlt
        rw [Nat.succ_mul] at this; exact this
      omega
    · simp at hb1; omega
  · rintro ⟨h1, h2, h3, h4⟩
    rw [hdiv] at h1 h2
    have hlt := similarAt_lt h4
    refine ⟨p - i * cs, by omega, q - j * cs, ⟨?_, by omega⟩, ?_⟩
    · split
      · next e => omega
      · omega
    · rw [getElem?_slice _ _ _ _ (by omega), getElem?_slice _ _ _ _ (by omega)]
      rw [show i * cs + (p - i * cs) = p by omega, show j * cs + (q - j * cs) = q by omega]
      unfold similarAt at h4
      split at h4
      · simp [h4]
      · simp at h4

theorem nodup_filterMap_of_inj {γ δ : Type _} {f : γ → Option δ} {l : List γ} (hl : l.Nodup)
    (hf : ∀ a b c, f a = some c → f b = some c → a = b) : (l.filterMap f).Nodup := by
  induction l with
  | nil => simp
  | cons a l ih =>
      rw [List.nodup_cons] at hl
      rw [List.filterMap_cons]
      split
      · exact ih hl.2
      · next c hc =>
          rw [List.nodup_cons]
          refine ⟨?_, ih hl.2⟩
          intro hm
          rw [List.mem_filterMap] at hm
          obtain ⟨b, hb, hbc⟩ := hm
          exact hl.1 (hf a b c hc hbc ▸ hb)

/-- A `flatMap` has no repetition when its parts have none and can be told apart by `g`. -/
theorem nodup_flatMap_of {γ δ ε : Type _} {f : γ → List δ} {l : List γ} (hl : l.Nodup) (hf : ∀ a ∈ l, (f a).Nodup)
    (g : δ → ε) (k : γ → ε) (hk : ∀ a ∈ l, ∀ b ∈ l, k a = k b → a = b) (hg : ∀ a ∈ l, ∀ x ∈ f a, g x = k a) :
    (l.flatMap f).Nodup := by
  induction l with
  | nil => simp
  | cons a l ih =>
      rw [List.nodup_cons] at hl
      rw [List.flatMap_cons, List.nodup_append]
      refine ⟨hf a (by simp), ih hl.2 (fun b hb => hf b (by simp [hb]))
        (fun b hb c hc => hk b (by simp [hb]) c (by simp [hc])) (fun b hb => hg b (by simp [hb])), ?_⟩
      rintro x hx y hy rfl
      rw [List.mem_flatMap] at hy
      obtain ⟨b, hb, hxb⟩ := hy
      have h1 := hg a (by simp) x hx
      have h2 := hg b (by simp [hb]) x hxb
      have := hk a (by simp) b (by simp [hb]) (h1.symm.trans h2)
      exact hl.1 (this ▸ hb)

theorem nodup_worker (similarity : β → β → Bool) (c : Chunk β) : (pairwiseWorker similarity c).Nodup := by
  unfold pairwiseWorker
  have key : ∀ (J : List β) (i : Nat) (x : Nat × Nat) (lo : Nat),
      x ∈ (pyRange lo J.length).filterMap (fun j => match c.I[i]?, J[j]? with
        | some A, some B => if similarity A B then some (c.i_offset + i, c.j_offset + j) else none
        | _, _ => none) → x.1 = c.i_offset + i := by
    intro J i x lo hx
    rw [List.mem_filterMap] at hx
    obtain ⟨j, _, h⟩ := hx
    split at h
    · split at h
      · simp at h; rw [← h]
      · simp at h
    · simp at h
  refine nodup_flatMap_of List.nodup_range ?_ (fun x : Nat × Nat => x.1) (fun i => c.i_offset + i) ?_ ?_
  · intro i _
    refine nodup_filterMap_of_inj (nodup_pyRange _ _) ?_
    intro a b x ha hb
    have h1 : x.2 = c.j_offset + a := by
      split at ha
      · split at ha
        · simp at ha; rw [← ha]
        · simp at ha
      · simp at ha
    have h2 : x.2 = c.j_offset + b := by
      split at hb
      · split at hb
        · simp at hb; rw [← hb]
        · simp at hb
      · simp at hb
    omega
  · intro a _ b _ h; omega
  · intro i _ x hx; exact key _ i x _ hx

/-- The pairs of positions which are similar, as a relation. -/
theorem workers_spec (similarity : β → β → Bool) (data : List β) (cs : Nat) (h : 0 < cs) :
    ∃ results, workerResults similarity data cs = .ok results ∧ results.flatten.Nodup ∧
      ∀ p q, (p, q) ∈ results.flatten ↔ p < q ∧ similarAt similarity data p q = true := by
  unfold workerResults
  rw [chunks_eq data cs h]
  refine ⟨_, rfl, ?_, ?_⟩
  · rw [← List.flatMap_def, List.flatMap_assoc]
    refine nodup_flatMap_of List.nodup_range ?_ (fun x : Nat × Nat => x.2 / cs) (fun j => j) ?_ ?_
    · intro j _
      rw [List.flatMap_map]
      refine nodup_flatMap_of List.nodup_range ?_ (fun x : Nat × Nat => x.1 / cs) (fun i => i) ?_ ?_
      · intro i _; exact nodup_worker ..
      · intro a _ b _ h; exact h
      · intro i hi x hx
        rw [List.mem_range] at hi
        exact ((mem_worker similarity data cs i j h (by omega) x.1 x.2).mp hx).1
    · intro a _ b _ h; exact h
    · intro j _ x hx
      rw [List.flatMap_map, List.mem_flatMap] at hx
      obtain ⟨i, hi, hx⟩ := hx
      rw [List.mem_range] at hi
      exact ((mem_worker similarity data cs i j h (by omega) x.1 x.2).mp hx).2.1
  · intro p q
    rw [← List.flatMap_def, List.flatMap_assoc]
    simp only [List.mem_flatMap, List.flatMap_map, List.mem_range]
    constructor
    · rintro ⟨j, _, i, hi, hm⟩
      exact ((mem_worker similarity data cs i j h (by omega) p q).mp hm).2.2
    · rintro ⟨h1, h2⟩
      have hlt := similarAt_lt h2
      refine ⟨q / cs, ?_, p / cs, ?_, ?_⟩
      · rw [Nat.div_lt_iff_lt_mul h]
        have := Nat.div_add_mod (data.length + cs - 1) cs
        have := Nat.mod_lt (data.length + cs - 1) h
        rw [Nat.mul_comm]
        omega
      · have := Nat.div_le_div_right (c := cs) (Nat.le_of_lt h1)
        omega
      · rw [mem_worker similarity data cs _ _ h (Nat.div_le_div_right (Nat.le_of_lt h1))]
        exact ⟨rfl, rfl, h1, h2⟩

theorem mem_upperPairs (n p q : Nat) : (p, q) ∈ upperPairs n ↔ p < q ∧ q < n := by
  unfold upperPairs
  simp only [List.mem_flatMap, List.mem_range, List.mem_map, mem_pyRange, Prod.mk.injEq]
  constructor
  · rintro ⟨i, hi, j, hj, rfl, rfl⟩; omega
  · rintro ⟨h1, h2⟩; exact ⟨p, by omega, q, by omega, rfl, rfl⟩

theorem nodup_upperPairs (n : Nat) : (upperPairs n).Nodup := by
  unfold upperPairs
  refine nodup_flatMap_of List.nodup_range ?_ (fun x : Nat × Nat => x.1) (fun i => i) (fun _ _ _ _ h => h) ?_
  · intro i _
    rw [List.Nodup, List.pairwise_map]
    exact (nodup_pyRange (i + 1) n).imp (fun h e => h (by simpa using e))
  · intro i _ x hx
    rw [List.mem_map] at hx
    obtain ⟨j, _, rfl⟩ := hx
    rfl

theorem mem_serialPairs (similarity : β → β → Bool) (keys : List β) (p q : Nat) :
    (p, q) ∈ serialPairs similarity keys ↔ p < q ∧ similarAt similarity keys p q = true := by
  unfold serialPairs
  rw [List.mem_filter, mem_upperPairs]
  constructor
  · rintro ⟨h1, h2⟩; exact ⟨h1.1, h2⟩
  · rintro ⟨h1, h2⟩
    exact ⟨⟨h1, (similarAt_lt h2).2⟩, h2⟩

end Fog.Pairwise
