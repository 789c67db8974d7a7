import Verif.Spec.Positions
import Verif.Lemmas.Pairwise

/-!
# Connected components by union-find, and leaders
-/

namespace Fog.Pairwise

open Fog.ClusteringUtils Fog.Spec

variable {β : Type _}

theorem similarAt_iff (similarity : β → β → Bool) (keys : List β) (i j : Nat) :
    similarAt similarity keys i j = true ↔ ∃ a b, keys[i]? = some a ∧ keys[j]? = some b ∧ similarity a b = true := by
  unfold similarAt
  split
  · next A B h1 h2 => rw [h1, h2]; simp
  · next h =>
      constructor
      · intro h; simp at h
      · rintro ⟨a, b, h1, h2, _⟩; exact (h a b h1 h2).elim

/-- A list of pairs which are the similar positions in increasing order. -/
def Exact (similarity : β → β → Bool) (keys : List β) (pairs : List (Nat × Nat)) : Prop :=
  ∀ p q, (p, q) ∈ pairs ↔ p < q ∧ similarAt similarity keys p q = true

theorem Exact.linked {similarity : β → β → Bool} {keys : List β} {pairs : List (Nat × Nat)}
    (h : Exact similarity keys pairs) (a b : Nat) : Linked pairs a b ↔ SimilarPositions similarity keys a b := by
  unfold Linked SimilarPositions
  rw [h a b, h b a, similarAt_iff, similarAt_iff]

theorem Exact.lt {similarity : β → β → Bool} {keys : List β} {pairs : List (Nat × Nat)}
    (h : Exact similarity keys pairs) : ∀ p ∈ pairs, p.1 < keys.length ∧ p.2 < keys.length := by
  intro p hp
  exact similarAt_lt ((h p.1 p.2).mp hp).2

theorem SimilarPositions.symm {similarity : β → β → Bool} {keys : List β} (a b : Nat)
    (h : SimilarPositions similarity keys a b) : SimilarPositions similarity keys b a := Or.comm.mp h

/-! ### Union-find -/

/-- What is assumed of the union-find structure: after any sequence of unions of positions below `n`, it tells which
positions these unions connect. -/
structure UnionFind.Lawful {σ : Type _} (uf : UnionFind σ) : Prop where
  connected : ∀ (n : Nat) (ps : List (Nat × Nat)), (∀ p ∈ ps, p.1 < n ∧ p.2 < n) → ∀ a b, a < n → b < n →
    (uf.connected (ps.foldl (fun s p => uf.union s p.1 p.2) (uf.init n)) a b = true ↔ Connected (Linked ps) a b)
  components : ∀ (n : Nat) (ps : List (Nat × Nat)), (∀ p ∈ ps, p.1 < n ∧ p.2 < n) → ∀ min max,
    IsComponents (Linked ps) (fun a => a < n) (SizeBetween min max)
      (uf.components (ps.foldl (fun s p => uf.union s p.1 p.2) (uf.init n)) min max)

/-- A union-find structure made of the pairs and of the graph search: it shows that the assumption can be met. -/
def searchUnionFind : UnionFind (Nat × List (Nat × Nat)) where
  init n := (n, [])
  connected s a b :=
    match clustersFromPairs (fun _ l => l) (s.2 ++ (List.range s.1).map fun i => (i, i)) 0 none .connectedComponents
      false with
    | .ok cs => cs.any fun c => c.contains a && c.contains b
    | .error _ => false
  union s i j := (s.1, s.2 ++ [(i, j)])
  components s min max :=
    match clustersFromPairs (fun _ l => l) (s.2 ++ (List.range s.1).map fun i => (i, i)) min max .connectedComponents
      false with
    | .ok cs => cs
    | .error _ => []

theorem searchUnionFind_foldl (ps : List (Nat × Nat)) (s : Nat × List (Nat × Nat)) :
    ps.foldl (fun s p => searchUnionFind.union s p.1 p.2) s = (s.1, s.2 ++ ps) := by
  induction ps generalizing s with
  | nil => simp
  | cons p ps ih => rw [List.foldl_cons, ih]; simp [searchUnionFind]

theorem connected_selfpairs (n : Nat) (ps : List (Nat × Nat)) (a b : Nat) :
    Connected (Linked (ps ++ (List.range n).map fun i => (i, i))) a b ↔ Connected (Linked ps) a b := by
  constructor
  · intro h
    induction h with
    | refl => exact .refl _
    | @step a b c h _ ih =>
        have : Linked ps a b ∨ a = b := by
          simp only [Linked, List.mem_append, List.mem_map, Prod.mk.injEq] at h
          rcases h with (h | ⟨i, _, rfl, rfl⟩) | (h | ⟨i, _, rfl, rfl⟩)
          · exact Or.inl (Or.inl h)
          · exact Or.inr rfl
          · exact Or.inl (Or.inr h)
          · exact Or.inr rfl
        rcases this with h | rfl
        · exact .step h ih
        · exact ih
  · refine Connected.mono ?_
    rintro a b (h | h)
    · exact Or.inl (by simp [h])
    · exact Or.inr (by simp [h])

theorem searchUnionFind_lawful : searchUnionFind.Lawful := by
  have key : ∀ (n : Nat) (ps : List (Nat × Nat)), (∀ p ∈ ps, p.1 < n ∧ p.2 < n) → ∀ min max,
      ∃ cs, clustersFromPairs (fun _ l => l) (ps ++ (List.range n).map fun i => (i, i)) min max .connectedComponents
        false = .ok cs ∧ IsComponents (Linked ps) (fun a => a < n) (SizeBetween min max) cs := by
    intro n ps hps min max
    obtain ⟨cs, h1, h2⟩ := clustersFromPairs_components (ord := fun _ l => l) (fun _ _ _ => Iff.rfl)
      (ps ++ (List.range n).map fun i => (i, i)) min max false
    refine ⟨cs, h1, h2.congr (connected_selfpairs n ps) ?_ (fun _ => Iff.rfl)⟩
    intro a
    constructor
    · rintro ⟨b, h⟩
      simp only [Linked, List.mem_append, List.mem_map, Prod.mk.injEq, List.mem_range] at h
      rcases h with (h | ⟨i, h, rfl, rfl⟩) | (h | ⟨i, h, rfl, rfl⟩)
      · exact (hps _ h).1
      · exact h
      · exact (hps _ h).2
      · exact h
    · intro h
      exact ⟨a, Or.inl (by simp [h])⟩
  constructor
  · intro n ps hps a b ha hb
    obtain ⟨cs, h1, h2⟩ := key n ps hps 0 none
    rw [searchUnionFind_foldl]
    simp only [searchUnionFind, List.nil_append, h1]
    simp only [List.any_eq_true, Bool.and_eq_true, List.contains_iff_mem]
    constructor
    · rintro ⟨c, hc, h3, h4⟩
      obtain ⟨_, x, _, hx⟩ := h2.sound c hc
      exact ((hx.2 a).mp h3).symm (linked_symm ps) |>.trans ((hx.2 b).mp h4)
    · intro h
      -- the component of `a` exists as a list
      obtain ⟨cs', h3, h4⟩ := key n ps hps 0 none
      have hall : ∃ c ∈ cs, a ∈ c := by
        have hl : IsComponentOf (Linked ps) a (((List.range n).filter fun x =>
            decide (∃ c ∈ cs, a ∈ c ∧ x ∈ c))) ∨ True := Or.inr trivial
        exact Classical.byContradiction fun hno => by
          -- any listing of the component would do: take it from the graph search itself
          have hfin : ∃ l, IsComponentOf (Linked ps) a l := by
            refine ⟨(List.range n).filter (fun x => @decide (Connected (Linked ps) a x) (Classical.propDecidable _)),
              (List.nodup_range).filter _, fun x => ?_⟩
            simp only [List.mem_filter, List.mem_range, decide_eq_true_eq]
            refine ⟨fun h => h.2, fun h => ⟨?_, h⟩⟩
            exact Connected.mem_closed (V := fun x => x < n) (by
              rintro u v _ (h | h)
              · exact (hps _ h).2
              · exact (hps _ h).1) h ha
          obtain ⟨l, hl⟩ := hfin
          exact hno (h2.complete a ha l hl ⟨by omega, by simp⟩)
      obtain ⟨c, hc, hac⟩ := hall
      obtain ⟨_, x, _, hx⟩ := h2.sound c hc
      exact ⟨c, hc, hac, (hx.2 b).mpr (((hx.2 a).mp hac).trans h)⟩
  · intro n ps hps min max
    obtain ⟨cs, h1, h2⟩ := key n ps hps min max
    rw [searchUnionFind_foldl]
    simp only [searchUnionFind, List.nil_append, h1]
    exact h2

theorem connected_snoc_of_connected {ps : List (Nat × Nat)} {p : Nat × Nat} (h : Connected (Linked ps) p.1 p.2)
    (a b : Nat) : Connected (Linked (ps ++ [p])) a b ↔ Connected (Linked ps) a b := by
  constructor
  · intro hc
    induction hc with
    | refl => exact .refl _
    | @step a b c h1 _ ih =>
        have : Connected (Linked ps) a b := by
          simp only [Linked, List.mem_append, List.mem_singleton] at h1
          rcases h1 with (h1 | rfl) | (h1 | rfl)
          · exact Connected.single (Or.inl h1)
          · exact h
          · exact Connected.single (Or.inr h1)
          · exact h.symm (linked_symm ps)
        exact this.trans ih
  · refine Connected.mono ?_
    rintro a b (h | h)
    · exact Or.inl (by simp [h])
    · exact Or.inr (by simp [h])

theorem connected_append_congr {us ps qs : List (Nat × Nat)}
    (h : ∀ a b, Connected (Linked us) a b ↔ Connected (Linked ps) a b) (a b : Nat) :
    Connected (Linked (us ++ qs)) a b ↔ Connected (Linked (ps ++ qs)) a b := by
  have key : ∀ {us ps : List (Nat × Nat)}, (∀ a b, Connected (Linked us) a b → Connected (Linked ps) a b) →
      ∀ {a b}, Connected (Linked (us ++ qs)) a b → Connected (Linked (ps ++ qs)) a b := by
    intro us ps h a b hc
    induction hc with
    | refl => exact .refl _
    | @step a b c h1 _ ih =>
        have hmono : ∀ {a b}, Connected (Linked ps) a b → Connected (Linked (ps ++ qs)) a b := by
          intro a b
          refine Connected.mono ?_
          rintro a b (h | h)
          · exact Or.inl (by simp [h])
          · exact Or.inr (by simp [h])
        have : Connected (Linked (ps ++ qs)) a b := by
          simp only [Linked, List.mem_append] at h1
          rcases h1 with (h1 | h1) | (h1 | h1)
          · exact hmono (h a b (Connected.single (Or.inl h1)))
          · exact Connected.single (Or.inl (by simp [h1]))
          · exact hmono (h a b (Connected.single (Or.inr h1)))
          · exact Connected.single (Or.inr (by simp [h1]))
        exact this.trans ih
  exact ⟨key fun a b => (h a b).mp, key fun a b => (h a b).mpr⟩

/-- The serial loop makes unions which connect what the similar pairs connect. -/
theorem serial_fold {σ : Type _} {uf : UnionFind σ} (huf : uf.Lawful) {γ : Type _} (similarity : γ → γ → Bool)
    (keys : List γ) (n : Nat) (todo : List (Nat × Nat)) (htodo : ∀ p ∈ todo, p.1 < n ∧ p.2 < n)
    (us ps : List (Nat × Nat)) (hus : ∀ p ∈ us, p.1 < n ∧ p.2 < n)
    (h : ∀ a b, Connected (Linked us) a b ↔ Connected (Linked ps) a b) :
    ∃ vs, (∀ p ∈ vs, p.1 < n ∧ p.2 < n) ∧
      todo.foldl (fun sets p =>
        if uf.connected sets p.1 p.2 then sets
        else if similarAt similarity keys p.1 p.2 then uf.union sets p.1 p.2 else sets)
          (us.foldl (fun s p => uf.union s p.1 p.2) (uf.init n)) =
        vs.foldl (fun s p => uf.union s p.1 p.2) (uf.init n) ∧
      ∀ a b, Connected (Linked vs) a b ↔
        Connected (Linked (ps ++ todo.filter fun p => similarAt similarity keys p.1 p.2)) a b := by
  induction todo generalizing us ps with
  | nil => exact ⟨us, hus, rfl, by simpa using h⟩
  | cons p todo ih =>
      have hp := htodo p (by simp)
      have htodo' : ∀ q ∈ todo, q.1 < n ∧ q.2 < n := fun q hq => htodo q (by simp [hq])
      rw [List.foldl_cons]
      by_cases hc : uf.connected (us.foldl (fun s p => uf.union s p.1 p.2) (uf.init n)) p.1 p.2 = true
      · rw [if_pos hc]
        have hcon := (huf.connected n us hus p.1 p.2 hp.1 hp.2).mp hc
        by_cases hs : similarAt similarity keys p.1 p.2 = true
        · have h' : ∀ a b, Connected (Linked us) a b ↔ Connected (Linked (ps ++ [p])) a b := by
            intro a b
            rw [connected_snoc_of_connected ((h _ _).mp hcon)]
            exact h a b
          obtain ⟨vs, h1, h2, h3⟩ := ih htodo' us (ps ++ [p]) hus h'
          refine ⟨vs, h1, h2, ?_⟩
          intro a b
          rw [h3 a b, List.filter_cons, if_pos hs]
          simp
        · obtain ⟨vs, h1, h2, h3⟩ := ih htodo' us ps hus h
          refine ⟨vs, h1, h2, ?_⟩
          intro a b
          rw [h3 a b, List.filter_cons, if_neg hs]
      · rw [if_neg hc]
        by_cases hs : similarAt similarity keys p.1 p.2 = true
        · rw [if_pos hs]
          have hus' : ∀ q ∈ us ++ [p], q.1 < n ∧ q.2 < n := by
            intro q hq
            simp only [List.mem_append, List.mem_singleton] at hq
            rcases hq with hq | rfl
            · exact hus q hq
            · exact hp
          obtain ⟨vs, h1, h2, h3⟩ := ih htodo' (us ++ [p]) (ps ++ [p]) hus' (connected_append_congr h)
          refine ⟨vs, h1, ?_, ?_⟩
          · rw [← h2, List.foldl_append]; rfl
          · intro a b
            rw [h3 a b, List.filter_cons, if_pos hs]
            simp
        · rw [if_neg hs]
          obtain ⟨vs, h1, h2, h3⟩ := ih htodo' us ps hus h
          refine ⟨vs, h1, h2, ?_⟩
          intro a b
          rw [h3 a b, List.filter_cons, if_neg hs]

theorem parallelUnions_eq {σ : Type _} (uf : UnionFind σ) (n : Nat) (results : List (List (Nat × Nat))) :
    parallelUnions uf n results = results.flatten.foldl (fun s p => uf.union s p.1 p.2) (uf.init n) := by
  unfold parallelUnions
  generalize uf.init n = s
  induction results generalizing s with
  | nil => rfl
  | cons r rs ih => rw [List.foldl_cons, ih, List.flatten_cons, List.foldl_append]

/-! ### Leaders -/

theorem leaderLoop_none (similarity : β → β → Bool) (data : List β) (i : Nat) (js cluster visited : List Nat)
    (hjs : js.Nodup) :
    ∃ v, leaderLoop similarity data none i js cluster visited =
      .ok (if cluster = [] then
            (if js.filter (fun j => decide (j ∉ visited) && similarAt similarity data i j) = [] then []
              else i :: js.filter (fun j => decide (j ∉ visited) && similarAt similarity data i j))
          else cluster ++ js.filter (fun j => decide (j ∉ visited) && similarAt similarity data i j), v) ∧
      ∀ x, x ∈ v ↔ x ∈ visited ∨ x ∈ js.filter (fun j => decide (j ∉ visited) && similarAt similarity data i j) := by
  induction js generalizing cluster visited with
  | nil =>
      refine ⟨visited, ?_, by simp⟩
      simp [leaderLoop]
  | cons j js ih =>
      rw [List.nodup_cons] at hjs
      by_cases hj : j ∈ visited
      · obtain ⟨v, h1, h2⟩ := ih cluster visited hjs.2
        refine ⟨v, ?_, ?_⟩
        · rw [leaderLoop, if_pos hj, h1]; simp [List.filter_cons, hj]
        · intro x; rw [h2 x]; simp [List.filter_cons, hj]
      · by_cases hs : similarAt similarity data i j = true
        · obtain ⟨v, h1, h2⟩ := ih (if cluster = [] then [i, j] else cluster ++ [j]) (j :: visited) hjs.2
          have hf : js.filter (fun x => decide (x ∉ j :: visited) && similarAt similarity data i x) =
              js.filter (fun x => decide (x ∉ visited) && similarAt similarity data i x) := by
            apply List.filter_congr
            intro x hx
            have : x ≠ j := by rintro rfl; exact hjs.1 hx
            simp [this]
          rw [hf] at h1 h2
          refine ⟨v, ?_, ?_⟩
          · rw [leaderLoop, if_neg hj, if_pos hs]
            simp only [h1]
            by_cases hc : cluster = []
            · simp [hc, List.filter_cons, hj, hs]
            · simp [hc, List.filter_cons, hj, hs]
          · intro x
            rw [h2 x, List.filter_cons]
            simp [hj, hs]
            grind
        · obtain ⟨v, h1, h2⟩ := ih cluster visited hjs.2
          refine ⟨v, ?_, ?_⟩
          · rw [leaderLoop, if_neg hj, if_neg hs, h1]; simp [List.filter_cons, hs]
          · intro x; rw [h2 x]; simp [List.filter_cons, hs]

/-- With a maximum size, the inner loop raises or does the same. -/
theorem leaderLoop_some (similarity : β → β → Bool) (data : List β) (m i : Nat) (js cluster visited : List Nat) :
    leaderLoop similarity data (some m) i js cluster visited = .error .attributeError ∨
    (∃ c v, leaderLoop similarity data (some m) i js cluster visited = .ok (c, v) ∧
      leaderLoop similarity data none i js cluster visited = .ok (c, v) ∧ (cluster.length ≤ m → c.length ≤ m)) := by
  induction js generalizing cluster visited with
  | nil => exact Or.inr ⟨cluster, visited, rfl, rfl, id⟩
  | cons j js ih =>
      unfold leaderLoop
      by_cases hj : j ∈ visited
      · simp only [hj, if_true]; exact ih cluster visited
      · by_cases hs : similarAt similarity data i j = true
        · simp only [hj, if_false, hs, if_true]
          by_cases hm : (if cluster = [] then [i, j] else cluster ++ [j]).length > m
          · exact Or.inl (by rw [if_pos hm])
          · rw [if_neg hm]
            rcases ih (if cluster = [] then [i, j] else cluster ++ [j]) (j :: visited) with h | ⟨c, v, h1, h2, h3⟩
            · exact Or.inl h
            · exact Or.inr ⟨c, v, h1, h2, fun _ => h3 (by omega)⟩
        · simp only [hj, if_false, hs]; exact ih cluster visited

theorem leaderOuter_some (similarity : β → β → Bool) (data : List β) (min m : Nat) (is visited : List Nat) :
    leaderOuter similarity data min (some m) is visited = .error .attributeError ∨
    (∃ cs, leaderOuter similarity data min (some m) is visited = .ok cs ∧
      leaderOuter similarity data min none is visited = .ok cs ∧ ∀ c ∈ cs, c.length ≤ m) := by
  induction is generalizing visited with
  | nil => exact Or.inr ⟨[], rfl, rfl, by simp⟩
  | cons i is ih =>
      unfold leaderOuter
      by_cases hi : i ∈ visited
      · simp only [hi, if_true]; exact ih visited
      · simp only [hi, if_false]
        rcases leaderLoop_some similarity data m i (pyRange (i + 1) data.length) [] visited with h | ⟨c, v, h1, h2, h3⟩
        · left; rw [h]; rfl
        · rw [h1, h2]
          simp only [bind, Except.bind]
          rcases ih v with h | ⟨cs, h4, h5, h6⟩
          · left; rw [h]
          · rw [h4, h5]
            right
            by_cases hc : c ≠ [] ∧ c.length ≥ min
            · refine ⟨c :: cs, by simp [hc], by simp [hc], ?_⟩
              intro d hd
              simp only [List.mem_cons] at hd
              rcases hd with rfl | hd
              · exact h3 (by simp)
              · exact h6 d hd
            · exact ⟨cs, by simp only [if_neg hc], by simp only [if_neg hc], h6⟩

theorem leaderLoop_grows (similarity : β → β → Bool) (data : List β) (i : Nat) (js cluster visited : List Nat) :
    ∃ c v, leaderLoop similarity data none i js cluster visited = .ok (c, v) ∧ cluster.length ≤ c.length := by
  induction js generalizing cluster visited with
  | nil => exact ⟨cluster, visited, rfl, Nat.le_refl _⟩
  | cons j js ih =>
      unfold leaderLoop
      by_cases hj : j ∈ visited
      · simp only [hj, if_true]; exact ih cluster visited
      · by_cases hs : similarAt similarity data i j = true
        · simp only [hj, if_false, hs, if_true]
          obtain ⟨c, v, h1, h2⟩ := ih (if cluster = [] then [i, j] else cluster ++ [j]) (j :: visited)
          refine ⟨c, v, h1, Nat.le_trans ?_ h2⟩
          split
          · next h => simp [h]
          · simp
        · simp only [hj, if_false, hs]; exact ih cluster visited

/-- With a maximum size, the inner loop raises only when the cluster would be larger. -/
theorem leaderLoop_error (similarity : β → β → Bool) (data : List β) (m i : Nat) (js cluster visited : List Nat)
    (h : leaderLoop similarity data (some m) i js cluster visited = .error .attributeError) :
    ∃ c v, leaderLoop similarity data none i js cluster visited = .ok (c, v) ∧ m < c.length := by
  induction js generalizing cluster visited with
  | nil => simp [leaderLoop] at h
  | cons j js ih =>
      unfold leaderLoop at h ⊢
      by_cases hj : j ∈ visited
      · simp only [hj, if_true] at h ⊢; exact ih cluster visited h
      · by_cases hs : similarAt similarity data i j = true
        · simp only [hj, if_false, hs, if_true] at h ⊢
          by_cases hm : (if cluster = [] then [i, j] else cluster ++ [j]).length > m
          · obtain ⟨c, v, h1, h2⟩ := leaderLoop_grows similarity data i js (if cluster = [] then [i, j] else cluster ++ [j]) (j :: visited)
            exact ⟨c, v, h1, by omega⟩
          · rw [if_neg hm] at h
            exact ih _ _ h
        · simp only [hj, if_false, hs] at h ⊢; exact ih cluster visited h

/-- Without a maximum size, nothing is raised. -/
theorem leaderOuter_returns (similarity : β → β → Bool) (data : List β) (min : Nat) (is visited : List Nat) :
    ∃ cs, leaderOuter similarity data min none is visited = .ok cs := by
  induction is generalizing visited with
  | nil => exact ⟨[], rfl⟩
  | cons i is ih =>
      unfold leaderOuter
      by_cases hi : i ∈ visited
      · simp only [hi, if_true]; exact ih visited
      · simp only [hi, if_false]
        obtain ⟨c, v, h1, _⟩ := leaderLoop_grows similarity data i (pyRange (i + 1) data.length) [] visited
        obtain ⟨cs, h2⟩ := ih v
        rw [h1]
        simp only [bind, Except.bind]
        rw [h2]
        simp only
        split <;> exact ⟨_, rfl⟩

/-- With a maximum size, `pairwise_leader` raises exactly when a cluster would be larger, were it too small to be yielded. -/
theorem leaderOuter_error (similarity : β → β → Bool) (data : List β) (min m : Nat) (is visited : List Nat) :
    leaderOuter similarity data min (some m) is visited = .error .attributeError ↔
    ∃ cs, leaderOuter similarity data 0 none is visited = .ok cs ∧ ∃ c ∈ cs, m < c.length := by
  induction is generalizing visited with
  | nil => simp [leaderOuter]
  | cons i is ih =>
      unfold leaderOuter
      by_cases hi : i ∈ visited
      · simp only [hi, if_true]; exact ih visited
      · simp only [hi, if_false]
        rcases leaderLoop_some similarity data m i (pyRange (i + 1) data.length) [] visited with h | ⟨c, v, h1, h2, h3⟩
        · obtain ⟨c, v, h1, h2⟩ := leaderLoop_error _ _ _ _ _ _ _ h
          rw [h, h1]
          simp only [bind, Except.bind, true_iff]
          obtain ⟨cs, h4⟩ := leaderOuter_returns similarity data 0 is v
          rw [h4]
          have hc : c ≠ [] := by rintro rfl; simp at h2
          exact ⟨c :: cs, by simp [hc], c, by simp, h2⟩
        · rw [h1, h2]
          simp only [bind, Except.bind]
          have hih := ih v
          obtain ⟨cs, h4⟩ := leaderOuter_returns similarity data 0 is v
          rw [h4] at hih ⊢
          have hsmall : (∃ cs', (if c ≠ [] ∧ c.length ≥ 0 then Except.ok (c :: cs) else Except.ok cs : Py (List (List Nat))) = .ok cs' ∧
              ∃ d ∈ cs', m < d.length) ↔ ∃ cs', (Except.ok cs : Py (List (List Nat))) = .ok cs' ∧ ∃ d ∈ cs', m < d.length := by
            have := h3 (by simp)
            by_cases hc : c = []
            · simp [hc]
            · simp [hc]
              intro; omega
          rw [hsmall, ← hih]
          cases leaderOuter similarity data min (some m) is v with
          | error e => simp
          | ok cs' => simp only; split <;> simp

/-- The cluster led by `i`. -/
def ledBy (n : Nat) (lead : Nat → Option Nat) (i : Nat) : List Nat :=
  (List.range n).filter fun j => decide (lead j = some i)

theorem range_split (n i : Nat) (h : i ≤ n) : List.range n = List.range i ++ pyRange i n := by
  unfold pyRange
  rw [List.range_eq_range', List.range_eq_range', show n = i + (n - i) by omega, List.range'_append_1 |>.symm]
  simp

theorem leaderOuter_spec (similarity : β → β → Bool) (data : List β) (min : Nat) (lead : Nat → Option Nat)
    (hl : IsLeaderAssignment (fun i j => similarAt similarity data i j = true) data.length lead) (k : Nat)
    (hk : k ≤ data.length) (visited : List Nat)
    (hv : ∀ j, j < data.length → (j ∈ visited ↔ ∃ i, i < k ∧ lead j = some i)) :
    leaderOuter similarity data min none (pyRange k data.length) visited =
      .ok ((pyRange k data.length).filterMap fun i =>
        if lead i = none ∧ ledBy data.length lead i ≠ [] ∧ (i :: ledBy data.length lead i).length ≥ min
        then some (i :: ledBy data.length lead i) else none) := by
  induction hd : data.length - k generalizing k visited with
  | zero =>
      have : pyRange k data.length = [] := by unfold pyRange; rw [hd]; rfl
      rw [this]; rfl
  | succ d ih =>
      have hr : pyRange k data.length = k :: pyRange (k + 1) data.length := by
        unfold pyRange
        rw [hd, show data.length - (k + 1) = d by omega]; rfl
      rw [hr, leaderOuter, List.filterMap_cons]
      by_cases hki : k ∈ visited
      · rw [if_pos hki]
        obtain ⟨i, hi, hlead⟩ := (hv k (by omega)).mp hki
        have hne : ¬ lead k = none := by rw [hlead]; simp
        simp only [hne, false_and, if_false]
        refine ih (k + 1) (by omega) visited ?_ (by omega)
        intro j hj
        rw [hv j hj]
        constructor
        · rintro ⟨i, hi, h⟩; exact ⟨i, by omega, h⟩
        · rintro ⟨i, hi', h⟩
          rcases Nat.lt_or_ge i k with h1 | h1
          · exact ⟨i, h1, h⟩
          · obtain rfl : i = k := by omega
            exact absurd (hl.leads j hj i h).2.1 hne
      · rw [if_neg hki]
        have hnone : lead k = none := by
          cases hlk : lead k with
          | none => rfl
          | some i =>
              exact absurd ((hv k (by omega)).mpr ⟨i, (hl.leads k (by omega) i hlk).1, hlk⟩) hki
        -- the followers found by the inner loop
        have hf : (pyRange (k + 1) data.length).filter
            (fun j => decide (j ∉ visited) && similarAt similarity data k j) = ledBy data.length lead k := by
          unfold ledBy
          rw [range_split data.length (k + 1) (by omega), List.filter_append]
          have h0 : (List.range (k + 1)).filter (fun j => decide (lead j = some k)) = [] := by
            rw [List.filter_eq_nil_iff]
            intro j hj
            rw [List.mem_range] at hj
            simp only [decide_eq_true_eq]
            intro h
            have := (hl.leads j (by omega) k h).1
            omega
          rw [h0, List.nil_append]
          apply List.filter_congr
          intro j hj
          rw [mem_pyRange] at hj
          have hiff : (j ∉ visited ∧ similarAt similarity data k j = true) ↔ lead j = some k := by
            constructor
            · rintro ⟨h1, h2⟩
              cases hlj : lead j with
              | none => exact absurd h2 (hl.free j hj.2 hlj k (by omega) hnone)
              | some i =>
                  have h3 := hl.leads j hj.2 i hlj
                  rcases Nat.lt_trichotomy i k with h | h | h
                  · exact absurd ((hv j hj.2).mpr ⟨i, h, hlj⟩) h1
                  · rw [h]
                  · exact absurd h2 (h3.2.2.2 k h hnone)
            · intro h
              have h3 := hl.leads j hj.2 k h
              refine ⟨?_, h3.2.2.1⟩
              intro hjv
              obtain ⟨i, hi, h4⟩ := (hv j hj.2).mp hjv
              rw [h] at h4
              simp at h4
              omega
          rw [Bool.eq_iff_iff]
          simp only [Bool.and_eq_true, decide_eq_true_eq]
          exact hiff
        obtain ⟨v, h1, h2⟩ := leaderLoop_none similarity data k (pyRange (k + 1) data.length) [] visited
          (nodup_pyRange _ _)
        rw [hf] at h1 h2
        simp only [if_true] at h1
        rw [h1]
        have hrec := ih (k + 1) (by omega) v (by
          intro j hj
          rw [h2 j, hv j hj]
          have : j ∈ ledBy data.length lead k ↔ lead j = some k := by
            unfold ledBy; simp [hj]
          rw [this]
          constructor
          · rintro (⟨i, hi, h⟩ | h)
            · exact ⟨i, by omega, h⟩
            · exact ⟨k, by omega, h⟩
          · rintro ⟨i, hi, h⟩
            rcases Nat.lt_or_ge i k with h3 | h3
            · exact Or.inl ⟨i, h3, h⟩
            · obtain rfl : i = k := by omega
              exact Or.inr h) (by omega)
        simp only [bind, Except.bind, hrec, hnone, true_and]
        by_cases hE : ledBy data.length lead k = []
        · simp [hE]
        · by_cases hm : (k :: ledBy data.length lead k).length ≥ min
          · simp only [hE, hm, if_false, ne_eq, not_false_eq_true, and_self, reduceCtorEq, if_true]
          · simp only [hE, hm, if_false, ne_eq, not_false_eq_true, and_false]

/-- The leaders of the positions below `n`: shows that a leader assignment exists for every similarity. -/
def leaders (similar : Nat → Nat → Bool) : Nat → List (Option Nat)
  | 0 => []
  | n + 1 =>
      leaders similar n ++ [(List.range n).find? fun i => decide ((leaders similar n)[i]? = some none) && similar i n]

theorem leaders_length (similar : Nat → Nat → Bool) (n : Nat) : (leaders similar n).length = n := by
  induction n with
  | zero => rfl
  | succ n ih => simp [leaders, ih]

theorem leaders_prefix (similar : Nat → Nat → Bool) (n i d : Nat) (h : i < n) :
    (leaders similar (n + d))[i]? = (leaders similar n)[i]? := by
  induction d with
  | zero => rfl
  | succ d ih =>
      rw [← ih, show n + (d + 1) = (n + d) + 1 by omega, leaders, List.getElem?_append_left]
      rw [leaders_length]; omega

def leaderOf (similar : Nat → Nat → Bool) (j : Nat) : Option Nat := ((leaders similar (j + 1))[j]?).join

theorem leaders_get (similar : Nat → Nat → Bool) (n i : Nat) (h : i < n) :
    (leaders similar n)[i]? = some (leaderOf similar i) := by
  obtain ⟨d, rfl⟩ : ∃ d, n = i + 1 + d := ⟨n - (i + 1), by omega⟩
  rw [leaders_prefix similar (i + 1) i d (by omega)]
  unfold leaderOf
  have : i < (leaders similar (i + 1)).length := by rw [leaders_length]; omega
  rw [List.getElem?_eq_getElem this]; rfl

theorem leaderOf_eq (similar : Nat → Nat → Bool) (j : Nat) :
    leaderOf similar j = (List.range j).find? fun i => (leaderOf similar i).isNone && similar i j := by
  have h := leaders_get similar (j + 1) j (by omega)
  rw [leaders, List.getElem?_append_right (by rw [leaders_length]; omega), leaders_length, Nat.sub_self] at h
  simp only [List.getElem?_cons_zero, Option.some.injEq] at h
  rw [← h]
  have gen : ∀ (l : List Nat), (∀ i ∈ l, i < j) →
      l.find? (fun i => decide ((leaders similar j)[i]? = some none) && similar i j) =
      l.find? fun i => (leaderOf similar i).isNone && similar i j := by
    intro l hl
    induction l with
    | nil => rfl
    | cons i l ih =>
        have : decide ((leaders similar j)[i]? = some none) = (leaderOf similar i).isNone := by
          rw [leaders_get similar j i (hl i (by simp))]
          cases leaderOf similar i <;> simp
        rw [List.find?_cons, List.find?_cons, this, ih fun i hi => hl i (by simp [hi])]
  exact gen _ fun i hi => List.mem_range.mp hi

theorem leaderOf_spec (similar : Nat → Nat → Bool) (n : Nat) :
    IsLeaderAssignment (fun i j => similar i j = true) n (leaderOf similar) := by
  constructor
  · intro j _ i h
    rw [leaderOf_eq, List.find?_range_eq_some] at h
    simp only [Bool.and_eq_true, Option.isNone_iff_eq_none, List.mem_range, Bool.not_eq_true'] at h
    obtain ⟨⟨h1, h2⟩, h3, h4⟩ := h
    refine ⟨h3, h1, h2, ?_⟩
    intro k hk hn hs
    have := h4 k hk
    simp [hn, hs] at this
  · intro j _ h i hi hn hs
    rw [leaderOf_eq, List.find?_eq_none] at h
    exact h i (List.mem_range.mpr hi) (by simp [hn, hs])

end Fog.Pairwise
