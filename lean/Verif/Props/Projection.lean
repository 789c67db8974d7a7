import Verif.Model.Projection
import Verif.Props.Sparsification
import Verif.Props.Metrics
import Verif.Spec.SetSimilarity

/-!
# C46: monopartite projections
-/

namespace Fog.Props

open GraphUtils Projection Spec Metrics

variable {α π : Type _} [LinearOrder α] [DecidableEq π]

/-! ### What the projection should be -/

/-- The neighbours of a node. -/
def nbrs (g : Graph α (Option ℝ)) (a : α) : Finset α := (Dict.keys ((Dict.get? g a).getD [])).toFinset

/-- The weight of the edge between two nodes: one if not given, zero if there is no edge. -/
def weightTo (g : Graph α (Option ℝ)) (a b : α) : ℝ :=
  match dataOf g a b with
  | none => 0
  | some d => d.getD 1

/-- The similarity of two nodes. -/
noncomputable def nodeSimilarity (g : Graph α (Option ℝ)) : Metric → α → α → ℝ
  | .cosine, a, b => Spec.cosine (nbrs g a ∪ nbrs g b) (weightTo g a) (weightTo g b)
  | .jaccard, a, b => (Spec.jaccard (nbrs g a) (nbrs g b) : ℚ)
  | .overlap, a, b => (Spec.overlap (nbrs g a) (nbrs g b) : ℚ)
  | .dice, a, b => (Spec.dice (nbrs g a) (nbrs g b) : ℚ)
  | .binaryCosine, a, b => Spec.binaryCosine (nbrs g a) (nbrs g b)
  | .shared, a, b => ((nbrs g a ∩ nbrs g b).card : ℝ)

/-- The edges of the projection: two nodes of the part whose similarity is not zero and not under the threshold. -/
def Projected (g : Graph α (Option ℝ)) (part : α → Option π) (project : π) (metric : Metric) (threshold : Option ℝ) (a b : α) (w : ℝ) :
    Prop :=
  a ∈ g.keys ∧ b ∈ g.keys ∧ part a = some project ∧ part b = some project ∧ a ≠ b ∧ w = nodeSimilarity g metric a b ∧ w ≠ 0 ∧
    ∀ t, threshold = some t → t ≤ w

/-- A graph is the projection of another. -/
structure IsProjection (g : Graph α (Option ℝ)) (part : α → Option π) (project : π) (metric : Metric) (threshold : Option ℝ)
    (g' : Graph α ℝ) : Prop where
  undirected : Undirected g'
  nodes : g'.keys = g.keys.filter fun a => part a = some project
  edges : ∀ a b w, Edge g' a b w ↔ Projected g part project metric threshold a b w

/-! ### Vectors -/

theorem keys_vectorOf (g : Graph α (Option ℝ)) (a : α) : Dict.keys (vectorOf g a) = Dict.keys ((Dict.get? g a).getD []) := by
  unfold vectorOf Dict.keys
  rw [List.map_map]
  rfl

theorem nodup_vectorOf {g : Graph α (Option ℝ)} (hg : Undirected g) (a : α) : (Dict.keys (vectorOf g a)).Nodup := by
  rw [keys_vectorOf]
  cases h : Dict.get? g a with
  | none => simp [Dict.keys]
  | some row => exact hg.neighbors _ (Dict.mem_of_get? h)

theorem toFinset_vectorOf (g : Graph α (Option ℝ)) (a : α) : (Dict.keys (vectorOf g a)).toFinset = nbrs g a := by
  rw [keys_vectorOf]; rfl

theorem get?_map {κ ν μ : Type _} [DecidableEq κ] (f : ν → μ) (d : Dict κ ν) (k : κ) :
    Dict.get? (d.map fun e => (e.1, f e.2)) k = (Dict.get? d k).map f := by
  induction d with
  | nil => simp [Dict.get?]
  | cons x d ih =>
      rw [List.map_cons, Dict.get?, Dict.get?]
      split
      · rfl
      · exact ih

theorem weight_vectorOf (g : Graph α (Option ℝ)) (a : α) : weight (vectorOf g a) = weightTo g a := by
  funext b
  unfold weight weightTo vectorOf dataOf
  rw [get?_map (fun o : Option ℝ => o.getD 1)]
  cases Dict.get? ((Dict.get? g a).getD []) b <;> rfl

theorem mem_nbrs {g : Graph α (Option ℝ)} (hg : Undirected g) (a b : α) : b ∈ nbrs g a ↔ ∃ d, Edge g a b d := by
  unfold nbrs
  rw [List.mem_toFinset, Dict.mem_keys_iff]
  simp only [edge_iff hg.nodes hg.neighbors]
  rfl

theorem weightTo_eq_zero {g : Graph α (Option ℝ)} {a b : α} (h : b ∉ nbrs g a) : weightTo g a b = 0 := by
  rw [← weight_vectorOf]
  exact weight_of_not_mem (by rw [← List.mem_toFinset, toFinset_vectorOf]; exact h)

/-- The norm of a node. -/
noncomputable def nodeNorm (g : Graph α (Option ℝ)) (metric : Metric) (a : α) : ℝ :=
  if metric = .cosine then Spec.norm (nbrs g a) (weightTo g a) else (nbrs g a).card

/-- A node whose vector is not zero. -/
def NonZero (g : Graph α (Option ℝ)) (metric : Metric) (a : α) : Prop :=
  ∃ b ∈ nbrs g a, metric = .cosine → weightTo g a b ≠ 0

theorem sizeOf_nonneg_iff {g : Graph α (Option ℝ)} (hg : Undirected g) (metric : Metric) (a : α) :
    sizeOf metric (vectorOf g a) > 0 ↔ NonZero g metric a := by
  unfold Projection.sizeOf NonZero
  by_cases hm : metric = .cosine
  · simp only [hm, if_true, forall_const]
    have h1 := sparse_norm_eq (nodup_vectorOf hg a) (S := nbrs g a) (by rw [toFinset_vectorOf])
    have h2 := norm_pos_iff' (nbrs g a) (weight (vectorOf g a))
    rw [← h1] at h2
    unfold sparseNorm at h2
    rw [Real.sqrt_pos] at h2
    rw [gt_iff_lt, h2, weight_vectorOf]
  · simp only [hm, if_false, false_implies, and_true]
    rw [← toFinset_vectorOf]
    unfold Dict.keys
    cases vectorOf g a with
    | nil => simp
    | cons x l =>
        simp only [List.length_cons, Nat.cast_add, Nat.cast_one, gt_iff_lt, List.map_cons, List.toFinset_cons]
        constructor
        · intro _; exact ⟨x.1, by simp⟩
        · intro _; positivity

theorem mem_vectorsOf {g : Graph α (Option ℝ)} (hg : Undirected g) (metric : Metric) (nodes : List α) (a : α) (norm1 : ℝ) (v : Dict α ℝ) :
    (a, norm1, v) ∈ vectorsOf metric g nodes ↔ a ∈ nodes ∧ NonZero g metric a ∧ norm1 = nodeNorm g metric a ∧ v = vectorOf g a := by
  unfold vectorsOf
  rw [List.mem_filterMap]
  have hN : ∀ x, (if metric = .cosine then Real.sqrt (sizeOf metric (vectorOf g x)) else sizeOf metric (vectorOf g x)) =
      nodeNorm g metric x := by
    intro x
    unfold nodeNorm Projection.sizeOf
    by_cases hm : metric = .cosine
    · simp only [hm, if_true]
      rw [← weight_vectorOf, ← sparse_norm_eq (nodup_vectorOf hg x) (S := nbrs g x) (by rw [toFinset_vectorOf])]
      rfl
    · simp only [hm, if_false]
      rw [← toFinset_vectorOf, List.toFinset_card_of_nodup (nodup_vectorOf hg x)]
      simp [Dict.keys]
  constructor
  · rintro ⟨x, hx, h⟩
    simp only at h
    split at h
    · next hs =>
        have hN := hN x
        split at h
        · next hm =>
            injection h with h
            injection h with h1 h2
            injection h2 with h2 h3
            subst h1 h2 h3
            rw [if_pos hm] at hN
            exact ⟨hx, (sizeOf_nonneg_iff hg _ _).mp hs, hN, rfl⟩
        · next hm =>
            injection h with h
            injection h with h1 h2
            injection h2 with h2 h3
            subst h1 h2 h3
            rw [if_neg hm] at hN
            exact ⟨hx, (sizeOf_nonneg_iff hg _ _).mp hs, hN, rfl⟩
    · cases h
  · rintro ⟨hx, hs, rfl, rfl⟩
    refine ⟨a, hx, ?_⟩
    simp only
    rw [if_pos ((sizeOf_nonneg_iff hg _ _).mpr hs), ← hN]
    split <;> rfl

theorem keys_vectorsOf (metric : Metric) (g : Graph α (Option ℝ)) {nodes : List α} (hn : nodes.Nodup) :
    (Dict.keys (vectorsOf metric g nodes)).Nodup := by
  have : List.Sublist (Dict.keys (vectorsOf metric g nodes)) nodes := by
    unfold vectorsOf Dict.keys
    induction nodes with
    | nil => simp
    | cons x nodes ih =>
        rw [List.nodup_cons] at hn
        rw [List.filterMap_cons]
        split
        · exact (ih hn.2).cons _
        · next y hy =>
            have : y.1 = x := by
              simp only at hy
              split at hy
              · split at hy <;> (injection hy with hy; rw [← hy])
              · cases hy
            rw [List.map_cons, this]
            exact (ih hn.2).cons_cons _
  exact hn.sublist this

/-! ### The metrics -/

theorem similarity_comm (g : Graph α (Option ℝ)) (metric : Metric) (a b : α) : nodeSimilarity g metric a b = nodeSimilarity g metric b a := by
  cases metric
  · simp only [nodeSimilarity, Spec.cosine, Finset.union_comm (nbrs g b)]
    congr 1
    · unfold dot
      exact Finset.sum_congr rfl fun k _ => mul_comm _ _
    · exact mul_comm _ _
  · simp only [nodeSimilarity, Spec.jaccard, Finset.union_comm (nbrs g b), Finset.inter_comm (nbrs g b)]
  · simp only [nodeSimilarity, Spec.overlap, Finset.inter_comm (nbrs g b), min_comm (nbrs g b).card]
  · simp only [nodeSimilarity, Spec.dice, Finset.inter_comm (nbrs g b), add_comm (nbrs g b).card]
  · simp only [nodeSimilarity, Spec.binaryCosine, Finset.inter_comm (nbrs g b), mul_comm ((nbrs g b).card : ℝ)]
  · simp only [nodeSimilarity, Finset.inter_comm (nbrs g b)]

theorem similarity_ne_zero {g : Graph α (Option ℝ)} {metric : Metric} {a b : α} (h : nodeSimilarity g metric a b ≠ 0) :
    ∃ c, c ∈ nbrs g a ∧ c ∈ nbrs g b ∧ (metric = .cosine → weightTo g a c ≠ 0 ∧ weightTo g b c ≠ 0) := by
  by_cases hm : metric = .cosine
  · subst hm
    simp only [nodeSimilarity, Spec.cosine] at h
    have hd : dot (nbrs g a ∪ nbrs g b) (weightTo g a) (weightTo g b) ≠ 0 := fun h0 => h (by rw [h0, zero_div])
    obtain ⟨c, _, hc⟩ := Finset.exists_ne_zero_of_sum_ne_zero hd
    have h1 : weightTo g a c ≠ 0 := left_ne_zero_of_mul hc
    have h2 : weightTo g b c ≠ 0 := right_ne_zero_of_mul hc
    exact ⟨c, by_contra fun hn => h1 (weightTo_eq_zero hn), by_contra fun hn => h2 (weightTo_eq_zero hn), fun _ => ⟨h1, h2⟩⟩
  · have hne : (nbrs g a ∩ nbrs g b).Nonempty := by
      rw [Finset.nonempty_iff_ne_empty]
      intro h0
      cases metric <;>
        simp [nodeSimilarity, Spec.jaccard, Spec.overlap, Spec.dice, Spec.binaryCosine, h0] at h hm
    obtain ⟨c, hc⟩ := hne
    rw [Finset.mem_inter] at hc
    exact ⟨c, hc.1, hc.2, fun h => absurd h hm⟩

theorem similarity_nonzero {g : Graph α (Option ℝ)} {metric : Metric} {a b : α} (h : nodeSimilarity g metric a b ≠ 0) :
    NonZero g metric a ∧ NonZero g metric b := by
  obtain ⟨c, h1, h2, h3⟩ := similarity_ne_zero h
  exact ⟨⟨c, h1, fun hm => (h3 hm).1⟩, ⟨c, h2, fun hm => (h3 hm).2⟩⟩

theorem computeMetric_eq {g : Graph α (Option ℝ)} (hg : Undirected g) {metric : Metric} {a b : α} (ha : NonZero g metric a)
    (hb : NonZero g metric b) :
    computeMetric metric (vectorOf g a) (vectorOf g b) (nodeNorm g metric a) (nodeNorm g metric b) =
      .ok (nodeSimilarity g metric a b) := by
  unfold computeMetric
  by_cases hm : metric = .cosine
  · subst hm
    have hpos : ∀ x, NonZero g .cosine x → 0 < Spec.norm (nbrs g x) (weightTo g x) := by
      intro x hx
      rw [norm_pos_iff']
      obtain ⟨c, hc, hw⟩ := hx
      exact ⟨c, hc, hw rfl⟩
    have hnorm : ∀ (x : α) (S : Finset α), nbrs g x ⊆ S → Spec.norm (nbrs g x) (weightTo g x) = Spec.norm S (weightTo g x) := by
      intro x S hS
      rw [← weight_vectorOf, ← sparse_norm_eq (nodup_vectorOf hg x) (by rw [toFinset_vectorOf]),
        ← sparse_norm_eq (nodup_vectorOf hg x) (by rw [toFinset_vectorOf]; exact hS)]
    simp only [if_true, sparse_dot_product_eq (nodup_vectorOf hg a) (nodup_vectorOf hg b), toFinset_vectorOf, weight_vectorOf,
      nodeSimilarity, nodeNorm]
    have hp := mul_pos (hpos a ha) (hpos b hb)
    unfold divide
    rw [if_neg (ne_of_gt hp), Spec.cosine, hnorm a _ Finset.subset_union_left, hnorm b _ Finset.subset_union_right]
    split
    · next h => rw [h, zero_div]
    · rfl
  · simp only [hm, if_false]
    rw [intersection_size_partial (by simp), toFinset_vectorOf, toFinset_vectorOf]
    have hca : 0 < (nbrs g a).card := by
      obtain ⟨c, hc, _⟩ := ha
      exact Finset.card_pos.mpr ⟨c, hc⟩
    have hcb : 0 < (nbrs g b).card := by
      obtain ⟨c, hc, _⟩ := hb
      exact Finset.card_pos.mpr ⟨c, hc⟩
    have hcaR : (0 : ℝ) < (nbrs g a).card := by exact_mod_cast hca
    have hcbR : (0 : ℝ) < (nbrs g b).card := by exact_mod_cast hcb
    have hunion : ((nbrs g a).card : ℝ) + (nbrs g b).card - ((nbrs g a ∩ nbrs g b).card : ℝ) = ((nbrs g a ∪ nbrs g b).card : ℝ) := by
      have := Finset.card_union_add_card_inter (nbrs g a) (nbrs g b)
      have : ((nbrs g a ∪ nbrs g b).card : ℝ) + ((nbrs g a ∩ nbrs g b).card : ℝ) = (nbrs g a).card + (nbrs g b).card := by
        exact_mod_cast this
      linarith
    have hupos : (0 : ℝ) < ((nbrs g a ∪ nbrs g b).card : ℝ) := by
      have : (nbrs g a).card ≤ (nbrs g a ∪ nbrs g b).card := Finset.card_le_card Finset.subset_union_left
      have : 0 < (nbrs g a ∪ nbrs g b).card := by omega
      exact_mod_cast this
    by_cases hw : ((nbrs g a ∩ nbrs g b).card : ℝ) = 0
    · rw [if_pos hw]
      have hw' : (nbrs g a ∩ nbrs g b).card = 0 := by exact_mod_cast hw
      cases metric <;> simp only [nodeSimilarity, Spec.jaccard, Spec.overlap, Spec.dice, Spec.binaryCosine, hw'] <;>
        first | exact absurd rfl hm | simp
    · rw [if_neg hw]
      cases metric with
      | cosine => exact absurd rfl hm
      | jaccard =>
          simp only [nodeNorm, hm, if_false, hunion, divide, ne_of_gt hupos, nodeSimilarity, Spec.jaccard]
          push_cast; rfl
      | dice =>
          have : ((nbrs g a).card : ℝ) + (nbrs g b).card ≠ 0 := by positivity
          simp only [nodeNorm, hm, if_false, divide, this, nodeSimilarity, Spec.dice]
          push_cast; rfl
      | overlap =>
          have : min ((nbrs g a).card : ℝ) (nbrs g b).card ≠ 0 := ne_of_gt (lt_min hcaR hcbR)
          simp only [nodeNorm, hm, if_false, divide, this, nodeSimilarity, Spec.overlap]
          push_cast; rfl
      | binaryCosine =>
          have : Real.sqrt (((nbrs g a).card : ℝ) * (nbrs g b).card) ≠ 0 := ne_of_gt (Real.sqrt_pos.mpr (mul_pos hcaR hcbR))
          simp only [nodeNorm, hm, if_false, divide, this, nodeSimilarity, Spec.binaryCosine]
      | shared => rfl

/-! ### Adding edges -/

theorem addEdge_spec {ω : Type _} {g : Graph α ω} (hg : Undirected g) {u v : α} (hu : u ∈ g.keys) (hv : v ∈ g.keys) (w : ω) :
    Undirected (addEdge g u v w) ∧ (addEdge g u v w).keys = g.keys ∧ ∀ a b x, Edge (addEdge g u v w) a b x ↔
      (((a = u ∧ b = v) ∨ (a = v ∧ b = u)) ∧ x = w) ∨ (¬ ((a = u ∧ b = v) ∨ (a = v ∧ b = u)) ∧ Edge g a b x) := by
  have hrow : ∀ (g : Graph α ω) (k : α), (∀ p ∈ g, (Dict.keys p.2).Nodup) → (Dict.keys ((Dict.get? g k).getD [])).Nodup := by
    intro g k h
    cases hk : Dict.get? g k with
    | none => simp [Dict.keys]
    | some row => exact h _ (Dict.mem_of_get? hk)
  have hset : ∀ (g : Graph α ω) (k b : α) (x : ω), (∀ p ∈ g, (Dict.keys p.2).Nodup) →
      ∀ p ∈ Dict.set g k (Dict.set ((Dict.get? g k).getD []) b x), (Dict.keys p.2).Nodup := by
    intro g k b x h p hp
    rcases mem_set hp with hp | hp
    · exact h p hp
    · rw [hp]; exact Dict.nodup_keys_set (hrow g k h) _ _
  have hdata : ∀ (g : Graph α ω) (k l : α) (x : ω) (a b : α), dataOf (Dict.set g k (Dict.set ((Dict.get? g k).getD []) l x)) a b =
      if a = k ∧ b = l then some x else dataOf g a b := by
    intro g k l x a b
    unfold dataOf
    rw [Dict.get?_set]
    by_cases ha : k = a
    · subst ha
      simp only [if_true, Option.getD_some, Dict.get?_set, true_and, eq_comm]
    · simp [ha, Ne.symm ha]
  have hn1 := Dict.nodup_keys_set hg.nodes u (Dict.set ((Dict.get? g u).getD []) v w)
  have hb1 := hset g u v w hg.neighbors
  have hn2 := Dict.nodup_keys_set hn1 v
    (Dict.set ((Dict.get? (Dict.set g u (Dict.set ((Dict.get? g u).getD []) v w)) v).getD []) u w)
  have hb2 := hset _ v u w hb1
  have hd : ∀ a b, dataOf (addEdge g u v w) a b = if (a = u ∧ b = v) ∨ (a = v ∧ b = u) then some w else dataOf g a b := by
    intro a b
    unfold addEdge
    simp only [hdata]
    by_cases h1 : a = v ∧ b = u <;> by_cases h2 : a = u ∧ b = v <;> simp [h1, h2]
  have hall : ∀ a b x, Edge (addEdge g u v w) a b x ↔
      (((a = u ∧ b = v) ∨ (a = v ∧ b = u)) ∧ x = w) ∨ (¬ ((a = u ∧ b = v) ∨ (a = v ∧ b = u)) ∧ Edge g a b x) := by
    intro a b x
    have h0 : Edge (addEdge g u v w) a b x ↔ dataOf (addEdge g u v w) a b = some x := edge_iff hn2 hb2 a b x
    rw [h0, edge_iff hg.nodes hg.neighbors]
    rw [hd]
    split
    · next h =>
        constructor
        · intro e; injection e with e; exact Or.inl ⟨h, e.symm⟩
        · rintro (⟨_, e⟩ | ⟨e, _⟩)
          · rw [e]
          · exact absurd h e
    · next h => simp [h]
  refine ⟨⟨hn2, hb2, ?_⟩, ?_, hall⟩
  · intro a b x h
    change Edge (addEdge g u v w) a b x at h
    change Edge (addEdge g u v w) b a x
    rw [hall] at h ⊢
    rcases h with ⟨h, hx⟩ | ⟨h, hx⟩
    · left
      refine ⟨?_, hx⟩
      rcases h with h | h
      · exact Or.inr ⟨h.2, h.1⟩
      · exact Or.inl ⟨h.2, h.1⟩
    · right
      refine ⟨?_, hg.symm _ _ _ hx⟩
      rintro (h' | h')
      · exact h (Or.inr ⟨h'.2, h'.1⟩)
      · exact h (Or.inl ⟨h'.2, h'.1⟩)
  · unfold addEdge
    simp only
    rw [keys_set_of_mem (by rw [keys_set_of_mem hu]; exact hv), keys_set_of_mem hu]

theorem hasEdge_iff {ω : Type _} {g : Graph α ω} (hg : Undirected g) (u v : α) : hasEdge g u v = true ↔ ∃ w, Edge g u v w := by
  simp only [edge_iff hg.nodes hg.neighbors]
  unfold hasEdge dataOf
  rw [Option.isSome_iff_exists]

/-- A loop which keeps an invariant, grows and reaches a goal for each item. -/
theorem foldlM_reaches {σ ι : Type _} (f : σ → ι → Py σ) (P : σ → Prop) (le : σ → σ → Prop) (Q : ι → σ → Prop) (hrefl : ∀ s, le s s)
    (htrans : ∀ s s' s'', le s s' → le s' s'' → le s s'') (hQ : ∀ x s s', Q x s → le s s' → Q x s') :
    ∀ (l : List ι) (s : σ), P s → (∀ x ∈ l, ∀ s, P s → ∃ s', f s x = .ok s' ∧ P s' ∧ le s s' ∧ Q x s') →
    ∃ s', l.foldlM f s = .ok s' ∧ P s' ∧ le s s' ∧ ∀ x ∈ l, Q x s' := by
  intro l
  induction l with
  | nil => intro s hs _; exact ⟨s, rfl, hs, hrefl s, by simp⟩
  | cons x l ih =>
      intro s hs hstep
      obtain ⟨s1, e1, p1, l1, q1⟩ := hstep x (by simp) s hs
      obtain ⟨s2, e2, p2, l2, q2⟩ := ih s1 p1 (fun y hy => hstep y (by simp [hy]))
      refine ⟨s2, ?_, p2, htrans _ _ _ l1 l2, ?_⟩
      · rw [List.foldlM_cons, e1]; exact e2
      · intro y hy
        rcases List.mem_cons.mp hy with rfl | hy
        · exact hQ _ _ _ q1 l2
        · exact q2 y hy

/-! ### Both versions -/

/-- The invariant of both versions: what was built is part of the projection. -/
structure Partial (g : Graph α (Option ℝ)) (part : α → Option π) (project : π) (metric : Metric) (threshold : Option ℝ)
    (g' : Graph α ℝ) : Prop where
  undirected : Undirected g'
  nodes : g'.keys = g.keys.filter fun a => part a = some project
  edges : ∀ a b w, Edge g' a b w → Projected g part project metric threshold a b w

/-- More edges. -/
def Grows (g g' : Graph α ℝ) : Prop := ∀ a b w, Edge g a b w → Edge g' a b w

theorem projected_symm {g : Graph α (Option ℝ)} {part : α → Option π} {project : π} {metric : Metric} {threshold : Option ℝ} {a b : α}
    {w : ℝ} (h : Projected g part project metric threshold a b w) : Projected g part project metric threshold b a w := by
  obtain ⟨h1, h2, h3, h4, h5, h6, h7⟩ := h
  exact ⟨h2, h1, h4, h3, Ne.symm h5, by rw [similarity_comm]; exact h6, h7⟩

variable {g : Graph α (Option ℝ)} {part : α → Option π} {project : π} {metric : Metric} {threshold : Option ℝ}

theorem add_partial {g' : Graph α ℝ} (hP : Partial g part project metric threshold g') {u v : α} {w : ℝ}
    (h : Projected g part project metric threshold u v w) :
    Partial g part project metric threshold (addEdge g' u v w) ∧ Grows g' (addEdge g' u v w) ∧ Edge (addEdge g' u v w) u v w := by
  have hmem : ∀ a, a ∈ g.keys → part a = some project → a ∈ g'.keys := by
    intro a ha hp
    rw [hP.nodes, List.mem_filter]
    exact ⟨ha, decide_eq_true hp⟩
  obtain ⟨a1, a2, a3⟩ := addEdge_spec hP.undirected (hmem u h.1 h.2.2.1) (hmem v h.2.1 h.2.2.2.1) w
  refine ⟨⟨a1, a2.trans hP.nodes, ?_⟩, ?_, (a3 u v w).mpr (Or.inl ⟨Or.inl ⟨rfl, rfl⟩, rfl⟩)⟩
  · intro a b x hx
    rcases (a3 a b x).mp hx with ⟨⟨rfl, rfl⟩ | ⟨rfl, rfl⟩, rfl⟩ | ⟨_, hx⟩
    · exact h
    · exact projected_symm h
    · exact hP.edges a b x hx
  · intro a b x hx
    have hp := hP.edges a b x hx
    rw [a3]
    by_cases hab : (a = u ∧ b = v) ∨ (a = v ∧ b = u)
    · left
      refine ⟨hab, ?_⟩
      rcases hab with ⟨rfl, rfl⟩ | ⟨rfl, rfl⟩
      · rw [hp.2.2.2.2.2.1, h.2.2.2.2.2.1]
      · rw [hp.2.2.2.2.2.1, h.2.2.2.2.2.1, similarity_comm]
    · exact Or.inr ⟨hab, hx⟩

/-- The list of nodes of the part. -/
def partNodes (g : Graph α (Option ℝ)) (part : α → Option π) (project : π) : List α := g.keys.filter fun a => part a = some project

theorem mem_partNodes {a : α} : a ∈ partNodes g part project ↔ a ∈ g.keys ∧ part a = some project := by
  unfold partNodes
  rw [List.mem_filter, decide_eq_true_iff]

theorem initial_partial (hg : Undirected g) :
    Partial g part project metric threshold ((partNodes g part project).map fun node => (node, ([] : Dict α ℝ))) := by
  have hk : Dict.keys ((partNodes g part project).map fun node => (node, ([] : Dict α ℝ))) = partNodes g part project := by
    unfold Dict.keys
    rw [List.map_map]
    exact List.map_id _
  have hno : ∀ a b w, ¬ Edge ((partNodes g part project).map fun node => (node, ([] : Dict α ℝ))) a b w := by
    rintro a b w ⟨edges, h1, h2⟩
    obtain ⟨x, _, hx⟩ := List.mem_map.mp h1
    injection hx with _ hx
    rw [← hx] at h2
    simp at h2
  refine ⟨⟨by rw [hk]; exact hg.nodes.sublist List.filter_sublist, ?_, fun a b w h => absurd h (hno a b w)⟩, hk, fun a b w h => absurd h (hno a b w)⟩
  intro p hp
  obtain ⟨x, _, rfl⟩ := List.mem_map.mp hp
  simp [Dict.keys]

/-- The goal for a pair of nodes. -/
def Done (g : Graph α (Option ℝ)) (part : α → Option π) (project : π) (metric : Metric) (threshold : Option ℝ) (a b : α)
    (g' : Graph α ℝ) : Prop := ∀ w, Projected g part project metric threshold a b w → Edge g' a b w

theorem done_mono {a b : α} {s s' : Graph α ℝ} (h : Done g part project metric threshold a b s) (hl : Grows s s') :
    Done g part project metric threshold a b s' := fun w hw => hl _ _ _ (h w hw)

theorem quadratic_step (hg : Undirected g) {n1 n2 : α} {norm1 norm2 : ℝ} {v1 v2 : Dict α ℝ}
    (h1 : (n1, norm1, v1) ∈ vectorsOf metric g (partNodes g part project))
    (h2 : (n2, norm2, v2) ∈ vectorsOf metric g (partNodes g part project)) (hne : n1 ≠ n2) (s : Graph α ℝ)
    (hP : Partial g part project metric threshold s) :
    ∃ s', quadraticStep metric threshold n1 norm1 v1 s (n2, norm2, v2) = .ok s' ∧ Partial g part project metric threshold s' ∧
      Grows s s' ∧ Done g part project metric threshold n1 n2 s' := by
  obtain ⟨m1, nz1, rfl, rfl⟩ := (mem_vectorsOf hg ..).mp h1
  obtain ⟨m2, nz2, rfl, rfl⟩ := (mem_vectorsOf hg ..).mp h2
  rw [mem_partNodes] at m1 m2
  unfold quadraticStep
  simp only [computeMetric_eq hg nz1 nz2, bind, Except.bind]
  by_cases hw : nodeSimilarity g metric n1 n2 = 0
  · rw [if_pos hw]
    refine ⟨s, rfl, hP, fun _ _ _ h => h, ?_⟩
    rintro w ⟨_, _, _, _, _, rfl, h0, _⟩
    exact absurd hw h0
  · rw [if_neg hw]
    by_cases ht : ∀ t, threshold = some t → nodeSimilarity g metric n1 n2 ≥ t
    · rw [if_pos ht]
      have hp : Projected g part project metric threshold n1 n2 (nodeSimilarity g metric n1 n2) :=
        ⟨m1.1, m2.1, m1.2, m2.2, hne, rfl, hw, ht⟩
      obtain ⟨a1, a2, a3⟩ := add_partial hP hp
      refine ⟨_, rfl, a1, a2, ?_⟩
      rintro w ⟨_, _, _, _, _, rfl, _, _⟩
      exact a3
    · rw [if_neg ht]
      refine ⟨s, rfl, hP, fun _ _ _ h => h, ?_⟩
      rintro w ⟨_, _, _, _, _, rfl, _, ht'⟩
      exact absurd ht' ht

theorem quadratic_loop (hg : Undirected g) : ∀ (l : Dict α (ℝ × Dict α ℝ)) (s : Graph α ℝ),
    (∀ x ∈ l, x ∈ vectorsOf metric g (partNodes g part project)) → (Dict.keys l).Nodup → Partial g part project metric threshold s →
    ∃ s', quadratic metric threshold l s = .ok s' ∧ Partial g part project metric threshold s' ∧ Grows s s' ∧
      ∀ x y, [x, y].Sublist (Dict.keys l) → Done g part project metric threshold x y s' := by
  intro l
  induction l with
  | nil =>
      intro s _ _ hP
      refine ⟨s, rfl, hP, fun _ _ _ h => h, ?_⟩
      intro x y h
      simp [Dict.keys] at h
  | cons p l ih =>
      obtain ⟨n1, norm1, v1⟩ := p
      intro s hl hn hP
      simp only [Dict.keys, List.map_cons, List.nodup_cons] at hn
      obtain ⟨s1, e1, p1, l1, q1⟩ := foldlM_reaches (quadraticStep metric threshold n1 norm1 v1)
        (Partial g part project metric threshold) Grows (fun item => Done g part project metric threshold n1 item.1)
        (fun _ _ _ _ h => h) (fun _ _ _ h h' a b w hw => h' _ _ _ (h _ _ _ hw)) (fun _ _ _ => done_mono) l s hP (by
          rintro ⟨n2, norm2, v2⟩ hx s hs
          exact quadratic_step hg (hl _ (by simp)) (hl _ (by simp [hx])) (by
            rintro rfl
            exact hn.1 (List.mem_map.mpr ⟨_, hx, rfl⟩)) s hs)
      obtain ⟨s2, e2, p2, l2, q2⟩ := ih s1 (fun x hx => hl x (by simp [hx])) hn.2 p1
      refine ⟨s2, ?_, p2, fun a b w hw => l2 _ _ _ (l1 _ _ _ hw), ?_⟩
      · rw [quadratic]
        simp only [e1, bind, Except.bind]
        exact e2
      · intro x y h
        simp only [Dict.keys, List.map_cons] at h
        cases h with
        | cons _ h => exact q2 x y h
        | cons_cons _ h =>
            have hy : y ∈ l.map Prod.fst := by simpa using h
            obtain ⟨item, hi, rfl⟩ := List.mem_map.mp hy
            exact done_mono (q1 item hi) l2

theorem finish {s : Graph α ℝ} (hP : Partial g part project metric threshold s)
    (h : ∀ a b, NonZero g metric a → NonZero g metric b → a ∈ partNodes g part project → b ∈ partNodes g part project → a ≠ b →
      Done g part project metric threshold a b s ∨ Done g part project metric threshold b a s) :
    IsProjection g part project metric threshold s := by
  refine ⟨hP.undirected, hP.nodes, fun a b w => ⟨hP.edges a b w, ?_⟩⟩
  intro hp
  obtain ⟨h1, h2, h3, h4, h5, h6, h7, h8⟩ := id hp
  obtain ⟨n1, n2⟩ := similarity_nonzero (h6 ▸ h7)
  rcases h a b n1 n2 (mem_partNodes.mpr ⟨h1, h3⟩) (mem_partNodes.mpr ⟨h2, h4⟩) h5 with h | h
  · exact h w hp
  · exact hP.undirected.symm _ _ _ (h w (projected_symm hp))

theorem mem_keys_vectorsOf (hg : Undirected g) {a : α} (hz : NonZero g metric a) (ha : a ∈ partNodes g part project) :
    a ∈ Dict.keys (vectorsOf metric g (partNodes g part project)) :=
  List.mem_map.mpr ⟨_, (mem_vectorsOf hg ..).mpr ⟨ha, hz, rfl, rfl⟩, rfl⟩

theorem pair_sublist {β : Type _} {l : List β} {a b : β} (ha : a ∈ l) (hb : b ∈ l) (hne : a ≠ b) :
    [a, b].Sublist l ∨ [b, a].Sublist l := by
  induction l with
  | nil => simp at ha
  | cons x l ih =>
      rcases List.mem_cons.mp ha with rfl | ha' <;> rcases List.mem_cons.mp hb with rfl | hb'
      · exact absurd rfl hne
      · exact Or.inl (List.Sublist.cons_cons _ (by simpa using hb'))
      · exact Or.inr (List.Sublist.cons_cons _ (by simpa using ha'))
      · rcases ih ha' hb' with h | h
        · exact Or.inl (h.cons _)
        · exact Or.inr (h.cons _)

theorem quadratic_projection (hg : Undirected g) (threshold : Option ℝ) :
    ∃ s, quadratic metric threshold (vectorsOf metric g (partNodes g part project))
      ((partNodes g part project).map fun node => (node, [])) = .ok s ∧ IsProjection g part project metric threshold s := by
  have hnd : (partNodes g part project).Nodup := hg.nodes.sublist List.filter_sublist
  obtain ⟨s, h1, h2, _, h4⟩ := quadratic_loop (threshold := threshold) hg (vectorsOf metric g (partNodes g part project)) _
    (fun x hx => hx) (keys_vectorsOf metric g hnd) (initial_partial hg)
  refine ⟨s, h1, finish h2 ?_⟩
  intro a b za zb ha hb hab
  rcases pair_sublist (mem_keys_vectorsOf hg za ha) (mem_keys_vectorsOf hg zb hb) hab with h | h
  · exact Or.inl (h4 a b h)
  · exact Or.inr (h4 b a h)

theorem topology_step (hg : Undirected g) {n1 n2 : α} {norm1 : ℝ} {v1 : Dict α ℝ}
    (h1 : (n1, norm1, v1) ∈ vectorsOf metric g (partNodes g part project))
    (h2 : n2 ∈ partNodes g part project) (hz : NonZero g metric n2) (s : Graph α ℝ)
    (hP : Partial g part project metric threshold s) :
    ∃ s', topologyStep metric threshold (vectorsOf metric g (partNodes g part project)) n1 norm1 v1 s n2 = .ok s' ∧
      Partial g part project metric threshold s' ∧ Grows s s' ∧ (n1 < n2 → Done g part project metric threshold n1 n2 s') := by
  have hnd : (partNodes g part project).Nodup := hg.nodes.sublist List.filter_sublist
  obtain ⟨m1, nz1, rfl, rfl⟩ := (mem_vectorsOf hg ..).mp h1
  have hget := Dict.get?_of_mem (keys_vectorsOf metric g hnd) ((mem_vectorsOf hg metric (partNodes g part project) n2 _ _).mpr ⟨h2, hz, rfl, rfl⟩)
  unfold topologyStep
  by_cases hlt : n1 ≥ n2
  · rw [if_pos hlt]
    exact ⟨s, rfl, hP, fun _ _ _ h => h, fun h => absurd h (not_lt.mpr hlt)⟩
  rw [if_neg hlt]
  by_cases he : hasEdge s n1 n2 = true
  · rw [if_pos he]
    refine ⟨s, rfl, hP, fun _ _ _ h => h, fun _ => ?_⟩
    obtain ⟨w, hw⟩ := (hasEdge_iff hP.undirected n1 n2).mp he
    have hw' := (hP.edges _ _ _ hw).2.2.2.2.2.1
    rintro w' ⟨_, _, _, _, _, h, _, _⟩
    rw [h, ← hw']
    exact hw
  rw [if_neg he]
  simp only [hget, computeMetric_eq hg nz1 hz, bind, Except.bind]
  rw [mem_partNodes] at m1 h2
  by_cases hw : nodeSimilarity g metric n1 n2 = 0
  · rw [if_pos hw]
    refine ⟨s, rfl, hP, fun _ _ _ h => h, fun _ => ?_⟩
    rintro w ⟨_, _, _, _, _, rfl, h0, _⟩
    exact absurd hw h0
  · rw [if_neg hw]
    by_cases ht : ∃ t, threshold = some t ∧ nodeSimilarity g metric n1 n2 < t
    · rw [if_pos ht]
      refine ⟨s, rfl, hP, fun _ _ _ h => h, fun _ => ?_⟩
      rintro w ⟨_, _, _, _, _, rfl, _, ht'⟩
      obtain ⟨t, ht1, ht2⟩ := ht
      exact absurd ht2 (not_lt.mpr (ht' t ht1))
    · rw [if_neg ht]
      have hp : Projected g part project metric threshold n1 n2 (nodeSimilarity g metric n1 n2) :=
        ⟨m1.1, h2.1, m1.2, h2.2, ne_of_lt (not_le.mp hlt), rfl, hw, fun t h => not_lt.mp fun h' => ht ⟨t, h, h'⟩⟩
      obtain ⟨a1, a2, a3⟩ := add_partial hP hp
      refine ⟨_, rfl, a1, a2, fun _ => ?_⟩
      rintro w ⟨_, _, _, _, _, rfl, _, _⟩
      exact a3

/-- What the topology version needs: the greater nodes at distance two of a node of the part whose vector is not zero are in the part,
and their vectors are not zero. -/
def TwoSteps (g : Graph α (Option ℝ)) (part : α → Option π) (project : π) (metric : Metric) : Prop :=
  ∀ a np b, part a = some project → NonZero g metric a → a < b → np ∈ nbrs g a → b ∈ nbrs g np →
    part b = some project ∧ NonZero g metric b

theorem topology_projection (hg : Undirected g) (h2 : TwoSteps g part project metric) (threshold : Option ℝ) :
    ∃ s, topology metric threshold g (vectorsOf metric g (partNodes g part project))
      ((partNodes g part project).map fun node => (node, [])) = .ok s ∧ IsProjection g part project metric threshold s := by
  have hrefl : ∀ s : Graph α ℝ, Grows s s := fun _ _ _ _ h => h
  have htrans : ∀ s s' s'' : Graph α ℝ, Grows s s' → Grows s' s'' → Grows s s'' := fun _ _ _ h h' a b w hw => h' _ _ _ (h _ _ _ hw)
  obtain ⟨s, e, hP, _, q⟩ := foldlM_reaches (fun monopartite (item : α × ℝ × Dict α ℝ) =>
      (neighbors g item.1).foldlM (fun monopartite np =>
        (neighbors g np).foldlM (topologyStep metric threshold (vectorsOf metric g (partNodes g part project)) item.1 item.2.1 item.2.2)
          monopartite) monopartite)
    (Partial g part project metric threshold) Grows
    (fun item s => ∀ np ∈ neighbors g item.1, ∀ n2 ∈ neighbors g np, item.1 < n2 → Done g part project metric threshold item.1 n2 s)
    hrefl htrans (fun _ _ _ h hl np hnp n2 hn2 hlt => done_mono (h np hnp n2 hn2 hlt) hl)
    (vectorsOf metric g (partNodes g part project)) _ (initial_partial hg) (by
      rintro ⟨n1, norm1, v1⟩ hitem s hs
      apply foldlM_reaches _ (Partial g part project metric threshold) Grows
        (fun np s => ∀ n2 ∈ neighbors g np, n1 < n2 → Done g part project metric threshold n1 n2 s)
        hrefl htrans (fun _ _ _ h hl n2 hn2 hlt => done_mono (h n2 hn2 hlt) hl) _ s hs
      intro np hnp s hs
      apply foldlM_reaches _ (Partial g part project metric threshold) Grows
        (fun n2 s => n1 < n2 → Done g part project metric threshold n1 n2 s)
        hrefl htrans (fun _ _ _ h hl hlt => done_mono (h hlt) hl) _ s hs
      intro n2 hn2 s hs
      by_cases hlt : n1 < n2
      swap
      · refine ⟨s, ?_, hs, hrefl s, fun h => absurd h hlt⟩
        unfold topologyStep
        rw [if_pos (not_lt.mp hlt)]
      have hn1 := ((mem_vectorsOf hg ..).mp hitem).1
      have hnz1 := ((mem_vectorsOf hg ..).mp hitem).2.1
      have hnp' : np ∈ nbrs g n1 := List.mem_toFinset.mpr hnp
      have hn2' : n2 ∈ nbrs g np := List.mem_toFinset.mpr hn2
      obtain ⟨hpart, hz⟩ := h2 n1 np n2 (mem_partNodes.mp hn1).2 hnz1 hlt hnp' hn2'
      refine topology_step hg hitem (mem_partNodes.mpr ⟨?_, hpart⟩) hz s hs
      obtain ⟨d, hd⟩ := (mem_nbrs hg np n2).mp hn2'
      obtain ⟨edges, h1, _⟩ := hg.symm _ _ _ hd
      exact List.mem_map.mpr ⟨_, h1, rfl⟩)
  refine ⟨s, e, finish hP ?_⟩
  have key : ∀ a b, NonZero g metric a → a ∈ partNodes g part project → a < b → Done g part project metric threshold a b s := by
    intro a b za ha hlt w hp
    obtain ⟨c, h1, h2, _⟩ := similarity_ne_zero (hp.2.2.2.2.2.1 ▸ hp.2.2.2.2.2.2.1)
    have hbc : b ∈ nbrs g c := by
      rw [mem_nbrs hg] at h2 ⊢
      obtain ⟨d, hd⟩ := h2
      exact ⟨d, hg.symm _ _ _ hd⟩
    exact q (a, nodeNorm g metric a, vectorOf g a) ((mem_vectorsOf hg ..).mpr ⟨ha, za, rfl, rfl⟩) c (List.mem_toFinset.mp h1) b
      (List.mem_toFinset.mp hbc) hlt w hp
  intro a b za zb ha hb hab
  rcases lt_or_gt_of_ne hab with h | h
  · exact Or.inl (key a b za ha h)
  · exact Or.inr (key b a zb hb h)

/-! ### The function -/

/-- A graph with two parts: the ends of each edge have different parts, and edges have no third part. -/
structure Bipartite (g : Graph α (Option ℝ)) (part : α → Option π) : Prop where
  differ : ∀ a b d, Edge g a b d → part a ≠ part b
  two : ∃ p q, ∀ a b d, Edge g a b d → part a = some p ∨ part a = some q

theorem projected_eq (part : α → Option π) (project : π) (nodes : List α) (h : ∀ a ∈ nodes, (part a).isSome) :
    projected part project nodes = .ok (nodes.filter fun a => part a = some project) := by
  induction nodes with
  | nil => rfl
  | cons x nodes ih =>
      rw [projected]
      obtain ⟨p, hp⟩ := Option.isSome_iff_exists.mp (h x (by simp))
      simp only [hp, ih (fun a ha => h a (by simp [ha])), bind, Except.bind]
      by_cases hpp : p = project <;> simp [hp, hpp, pure, Except.pure]

theorem checkParts_ok (part : α → Option π) {p q : π} (hpq : p ≠ q) : ∀ (edges : List (α × α)) (parts : List π),
    (∀ e ∈ edges, part e.1 ≠ part e.2 ∧ (part e.1 = some p ∨ part e.1 = some q) ∧ (part e.2 = some p ∨ part e.2 = some q)) →
    parts.Nodup → (∀ x ∈ parts, x = p ∨ x = q) → checkParts part edges parts = .ok () := by
  intro edges
  induction edges with
  | nil => intro parts _ _ _; rfl
  | cons e edges ih =>
      obtain ⟨n1, n2⟩ := e
      intro parts he hn hm
      obtain ⟨h1, h2, h3⟩ := he (n1, n2) (by simp)
      simp only at h1 h2 h3
      obtain ⟨p1, hp1⟩ : ∃ p1, part n1 = some p1 := by rcases h2 with h | h <;> exact ⟨_, h⟩
      obtain ⟨p2, hp2⟩ : ∃ p2, part n2 = some p2 := by rcases h3 with h | h <;> exact ⟨_, h⟩
      rw [hp1, hp2] at h1
      rw [hp1] at h2
      rw [hp2] at h3
      simp only [Option.some.injEq] at h2 h3
      rw [checkParts]
      simp only [hp1, hp2]
      have step : ∀ (x : π) (parts : List π), (x = p ∨ x = q) → parts.Nodup → (∀ x ∈ parts, x = p ∨ x = q) →
          (if x ∈ parts then parts else x :: parts).Nodup ∧ ∀ y ∈ (if x ∈ parts then parts else x :: parts), y = p ∨ y = q := by
        intro x parts hx hn hm
        split
        · exact ⟨hn, hm⟩
        · next h =>
            refine ⟨List.nodup_cons.mpr ⟨h, hn⟩, ?_⟩
            intro y hy
            rcases List.mem_cons.mp hy with rfl | hy
            · exact hx
            · exact hm y hy
      obtain ⟨s1, s2⟩ := step p1 parts h2 hn hm
      obtain ⟨s3, s4⟩ := step p2 _ h3 s1 s2
      have hlen : ¬ (if p2 ∈ (if p1 ∈ parts then parts else p1 :: parts) then (if p1 ∈ parts then parts else p1 :: parts)
          else p2 :: (if p1 ∈ parts then parts else p1 :: parts)).length > 2 := by
        have : List.Subperm (if p2 ∈ (if p1 ∈ parts then parts else p1 :: parts) then (if p1 ∈ parts then parts else p1 :: parts)
          else p2 :: (if p1 ∈ parts then parts else p1 :: parts)) [p, q] := by
          apply List.subperm_of_subset s3
          intro x hx
          rcases s4 x hx with rfl | rfl <;> simp
        have := this.length_le
        simp only [List.length_cons, List.length_nil] at this
        omega
      rw [if_neg (by rintro (h | h); exact h1 (by rw [h]); exact hlen h)]
      exact ih _ (fun e hx => he e (by simp [hx])) s3 s4

theorem check_bipartite {g : Graph α (Option ℝ)} (hg : Undirected g) {part : α → Option π} (hb : Bipartite g part) :
    checkParts part ((Sparsification.edgesFrom g []).map fun e => (e.1, e.2.1)) [] = .ok () := by
  obtain ⟨p, q, hpq⟩ := hb.two
  obtain ⟨e1, _⟩ := edgesFrom_spec g [] (by simp) hg.nodes hg.neighbors
  have hedge : ∀ e ∈ (Sparsification.edgesFrom g []).map fun e => (e.1, e.2.1), ∃ d, Edge g e.1 e.2 d := by
    intro e he
    obtain ⟨⟨u, v, w⟩, hx, rfl⟩ := List.mem_map.mp he
    obtain ⟨pre, nb, post, hl, hvw, _, _⟩ := (e1 u v w).mp hx
    exact ⟨w, nb, by rw [hl]; simp, hvw⟩
  have hall : ∀ e ∈ (Sparsification.edgesFrom g []).map fun e => (e.1, e.2.1),
      part e.1 ≠ part e.2 ∧ (part e.1 = some p ∨ part e.1 = some q) ∧ (part e.2 = some p ∨ part e.2 = some q) := by
    intro e he
    obtain ⟨d, hd⟩ := hedge e he
    exact ⟨hb.differ _ _ _ hd, hpq _ _ _ hd, hpq _ _ _ (hg.symm _ _ _ hd)⟩
  by_cases h : p = q
  · subst h
    cases hl : (Sparsification.edgesFrom g []).map fun e => (e.1, e.2.1) with
    | nil => rfl
    | cons e l =>
        obtain ⟨h1, h2, h3⟩ := hall e (by rw [hl]; simp)
        simp only [or_self] at h2 h3
        exact absurd (h2.trans h3.symm) h1
  · exact checkParts_ok part h _ _ hall (by simp) (by simp)

/-- **C46**, quadratic version: `monopartite_projection` without topology is the projection, on every bipartite graph. -/
theorem projection_quadratic {g : Graph α (Option ℝ)} (hg : Undirected g) {part : α → Option π} (hp : ∀ a ∈ g.keys, (part a).isSome)
    (hb : Bipartite g part) (project : π) {name : Option String} {metric : Metric} (hm : Metric.ofName name = .ok metric)
    (threshold : Option ℝ) (check : Bool) :
    ∃ g', monopartiteProjection g project part name threshold false check = .ok g' ∧
      IsProjection g part project metric threshold g' := by
  obtain ⟨s, h1, h2⟩ := quadratic_projection (metric := metric) (part := part) (project := project) hg threshold
  refine ⟨s, ?_, h2⟩
  unfold monopartiteProjection
  unfold partNodes at h1
  cases check <;>
    simp only [hm, check_bipartite hg hb, projected_eq part project _ hp, h1, bind, Except.bind, if_true, Bool.false_eq_true,
      if_false, pure, Except.pure]

/-- **C46** partial: `monopartite_projection` with topology is the projection too, on bipartite graphs where, for the cosine, each
node of the part which has neighbours has one by an edge whose weight is not zero. -/
theorem projection_topology_partial {g : Graph α (Option ℝ)} (hg : Undirected g) {part : α → Option π}
    (hp : ∀ a ∈ g.keys, (part a).isSome) (hb : Bipartite g part) (project : π) {name : Option String} {metric : Metric}
    (hm : Metric.ofName name = .ok metric)
    (hz : metric = .cosine → ∀ a b d, part a = some project → Edge g a b d → ∃ c, weightTo g a c ≠ 0)
    (threshold : Option ℝ) (check : Bool) :
    ∃ g', monopartiteProjection g project part name threshold true check = .ok g' ∧
      IsProjection g part project metric threshold g' := by
  have h2s : TwoSteps g part project metric := by
    intro a np b ha _ _ h1 h2
    obtain ⟨d1, hd1⟩ := (mem_nbrs hg _ _).mp h1
    obtain ⟨d2, hd2⟩ := (mem_nbrs hg _ _).mp h2
    obtain ⟨p, q, hpq⟩ := hb.two
    have e1 := hb.differ _ _ _ hd1
    have e2 := hb.differ _ _ _ hd2
    have e3 := hpq _ _ _ hd1
    have e4 := hpq _ _ _ hd2
    have e5 := hpq _ _ _ (hg.symm _ _ _ hd2)
    have hpb : part b = some project := by
      rw [← ha]
      rcases e3 with e3 | e3 <;> rcases e4 with e4 | e4 <;> rcases e5 with e5 | e5 <;> rw [e3, e4] at e1 <;> rw [e4, e5] at e2 <;>
        first | exact absurd rfl e1 | exact absurd rfl e2 | rw [e3, e5]
    refine ⟨hpb, ?_⟩
    have hbn := hg.symm _ _ _ hd2
    by_cases hc : metric = .cosine
    · obtain ⟨c, hc'⟩ := hz hc b np d2 hpb hbn
      exact ⟨c, by_contra fun h => hc' (weightTo_eq_zero h), fun _ => hc'⟩
    · exact ⟨np, (mem_nbrs hg _ _).mpr ⟨_, hbn⟩, fun h => absurd h hc⟩
  obtain ⟨s, h1, h2⟩ := topology_projection hg h2s threshold
  refine ⟨s, ?_, h2⟩
  unfold monopartiteProjection
  unfold partNodes at h1
  cases check <;>
    simp only [hm, check_bipartite hg hb, projected_eq part project _ hp, h1, bind, Except.bind, if_true, Bool.false_eq_true,
      if_false, pure, Except.pure]

/-- **C46** partial: on those graphs both versions give the same nodes and the same weighted edges. -/
theorem projections_agree_partial {g : Graph α (Option ℝ)} (hg : Undirected g) {part : α → Option π}
    (hp : ∀ a ∈ g.keys, (part a).isSome) (hb : Bipartite g part) (project : π) {name : Option String} {metric : Metric}
    (hm : Metric.ofName name = .ok metric)
    (hz : metric = .cosine → ∀ a b d, part a = some project → Edge g a b d → ∃ c, weightTo g a c ≠ 0)
    (threshold : Option ℝ) (check check' : Bool) :
    ∃ g1 g2, monopartiteProjection g project part name threshold true check = .ok g1 ∧
      monopartiteProjection g project part name threshold false check' = .ok g2 ∧ g1.keys = g2.keys ∧
      ∀ a b w, Edge g1 a b w ↔ Edge g2 a b w := by
  obtain ⟨g1, h1, p1⟩ := projection_topology_partial hg hp hb project hm hz threshold check
  obtain ⟨g2, h2, p2⟩ := projection_quadratic hg hp hb project hm threshold check'
  exact ⟨g1, g2, h1, h2, p1.nodes.trans p2.nodes.symm, fun a b w => (p1.edges a b w).trans (p2.edges a b w).symm⟩

/-- Two nodes of a part linked to the same node of the other, one with weight zero. -/
def zeroGraph : Graph Nat (Option ℝ) := [(0, [(2, some 1)]), (1, [(2, some 0)]), (2, [(0, some 1), (1, some 0)])]

/-- Nodes 0 and 1 are red. -/
def zeroPart (n : Nat) : Option Nat := if n = 2 then some 1 else some 0

theorem zero_edge {a b : Nat} {d : Option ℝ} : Edge zeroGraph a b d ↔
    (a = 0 ∧ b = 2 ∧ d = some 1) ∨ (a = 1 ∧ b = 2 ∧ d = some 0) ∨ (a = 2 ∧ b = 0 ∧ d = some 1) ∨ (a = 2 ∧ b = 1 ∧ d = some 0) := by
  unfold Edge zeroGraph
  simp only [List.mem_cons, Prod.mk.injEq, List.not_mem_nil, or_false]
  constructor
  · rintro ⟨edges, h1, h2⟩
    rcases h1 with ⟨rfl, rfl⟩ | ⟨rfl, rfl⟩ | ⟨rfl, rfl⟩ <;>
      simp only [List.mem_cons, Prod.mk.injEq, List.not_mem_nil, or_false] at h2
    · exact Or.inl ⟨rfl, h2⟩
    · exact Or.inr (Or.inl ⟨rfl, h2⟩)
    · rcases h2 with h2 | h2
      · exact Or.inr (Or.inr (Or.inl ⟨rfl, h2⟩))
      · exact Or.inr (Or.inr (Or.inr ⟨rfl, h2⟩))
  · rintro (⟨rfl, rfl, rfl⟩ | ⟨rfl, rfl, rfl⟩ | ⟨rfl, rfl, rfl⟩ | ⟨rfl, rfl, rfl⟩)
    · exact ⟨[(2, some 1)], by simp, by simp⟩
    · exact ⟨[(2, some 0)], by simp, by simp⟩
    · exact ⟨_, Or.inr (Or.inr ⟨rfl, rfl⟩), by simp⟩
    · exact ⟨_, Or.inr (Or.inr ⟨rfl, rfl⟩), by simp⟩

theorem zero_undirected : Undirected zeroGraph := by
  refine ⟨by decide, ?_, ?_⟩
  · intro p hp
    simp only [zeroGraph, List.mem_cons, List.not_mem_nil, or_false] at hp
    rcases hp with rfl | rfl | rfl <;> simp [Dict.keys]
  · intro a b w h
    rw [zero_edge] at h ⊢
    rcases h with h | h | h | h
    · exact Or.inr (Or.inr (Or.inl ⟨h.2.1, h.1, h.2.2⟩))
    · exact Or.inr (Or.inr (Or.inr ⟨h.2.1, h.1, h.2.2⟩))
    · exact Or.inl ⟨h.2.1, h.1, h.2.2⟩
    · exact Or.inr (Or.inl ⟨h.2.1, h.1, h.2.2⟩)

theorem zero_bipartite : Bipartite zeroGraph zeroPart := by
  refine ⟨?_, 0, 1, ?_⟩
  · intro a b d h
    rw [zero_edge] at h
    rcases h with ⟨rfl, rfl, _⟩ | ⟨rfl, rfl, _⟩ | ⟨rfl, rfl, _⟩ | ⟨rfl, rfl, _⟩ <;> decide
  · intro a b d _
    unfold zeroPart
    split
    · exact Or.inr rfl
    · exact Or.inl rfl

/-- **C46** is false: with the cosine, when a node has only edges of weight zero, the topology version raises a `KeyError`; the other
one does not. -/
theorem projection_zero_norm : monopartiteProjection zeroGraph 0 zeroPart (some "cosine") none true true = .error .keyError ∧
    ∃ g', monopartiteProjection zeroGraph 0 zeroPart (some "cosine") none false true = .ok g' := by
  refine ⟨?_, ?_⟩
  · unfold monopartiteProjection
    have hnodes : ∀ a ∈ Dict.keys zeroGraph, (zeroPart a).isSome := by decide
    have hm : Metric.ofName (some "cosine") = .ok .cosine := rfl
    have hf : ((Dict.keys zeroGraph).filter fun a => zeroPart a = some 0) = [0, 1] := by decide
    simp only [hm, check_bipartite zero_undirected zero_bipartite, projected_eq zeroPart 0 _ hnodes, hf, bind, Except.bind, if_true]
    have hv : vectorsOf .cosine zeroGraph [0, 1] = [(0, 1, [(2, 1)])] := by
      unfold vectorsOf
      simp [vectorOf, zeroGraph, Dict.get?, Projection.sizeOf]
    rw [hv]
    simp [topology, neighbors, zeroGraph, Dict.get?, Dict.keys, topologyStep, hasEdge, bind, Except.bind]
  · obtain ⟨g', h, _⟩ := projection_quadratic zero_undirected (part := zeroPart) (by decide) zero_bipartite 0
      (name := some "cosine") (metric := .cosine) rfl none true
    exact ⟨g', h⟩

-- With the Jaccard index the same graph meets all hypotheses.
example : ∃ g', monopartiteProjection zeroGraph 0 zeroPart (some "jaccard") (some 1) true true = .ok g' ∧ Edge g' 0 1 1 := by
  obtain ⟨g', h, hp⟩ := projection_topology_partial zero_undirected (part := zeroPart) (by decide) zero_bipartite 0
    (name := some "jaccard") (metric := .jaccard) rfl (by simp) (some 1) true
  refine ⟨g', h, (hp.edges 0 1 1).mpr ⟨by decide, by decide, rfl, rfl, by decide, ?_, by norm_num, by simp⟩⟩
  have : nbrs zeroGraph 0 = {2} ∧ nbrs zeroGraph 1 = {2} := by constructor <;> rfl
  simp [nodeSimilarity, Spec.jaccard, this]

end Fog.Props
