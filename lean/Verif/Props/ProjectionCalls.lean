import Verif.Model.ProjectionCalls
import Verif.Props.Projection
import Mathlib.Data.Nat.Choose.Basic

/-!
# `monopartite_projection`: which metrics it computes (C165)
-/

namespace Fog.Props

open Fog.Projection Fog.GraphUtils

variable {α π : Type _} [LinearOrder α] [DecidableEq π]

/-- The nodes `u` and `v` are joined by an edge of the graph. -/
def GraphAdjacent {ω : Type _} (graph : Graph α ω) (u v : α) : Prop := ∃ row, Dict.get? graph u = some row ∧ v ∈ Dict.keys row

theorem foldlM_fst {β σ τ : Type _} (f : σ × τ → β → Py (σ × τ)) (g : σ → β → Py σ) (hf : ∀ s b, (f s b).map Prod.fst = g s.1 b)
    (l : List β) (s : σ × τ) : (l.foldlM f s).map Prod.fst = l.foldlM g s.1 := by
  induction l generalizing s with
  | nil => rfl
  | cons b l ih =>
      rw [List.foldlM_cons, List.foldlM_cons, ← hf s b]
      rcases f s b with e | s'
      · rfl
      · exact ih s'

theorem foldlM_invariant {β σ : Type _} (f : σ → β → Py σ) (P : σ → Prop) (l : List β)
    (hf : ∀ s, ∀ b ∈ l, ∀ s', P s → f s b = .ok s' → P s') (s s' : σ) (hs : P s) (h : l.foldlM f s = .ok s') : P s' := by
  induction l generalizing s with
  | nil => cases h; exact hs
  | cons b l ih =>
      rw [List.foldlM_cons] at h
      rcases hb : f s b with e | t
      · rw [hb] at h; cases h
      · rw [hb] at h
        exact ih (fun s c hc => hf s c (List.mem_cons_of_mem _ hc)) t (hf s b List.mem_cons_self t hs hb) h

theorem topologyStepCalls_fst (metric : Metric) (threshold : Option ℝ) (vectors : Dict α (ℝ × Dict α ℝ)) (n1 : α) (norm1 : ℝ)
    (vector1 : Dict α ℝ) (s : Graph α ℝ × List (α × α)) (n2 : α) :
    (topologyStepCalls metric threshold vectors n1 norm1 vector1 s n2).map Prod.fst =
      topologyStep metric threshold vectors n1 norm1 vector1 s.1 n2 := by
  unfold topologyStepCalls topologyStep
  split
  · rfl
  · split
    · rfl
    · rcases Dict.get? vectors n2 with _ | ⟨norm2, vector2⟩
      · rfl
      · dsimp only
        rcases computeMetric metric vector1 vector2 norm1 norm2 with e | w
        · rfl
        · simp only [bind, Except.bind]
          split
          · rfl
          · split <;> rfl

theorem quadraticStepCalls_fst (metric : Metric) (threshold : Option ℝ) (n1 : α) (norm1 : ℝ) (vector1 : Dict α ℝ)
    (s : Graph α ℝ × List (α × α)) (item : α × ℝ × Dict α ℝ) :
    (quadraticStepCalls metric threshold n1 norm1 vector1 s item).map Prod.fst =
      quadraticStep metric threshold n1 norm1 vector1 s.1 item := by
  unfold quadraticStepCalls quadraticStep
  rcases computeMetric metric vector1 item.2.2 norm1 item.2.1 with e | w
  · rfl
  · simp only [bind, Except.bind]
    split
    · rfl
    · split <;> rfl

theorem topologyCalls_fst (metric : Metric) (threshold : Option ℝ) (bipartite : Graph α (Option ℝ))
    (vectors : Dict α (ℝ × Dict α ℝ)) (s : Graph α ℝ × List (α × α)) :
    (topologyCalls metric threshold bipartite vectors s).map Prod.fst = topology metric threshold bipartite vectors s.1 := by
  unfold topologyCalls topology
  refine foldlM_fst _ _ (fun s item => ?_) vectors s
  refine foldlM_fst _ _ (fun s np => ?_) (neighbors bipartite item.1) s
  exact foldlM_fst _ _ (fun s n2 => topologyStepCalls_fst _ _ _ _ _ _ s n2) (neighbors bipartite np) s

theorem quadraticCalls_fst (metric : Metric) (threshold : Option ℝ) (vectors : Dict α (ℝ × Dict α ℝ)) (s : Graph α ℝ × List (α × α)) :
    (quadraticCalls metric threshold vectors s).map Prod.fst = quadratic metric threshold vectors s.1 := by
  induction vectors generalizing s with
  | nil => rfl
  | cons item rest ih =>
      obtain ⟨n1, norm1, vector1⟩ := item
      simp only [quadraticCalls, quadratic]
      rw [← foldlM_fst _ _ (fun s item => quadraticStepCalls_fst metric threshold n1 norm1 vector1 s item) rest s]
      rcases rest.foldlM (quadraticStepCalls metric threshold n1 norm1 vector1) s with e | t
      · rfl
      · exact ih t

section

variable (bipartite : Graph α (Option ℝ)) (project : π) (part : α → Option π) (metric : Option String) (threshold : Option ℝ)

/-- C165. The projection, or the exception, is that of the function. -/
theorem projection_calls_same (use_topology bipartition_check : Bool) :
    (monopartiteProjectionCalls bipartite project part metric threshold use_topology bipartition_check).map Prod.fst =
      monopartiteProjection bipartite project part metric threshold use_topology bipartition_check := by
  unfold monopartiteProjectionCalls monopartiteProjection
  rcases Metric.ofName metric with e | m
  · rfl
  · simp only [bind, Except.bind]
    generalize projected part project (Dict.keys bipartite) = q
    generalize checkParts part _ _ = c
    have hrest : ∀ nodes, (if use_topology = true then
        topologyCalls m threshold bipartite (vectorsOf m bipartite nodes) (nodes.map (fun node => (node, [])), [])
        else quadraticCalls m threshold (vectorsOf m bipartite nodes) (nodes.map (fun node => (node, [])), [])).map Prod.fst =
        if use_topology = true then topology m threshold bipartite (vectorsOf m bipartite nodes) (nodes.map (fun node => (node, [])))
        else quadratic m threshold (vectorsOf m bipartite nodes) (nodes.map (fun node => (node, []))) := by
      intro nodes
      split
      · exact topologyCalls_fst _ _ _ _ _
      · exact quadraticCalls_fst _ _ _ _
    cases bipartition_check with
    | false =>
        simp only [Bool.false_eq_true, if_false]
        rcases q with e | nodes
        · rfl
        · exact hrest nodes
    | true =>
        simp only [if_true]
        rcases c with e | _
        · rfl
        · dsimp only
          rcases q with e | nodes
          · rfl
          · exact hrest nodes

theorem projectionCalls_ok (use_topology bipartition_check : Bool) (r : Graph α ℝ × List (α × α))
    (h : monopartiteProjectionCalls bipartite project part metric threshold use_topology bipartition_check = .ok r) :
    ∃ m nodes, Metric.ofName metric = .ok m ∧ projected part project (Dict.keys bipartite) = .ok nodes ∧
      (if use_topology = true then topologyCalls m threshold bipartite (vectorsOf m bipartite nodes) (nodes.map (fun node => (node, [])), [])
        else quadraticCalls m threshold (vectorsOf m bipartite nodes) (nodes.map (fun node => (node, [])), [])) = .ok r := by
  unfold monopartiteProjectionCalls at h
  rcases hm : Metric.ofName metric with e | m
  · rw [hm] at h; cases h
  · rw [hm] at h
    simp only [bind, Except.bind] at h
    generalize projected part project (Dict.keys bipartite) = q at h ⊢
    generalize checkParts part _ _ = c at h
    cases bipartition_check with
    | false =>
        simp only [Bool.false_eq_true, if_false] at h
        rcases q with e | nodes
        · cases h
        · exact ⟨m, nodes, rfl, rfl, h⟩
    | true =>
        simp only [if_true] at h
        rcases c with e | _
        · cases h
        · dsimp only at h
          rcases q with e | nodes
          · cases h
          · exact ⟨m, nodes, rfl, rfl, h⟩

theorem mem_neighbors_adjacent {u v : α} (h : v ∈ neighbors bipartite u) : GraphAdjacent bipartite u v := by
  unfold neighbors at h
  rcases hg : Dict.get? bipartite u with _ | row
  · rw [hg] at h; cases h
  · rw [hg] at h
    exact ⟨row, hg, h⟩

theorem topologyCalls_common (m : Metric) (vectors : Dict α (ℝ × Dict α ℝ)) (g : Graph α ℝ) (r : Graph α ℝ × List (α × α))
    (h : topologyCalls m threshold bipartite vectors (g, []) = .ok r) :
    ∀ p ∈ r.2, p.1 < p.2 ∧ ∃ np, GraphAdjacent bipartite p.1 np ∧ GraphAdjacent bipartite np p.2 := by
  refine foldlM_invariant _ (fun s => ∀ p ∈ s.2, p.1 < p.2 ∧ ∃ np, GraphAdjacent bipartite p.1 np ∧ GraphAdjacent bipartite np p.2) _ ?_ _ _
    (fun p hp => by cases hp) h
  intro s item _ s' hs h
  refine foldlM_invariant _ (fun s => ∀ p ∈ s.2, p.1 < p.2 ∧ ∃ np, GraphAdjacent bipartite p.1 np ∧ GraphAdjacent bipartite np p.2) _ ?_ _ _ hs h
  intro s np hnp s' hs h
  refine foldlM_invariant _ (fun s => ∀ p ∈ s.2, p.1 < p.2 ∧ ∃ np, GraphAdjacent bipartite p.1 np ∧ GraphAdjacent bipartite np p.2) _ ?_ _ _ hs h
  intro s n2 hn2 s' hs h
  have key : s'.2 = s.2 ∨ (item.1 < n2 ∧ s'.2 = s.2 ++ [(item.1, n2)]) := by
    unfold topologyStepCalls at h
    split at h
    · cases h; exact Or.inl rfl
    · rename_i hlt
      split at h
      · cases h; exact Or.inl rfl
      · split at h
        · cases h
        · rename_i norm2 vector2 _
          rcases hw : computeMetric m item.2.2 vector2 item.2.1 norm2 with e | w
          · rw [hw] at h; cases h
          · rw [hw] at h
            simp only [bind, Except.bind] at h
            refine Or.inr ⟨not_le.mp hlt, ?_⟩
            split at h
            · cases h; rfl
            · split at h <;> cases h <;> rfl
  rcases key with key | ⟨hlt, key⟩
  · rw [key]; exact hs
  · rw [key]
    intro p hp
    rcases List.mem_append.mp hp with hp | hp
    · exact hs p hp
    · cases List.mem_singleton.mp hp
      exact ⟨hlt, np, mem_neighbors_adjacent bipartite hnp, mem_neighbors_adjacent bipartite hn2⟩

/-- C165. With `use_topology`, as documented, metrics are only computed for nodes which share a neighbor, and only in one order. -/
theorem projection_calls_topology (bipartition_check : Bool) (r : Graph α ℝ × List (α × α))
    (h : monopartiteProjectionCalls bipartite project part metric threshold true bipartition_check = .ok r) :
    ∀ p ∈ r.2, p.1 < p.2 ∧ ∃ np, GraphAdjacent bipartite p.1 np ∧ GraphAdjacent bipartite np p.2 := by
  obtain ⟨m, nodes, _, _, h⟩ := projectionCalls_ok bipartite project part metric threshold true bipartition_check r h
  exact topologyCalls_common bipartite threshold m _ _ r h

/-- All pairs of elements at different places, the first one coming before. -/
def pairsOf {β : Type _} : List β → List (β × β)
  | [] => []
  | a :: l => l.map (fun b => (a, b)) ++ pairsOf l

theorem quadraticFold_snd (m : Metric) (n1 : α) (norm1 : ℝ) (vector1 : Dict α ℝ) (rest : Dict α (ℝ × Dict α ℝ))
    (s s' : Graph α ℝ × List (α × α)) (h : rest.foldlM (quadraticStepCalls m threshold n1 norm1 vector1) s = .ok s') :
    s'.2 = s.2 ++ (Dict.keys rest).map (fun b => (n1, b)) := by
  induction rest generalizing s with
  | nil => cases h; simp [Dict.keys]
  | cons item rest ih =>
      rw [List.foldlM_cons] at h
      rcases hb : quadraticStepCalls m threshold n1 norm1 vector1 s item with e | t
      · rw [hb] at h; cases h
      · rw [hb] at h
        have ht : t.2 = s.2 ++ [(n1, item.1)] := by
          unfold quadraticStepCalls at hb
          rcases hw : computeMetric m vector1 item.2.2 norm1 item.2.1 with e | w
          · rw [hw] at hb; cases hb
          · rw [hw] at hb
            simp only [bind, Except.bind] at hb
            split at hb
            · cases hb; rfl
            · split at hb <;> cases hb <;> rfl
        rw [ih t h, ht, List.append_assoc]
        rfl

theorem quadraticCalls_snd (m : Metric) (vectors : Dict α (ℝ × Dict α ℝ)) (s r : Graph α ℝ × List (α × α))
    (h : quadraticCalls m threshold vectors s = .ok r) : r.2 = s.2 ++ pairsOf (Dict.keys vectors) := by
  induction vectors generalizing s with
  | nil => cases h; simp [pairsOf, Dict.keys]
  | cons item rest ih =>
      obtain ⟨n1, norm1, vector1⟩ := item
      simp only [quadraticCalls] at h
      rcases hb : rest.foldlM (quadraticStepCalls m threshold n1 norm1 vector1) s with e | t
      · rw [hb] at h; cases h
      · rw [hb] at h
        rw [ih t h, quadraticFold_snd threshold m n1 norm1 vector1 rest s t hb, List.append_assoc]
        rfl

theorem length_pairsOf {β : Type _} (l : List β) : (pairsOf l).length = l.length.choose 2 := by
  induction l with
  | nil => rfl
  | cons a l ih =>
      rw [pairsOf, List.length_append, List.length_map, ih, List.length_cons, Nat.choose_succ_succ' l.length 1, Nat.choose_one_right]

theorem projected_ok (nodes l : List α) (h : projected part project nodes = .ok l) :
    l.Sublist nodes ∧ (∀ n ∈ l, part n = some project) ∧ ∀ n ∈ nodes, part n = some project → n ∈ l := by
  induction nodes generalizing l with
  | nil => cases h; exact ⟨List.Sublist.slnil, ⟨(fun n hn => by cases hn), (fun n hn => by cases hn)⟩⟩
  | cons node nodes ih =>
      unfold projected at h
      rcases hp : part node with _ | p
      · rw [hp] at h; cases h
      · rw [hp] at h
        rcases hr : projected part project nodes with e | rest
        · rw [hr] at h; cases h
        · rw [hr] at h
          simp only [bind, Except.bind] at h
          obtain ⟨h1, h2, h3⟩ := ih rest hr
          split at h
          · rename_i hpp
            cases h
            refine ⟨h1.cons _, h2, fun n hn hq => ?_⟩
            rcases List.mem_cons.mp hn with rfl | hn
            · rw [hp] at hq
              exact absurd (Option.some.inj hq) hpp
            · exact h3 n hn hq
          · rename_i hpp
            cases h
            refine ⟨h1.cons_cons _, fun n hn => ?_, fun n hn hq => ?_⟩
            · rcases List.mem_cons.mp hn with rfl | hn
              · rw [hp, not_not.mp hpp]
              · exact h2 n hn
            · rcases List.mem_cons.mp hn with rfl | hn
              · exact List.mem_cons_self
              · exact List.mem_cons_of_mem _ (h3 n hn hq)

theorem projectionCalls_keys (m : Metric) (nodes : List α) : (Dict.keys (vectorsOf m bipartite nodes)).Sublist nodes ∧
    ∀ n ∈ Dict.keys (vectorsOf m bipartite nodes), ∃ v, GraphAdjacent bipartite n v := by
  induction nodes with
  | nil => exact ⟨List.Sublist.slnil, fun n hn => by cases hn⟩
  | cons node nodes ih =>
      have hcons : Dict.keys (vectorsOf m bipartite (node :: nodes)) =
          if sizeOf m (vectorOf bipartite node) > 0 then node :: Dict.keys (vectorsOf m bipartite nodes)
          else Dict.keys (vectorsOf m bipartite nodes) := by
        unfold vectorsOf Dict.keys
        rw [List.filterMap_cons]
        by_cases hs : sizeOf m (vectorOf bipartite node) > 0
        · by_cases hm : m = .cosine
          · simp only [if_pos hs, if_pos hm, List.map_cons]
          · simp only [if_pos hs, if_neg hm, List.map_cons]
        · simp only [if_neg hs]
      rw [hcons]
      by_cases hs : sizeOf m (vectorOf bipartite node) > 0
      · rw [if_pos hs]
        refine ⟨ih.1.cons_cons _, fun n hn => ?_⟩
        rcases List.mem_cons.mp hn with rfl | hn
        · rcases hg : Dict.get? bipartite n with _ | row
          · exfalso
            rw [vectorOf, hg] at hs
            simp [Projection.sizeOf] at hs
          · rcases row with _ | ⟨e, row⟩
            · exfalso
              rw [vectorOf, hg] at hs
              simp [Projection.sizeOf] at hs
            · exact ⟨e.1, e :: row, hg, List.mem_cons_self⟩
        · exact ih.2 n hn
      · rw [if_neg hs]
        exact ⟨ih.1.cons _, ih.2⟩

theorem ofName_ne_cosine (name : Option String) (m : Metric) (h : Metric.ofName name = .ok m) (hc : name ≠ some "cosine") :
    m ≠ .cosine := by
  rintro rfl
  unfold Metric.ofName at h
  split at h <;> first | exact hc rfl | cases h

/-- Unless the metric is the cosine, nodes with neighbors have a vector. -/
theorem projectionCalls_mem_keys (m : Metric) (hm : m ≠ .cosine) (nodes : List α) (n : α) (hn : n ∈ nodes)
    (ha : ∃ v, GraphAdjacent bipartite n v) : n ∈ Dict.keys (vectorsOf m bipartite nodes) := by
  obtain ⟨v, row, hg, hv⟩ := ha
  have hs : sizeOf m (vectorOf bipartite n) > 0 := by
    unfold Projection.sizeOf vectorOf
    rw [if_neg hm, hg, Option.getD_some, List.length_map]
    rcases row with _ | ⟨e, row⟩
    · cases hv
    · simp only [List.length_cons]
      positivity
  refine List.mem_map.mpr ⟨(n, sizeOf m (vectorOf bipartite n), vectorOf bipartite n), List.mem_filterMap.mpr ⟨n, hn, ?_⟩, rfl⟩
  simp only [if_pos hs, if_neg hm]

/-- Nodes with an edge whose weight, one by default, is not zero have a vector. -/
theorem projectionCalls_mem_keys_weight (m : Metric) (nodes : List α) (n : α) (hn : n ∈ nodes) (row : Dict α (Option ℝ))
    (hg : Dict.get? bipartite n = some row) (e : α × Option ℝ) (he : e ∈ row) (hw : e.2 ≠ some 0) :
    n ∈ Dict.keys (vectorsOf m bipartite nodes) := by
  by_cases hm : m = .cosine
  · have hne : e.2.getD 1 ≠ 0 := by
      rcases hx : e.2 with _ | x
      · simp
      · rw [hx] at hw
        exact fun h => hw (congrArg some h)
    have hs : sizeOf m (vectorOf bipartite n) > 0 := by
      unfold Projection.sizeOf vectorOf
      rw [if_pos hm, hg, Option.getD_some, List.map_map]
      have hmem : e.2.getD 1 * e.2.getD 1 ∈ row.map ((fun e : α × ℝ => e.2 * e.2) ∘ fun e => (e.1, e.2.getD 1)) :=
        List.mem_map.mpr ⟨e, he, rfl⟩
      refine lt_of_lt_of_le (mul_self_pos.mpr hne) (List.single_le_sum ?_ _ hmem)
      intro x hx
      obtain ⟨y, _, rfl⟩ := List.mem_map.mp hx
      exact mul_self_nonneg _
    refine List.mem_map.mpr ⟨(n, Real.sqrt (sizeOf m (vectorOf bipartite n)), vectorOf bipartite n), List.mem_filterMap.mpr ⟨n, hn, ?_⟩, rfl⟩
    simp only [if_pos hs, if_pos hm]
  · exact projectionCalls_mem_keys bipartite m hm nodes n hn ⟨e.1, row, hg, List.mem_map.mpr ⟨e, he, rfl⟩⟩

/-- C165. Without `use_topology`, the metrics of all pairs of nodes are computed, each once: `l(l - 1)/2` of them. The nodes are those of the
part which have neighbors; with the cosine, at least those which have an edge whose weight is not zero. -/
theorem projection_calls_quadratic (bipartition_check : Bool) (r : Graph α ℝ × List (α × α))
    (h : monopartiteProjectionCalls bipartite project part metric threshold false bipartition_check = .ok r) :
    ∃ nodes : List α, nodes.Sublist (Dict.keys bipartite) ∧ (∀ n ∈ nodes, part n = some project ∧ ∃ v, GraphAdjacent bipartite n v) ∧
      (metric ≠ some "cosine" → ∀ n ∈ Dict.keys bipartite, part n = some project → (∃ v, GraphAdjacent bipartite n v) → n ∈ nodes) ∧
      (∀ n ∈ Dict.keys bipartite, part n = some project →
        (∃ row, Dict.get? bipartite n = some row ∧ ∃ e ∈ row, e.2 ≠ some 0) → n ∈ nodes) ∧
      r.2 = pairsOf nodes ∧ r.2.length = nodes.length.choose 2 := by
  obtain ⟨m, nodes, hm, hn, h⟩ := projectionCalls_ok bipartite project part metric threshold false bipartition_check r h
  obtain ⟨h1, h2, h5⟩ := projected_ok project part _ _ hn
  obtain ⟨h3, h4⟩ := projectionCalls_keys bipartite m nodes
  have hr := quadraticCalls_snd threshold m _ _ r h
  rw [List.nil_append] at hr
  exact ⟨_, h3.trans h1, fun n hn => ⟨h2 n (h3.subset hn), h4 n hn⟩, fun hc n hn hq ha =>
    projectionCalls_mem_keys bipartite m (ofName_ne_cosine metric m hm hc) nodes n (h5 n hn hq) ha,
    fun n hn hq ⟨row, hg, e, he, hw⟩ => projectionCalls_mem_keys_weight bipartite m nodes n (h5 n hn hq) row hg e he hw, hr, by rw [hr, length_pairsOf]⟩

end

/-- Two nodes with the same neighbor: both versions end, so that the theorems apply. -/
example : ∀ use_topology, ∃ r, monopartiteProjectionCalls zeroGraph 0 zeroPart (some "jaccard") (some 1) use_topology true = .ok r := by
  intro use_topology
  have h : ∃ g', monopartiteProjection zeroGraph 0 zeroPart (some "jaccard") (some 1) use_topology true = .ok g' := by
    cases use_topology with
    | false =>
        obtain ⟨g', h, _⟩ := projection_quadratic zero_undirected (part := zeroPart) (by decide) zero_bipartite 0
          (name := some "jaccard") (metric := .jaccard) rfl (some 1) true
        exact ⟨g', h⟩
    | true =>
        obtain ⟨g', h, _⟩ := projection_topology_partial zero_undirected (part := zeroPart) (by decide) zero_bipartite 0
          (name := some "jaccard") (metric := .jaccard) rfl (by simp) (some 1) true
        exact ⟨g', h⟩
  obtain ⟨g', h⟩ := h
  rw [← projection_calls_same] at h
  rcases hr : monopartiteProjectionCalls zeroGraph 0 zeroPart (some "jaccard") (some 1) use_topology true with e | r
  · rw [hr] at h; cases h
  · exact ⟨r, rfl⟩

/-- Three nodes: three pairs. -/
example : pairsOf [1, 2, 3] = [(1, 2), (1, 3), (2, 3)] := rfl

end Fog.Props
