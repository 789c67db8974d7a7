import Verif.Props.Projection
import Verif.Spec.Parts

/-!
# C93: when monopartite projections raise, and that they are right otherwise
-/

namespace Fog.Props

open GraphUtils Projection Spec Metrics

variable {α π : Type _} [LinearOrder α] [DecidableEq π]

/-! ### Loops which raise -/

theorem foldlM_fails {σ ι : Type _} (f : σ → ι → Py σ) (P : σ → Prop) (e : PyErr) : ∀ (l : List ι) (s : σ), P s →
    (∀ x ∈ l, ∀ s, P s → (∃ s', f s x = .ok s' ∧ P s') ∨ f s x = .error e) →
    (∃ s', l.foldlM f s = .ok s' ∧ P s') ∨ l.foldlM f s = .error e := by
  intro l
  induction l with
  | nil => intro s hs _; exact .inl ⟨s, rfl, hs⟩
  | cons x l ih =>
      intro s hs h
      rw [List.foldlM_cons]
      rcases h x (by simp) s hs with ⟨s', h1, h2⟩ | h1
      · rw [h1]
        exact ih s' h2 (fun y hy => h y (by simp [hy]))
      · rw [h1]
        exact .inr rfl

theorem foldlM_fails_at {σ ι : Type _} (f : σ → ι → Py σ) (P : σ → Prop) (e : PyErr) : ∀ (l : List ι) (s : σ), P s →
    (∀ x ∈ l, ∀ s, P s → (∃ s', f s x = .ok s' ∧ P s') ∨ f s x = .error e) →
    ∀ x ∈ l, (∀ s, P s → f s x = .error e) → l.foldlM f s = .error e := by
  intro l
  induction l with
  | nil => intro s _ _ x hx; simp at hx
  | cons y l ih =>
      intro s hs h x hx hbad
      rw [List.foldlM_cons]
      rcases h y (by simp) s hs with ⟨s', h1, h2⟩ | h1
      · rcases List.mem_cons.mp hx with rfl | hx
        · rw [hbad s hs] at h1; cases h1
        · rw [h1]
          exact ih s' h2 (fun z hz => h z (by simp [hz])) x hx hbad
      · rw [h1]
        rfl

variable {g : Graph α (Option ℝ)} {part : α → Option π} {project : π} {metric : Metric} {threshold : Option ℝ}

/-- A node without a vector is not found. -/
theorem topology_step_error (hg : Undirected g) {n1 n2 : α} {norm1 : ℝ} {v1 : Dict α ℝ} (hlt : n1 < n2)
    (h : ¬ (n2 ∈ partNodes g part project ∧ NonZero g metric n2)) (s : Graph α ℝ) (hP : Partial g part project metric threshold s) :
    topologyStep metric threshold (vectorsOf metric g (partNodes g part project)) n1 norm1 v1 s n2 = .error .keyError := by
  unfold topologyStep
  rw [if_neg (not_le.mpr hlt), if_neg]
  · have hnone : Dict.get? (vectorsOf metric g (partNodes g part project)) n2 = none := by
      cases hget : Dict.get? (vectorsOf metric g (partNodes g part project)) n2 with
      | none => rfl
      | some x =>
          obtain ⟨m1, m2, _⟩ := (mem_vectorsOf hg metric (partNodes g part project) n2 x.1 x.2).mp (Dict.mem_of_get? hget)
          exact absurd ⟨m1, m2⟩ h
    rw [hnone]
  · intro he
    obtain ⟨w, hw⟩ := (hasEdge_iff hP.undirected n1 n2).mp he
    obtain ⟨_, h2, _, h4, _, h6, h7, _⟩ := hP.edges _ _ _ hw
    exact h ⟨mem_partNodes.mpr ⟨h2, h4⟩, (similarity_nonzero (h6 ▸ h7)).2⟩

theorem topology_error (hg : Undirected g) (h2 : ¬ TwoSteps g part project metric) (threshold : Option ℝ) :
    topology metric threshold g (vectorsOf metric g (partNodes g part project))
      ((partNodes g part project).map fun node => (node, [])) = .error .keyError := by
  have hstep : ∀ n1 norm1 v1, (n1, norm1, v1) ∈ vectorsOf metric g (partNodes g part project) → ∀ n2 s,
      Partial g part project metric threshold s →
      (∃ s', topologyStep metric threshold (vectorsOf metric g (partNodes g part project)) n1 norm1 v1 s n2 = .ok s' ∧
        Partial g part project metric threshold s') ∨
      topologyStep metric threshold (vectorsOf metric g (partNodes g part project)) n1 norm1 v1 s n2 = .error .keyError := by
    intro n1 norm1 v1 hitem n2 s hs
    by_cases hlt : n1 < n2
    · by_cases h : n2 ∈ partNodes g part project ∧ NonZero g metric n2
      · obtain ⟨s', e1, e2, _⟩ := topology_step hg hitem h.1 h.2 s hs
        exact .inl ⟨s', e1, e2⟩
      · exact .inr (topology_step_error hg hlt h s hs)
    · refine .inl ⟨s, ?_, hs⟩
      unfold topologyStep
      rw [if_pos (not_lt.mp hlt)]
  unfold TwoSteps at h2
  push Not at h2
  obtain ⟨a, np, b, ha, hz, hlt, hnp, hb, hbad⟩ := h2
  have hkey : a ∈ g.keys := by
    obtain ⟨d, edges, h1, _⟩ := (mem_nbrs hg _ _).mp hnp
    exact List.mem_map.mpr ⟨_, h1, rfl⟩
  unfold topology
  refine foldlM_fails_at _ (Partial g part project metric threshold) _ _ _ (initial_partial hg) ?_
    (a, nodeNorm g metric a, vectorOf g a) ((mem_vectorsOf hg ..).mpr ⟨mem_partNodes.mpr ⟨hkey, ha⟩, hz, rfl, rfl⟩) ?_
  · rintro ⟨n1, norm1, v1⟩ hitem s hs
    refine foldlM_fails _ (Partial g part project metric threshold) _ _ _ hs ?_
    intro np _ s hs
    refine foldlM_fails _ (Partial g part project metric threshold) _ _ _ hs ?_
    intro n2 _ s hs
    exact hstep n1 norm1 v1 hitem n2 s hs
  · intro s hs
    have hitem : (a, nodeNorm g metric a, vectorOf g a) ∈ vectorsOf metric g (partNodes g part project) :=
      (mem_vectorsOf hg ..).mpr ⟨mem_partNodes.mpr ⟨hkey, ha⟩, hz, rfl, rfl⟩
    refine foldlM_fails_at _ (Partial g part project metric threshold) _ _ _ hs ?_ np (List.mem_toFinset.mp hnp) ?_
    · intro np _ s hs
      refine foldlM_fails _ (Partial g part project metric threshold) _ _ _ hs ?_
      intro n2 _ s hs
      exact hstep _ _ _ hitem n2 s hs
    · intro s hs
      refine foldlM_fails_at _ (Partial g part project metric threshold) _ _ _ hs ?_ b (List.mem_toFinset.mp hb) ?_
      · intro n2 _ s hs
        exact hstep _ _ _ hitem n2 s hs
      · intro s hs
        exact topology_step_error hg hlt (fun h => hbad (mem_partNodes.mp h.1).2 h.2) s hs

/-! ### The check of the parts -/

/-- `parts` holds the parts of the pairs seen. -/
structure PartsSeen (part : α → Option π) (seen : List (α × α)) (parts : List π) : Prop where
  nodup : parts.Nodup
  mem : ∀ p, p ∈ parts ↔ ∃ e ∈ seen, part e.1 = some p ∨ part e.2 = some p

theorem twoParts_length {seen : List (α × α)} {parts : List π} (hs : PartsSeen part seen parts)
    (h : ∀ e ∈ seen, ∃ p q, part e.1 = some p ∧ part e.2 = some q ∧ p ≠ q) : TwoParts part seen ↔ parts.length ≤ 2 := by
  constructor
  · rintro ⟨_, p, q, hpq⟩
    have hsub : (parts.map some).toFinset ⊆ {p, q} := by
      intro x hx
      obtain ⟨y, hy, rfl⟩ := List.mem_map.mp (List.mem_toFinset.mp hx)
      obtain ⟨e, he, h1 | h1⟩ := (hs.mem y).mp hy
      · rcases (hpq e he).1 with h2 | h2 <;> rw [← h1, h2] <;> simp
      · rcases (hpq e he).2 with h2 | h2 <;> rw [← h1, h2] <;> simp
    have hcard := Finset.card_le_card hsub
    rw [List.toFinset_card_of_nodup (hs.nodup.map (Option.some_injective _)), List.length_map] at hcard
    exact hcard.trans Finset.card_le_two
  · intro hlen
    refine ⟨h, ?_⟩
    have hin : ∀ e ∈ seen, (∃ p ∈ parts, part e.1 = some p) ∧ (∃ p ∈ parts, part e.2 = some p) := by
      intro e he
      obtain ⟨p, q, h1, h2, _⟩ := h e he
      exact ⟨⟨p, (hs.mem p).mpr ⟨e, he, .inl h1⟩, h1⟩, ⟨q, (hs.mem q).mpr ⟨e, he, .inr h2⟩, h2⟩⟩
    match parts, hlen with
    | [], _ => exact ⟨none, none, fun e he => by obtain ⟨⟨p, hp, _⟩, _⟩ := hin e he; simp at hp⟩
    | [p], _ =>
        refine ⟨some p, none, fun e he => ?_⟩
        obtain ⟨⟨x, hx, h1⟩, ⟨y, hy, h2⟩⟩ := hin e he
        simp only [List.mem_singleton] at hx hy
        subst hx; subst hy
        exact ⟨.inl h1, .inl h2⟩
    | [p, q], _ =>
        refine ⟨some p, some q, fun e he => ?_⟩
        obtain ⟨⟨x, hx, h1⟩, ⟨y, hy, h2⟩⟩ := hin e he
        simp only [List.mem_cons, List.not_mem_nil, or_false] at hx hy
        exact ⟨by rcases hx with rfl | rfl <;> simp [h1], by rcases hy with rfl | rfl <;> simp [h2]⟩

theorem partsSeen_add {seen : List (α × α)} {parts : List π} (hs : PartsSeen part seen parts) {e : α × α} {p1 p2 : π}
    (h1 : part e.1 = some p1) (h2 : part e.2 = some p2) :
    PartsSeen part (seen ++ [e]) (let parts := if p1 ∈ parts then parts else p1 :: parts; if p2 ∈ parts then parts else p2 :: parts) := by
  have add : ∀ (l : List π) (p : π), l.Nodup → (if p ∈ l then l else p :: l).Nodup ∧ ∀ x, x ∈ (if p ∈ l then l else p :: l) ↔ x = p ∨ x ∈ l := by
    intro l p hl
    split
    · next h => exact ⟨hl, fun x => ⟨.inr, fun hx => hx.elim (fun hx => hx ▸ h) id⟩⟩
    · next h => exact ⟨List.nodup_cons.mpr ⟨h, hl⟩, fun x => List.mem_cons⟩
  obtain ⟨a1, a2⟩ := add parts p1 hs.nodup
  obtain ⟨b1, b2⟩ := add _ p2 a1
  refine ⟨b1, fun p => ?_⟩
  simp only
  rw [b2, a2, hs.mem]
  constructor
  · rintro (rfl | rfl | ⟨x, hx, h⟩)
    · exact ⟨e, by simp, .inr h2⟩
    · exact ⟨e, by simp, .inl h1⟩
    · exact ⟨x, by simp [hx], h⟩
  · rintro ⟨x, hx, h⟩
    rcases List.mem_append.mp hx with hx | hx
    · exact .inr (.inr ⟨x, hx, h⟩)
    · rw [List.mem_singleton] at hx
      subst hx
      rcases h with h | h
      · rw [h1] at h; exact .inr (.inl (Option.some.inj h).symm)
      · rw [h2] at h; exact .inl (Option.some.inj h).symm

theorem checkParts_from : ∀ (edges seen : List (α × α)) (parts : List π), PartsSeen part seen parts → TwoParts part seen →
    (checkParts part edges parts = .ok () ∧ TwoParts part (seen ++ edges)) ∨
    ∃ before bad after, edges = before ++ bad :: after ∧ TwoParts part (seen ++ before) ∧ ¬ TwoParts part (seen ++ before ++ [bad]) ∧
      checkParts part edges parts = .error (if part bad.1 = none ∨ part bad.2 = none then .keyError else .typeError) := by
  intro edges
  induction edges with
  | nil => intro seen parts _ h; exact .inl ⟨rfl, by simpa using h⟩
  | cons e edges ih =>
      intro seen parts hs h
      obtain ⟨n1, n2⟩ := e
      rw [checkParts]
      cases h1 : part n1 with
      | none =>
          refine .inr ⟨[], (n1, n2), edges, rfl, by simpa using h, ?_, by simp [h1]⟩
          rintro ⟨hall, _⟩
          obtain ⟨p, q, hp, _⟩ := hall (n1, n2) (by simp)
          rw [show part (n1, n2).1 = part n1 from rfl, h1] at hp
          cases hp
      | some p1 =>
          cases h2 : part n2 with
          | none =>
              refine .inr ⟨[], (n1, n2), edges, rfl, by simpa using h, ?_, by simp [h2]⟩
              rintro ⟨hall, _⟩
              obtain ⟨p, q, _, hq, _⟩ := hall (n1, n2) (by simp)
              rw [show part (n1, n2).2 = part n2 from rfl, h2] at hq
              cases hq
          | some p2 =>
              have hadd := partsSeen_add hs (e := (n1, n2)) h1 h2
              simp only at hadd ⊢
              by_cases hbad : p1 = p2 ∨
                  (if p2 ∈ (if p1 ∈ parts then parts else p1 :: parts) then (if p1 ∈ parts then parts else p1 :: parts)
                    else p2 :: (if p1 ∈ parts then parts else p1 :: parts)).length > 2
              · rw [if_pos hbad]
                refine .inr ⟨[], (n1, n2), edges, rfl, by simpa using h, ?_, by simp [h1, h2]⟩
                intro htwo
                rw [List.append_nil] at htwo
                rcases hbad with rfl | hbad
                · obtain ⟨p, q, hp, hq, hne⟩ := htwo.1 (n1, n2) (by simp)
                  rw [show part (n1, n2).1 = part n1 from rfl, h1] at hp
                  rw [show part (n1, n2).2 = part n2 from rfl, h2] at hq
                  exact hne ((Option.some.inj hp).symm.trans (Option.some.inj hq))
                · have := (twoParts_length hadd htwo.1).mp htwo
                  omega
              · rw [if_neg hbad]
                rw [not_or] at hbad
                have hall : ∀ e ∈ seen ++ [(n1, n2)], ∃ p q, part e.1 = some p ∧ part e.2 = some q ∧ p ≠ q := by
                  intro x hx
                  rcases List.mem_append.mp hx with hx | hx
                  · exact h.1 x hx
                  · rw [List.mem_singleton] at hx
                    subst hx
                    exact ⟨p1, p2, h1, h2, hbad.1⟩
                have htwo := (twoParts_length hadd hall).mpr (by omega)
                rcases ih _ _ hadd htwo with ⟨e1, e2⟩ | ⟨before, bad, after, e1, e2, e3, e4⟩
                · exact .inl ⟨e1, by simpa using e2⟩
                · refine .inr ⟨(n1, n2) :: before, bad, after, by rw [e1]; rfl, by simpa using e2, by simpa using e3, e4⟩

theorem twoParts_prefix {l l' : List (α × α)} (h : TwoParts part (l ++ l')) : TwoParts part l := by
  obtain ⟨h1, p, q, h2⟩ := h
  exact ⟨fun e he => h1 e (by simp [he]), p, q, fun e he => h2 e (by simp [he])⟩

theorem firstBad_unique {l : List (α × α)} {b b' : α × α} (h : FirstBad part l b) (h' : FirstBad part l b') : b = b' := by
  obtain ⟨x, y, rfl, h1, h2⟩ := h
  obtain ⟨x', y', he, h1', h2'⟩ := h'
  rcases Nat.lt_trichotomy x.length x'.length with hlt | heq | hgt
  · exfalso
    have : x ++ [b] <+: x' := by
      refine List.prefix_of_prefix_length_le (l₃ := x ++ b :: y) ⟨y, by simp⟩ ⟨b' :: y', he.symm⟩ ?_
      simp only [List.length_append, List.length_singleton]; omega
    obtain ⟨t, rfl⟩ := this
    exact h2 (twoParts_prefix h1')
  · obtain ⟨_, h⟩ := List.append_inj he heq
    exact (List.cons.inj h).1
  · exfalso
    have : x' ++ [b'] <+: x := by
      refine List.prefix_of_prefix_length_le (l₃ := x ++ b :: y) ⟨y', by rw [he]; simp⟩ ⟨b :: y, rfl⟩ ?_
      simp only [List.length_append, List.length_singleton]; omega
    obtain ⟨t, rfl⟩ := this
    exact h2' (twoParts_prefix h1)

/-- The check of the parts raises on the first bad edge: a `KeyError` when an end has no part, a `TypeError` otherwise. -/
theorem checkParts_spec (part : α → Option π) (edges : List (α × α)) :
    (checkParts part edges [] = .ok () ↔ TwoParts part edges) ∧
    ∀ e, checkParts part edges [] = .error e ↔
      ∃ bad, FirstBad part edges bad ∧ e = if part bad.1 = none ∨ part bad.2 = none then .keyError else .typeError := by
  rcases checkParts_from (part := part) edges [] [] ⟨by simp, by simp⟩ ⟨by simp, none, none, by simp⟩ with ⟨h1, h2⟩ | ⟨before, bad, after, h1, h2, h3, h4⟩
  · rw [List.nil_append] at h2
    refine ⟨⟨fun _ => h2, fun _ => h1⟩, fun e => ⟨fun h => ?_, ?_⟩⟩
    · rw [h1] at h; cases h
    · rintro ⟨bad, ⟨before, after, rfl, _, hbad⟩, _⟩
      rw [show before ++ bad :: after = before ++ [bad] ++ after by simp] at h2
      exact absurd (twoParts_prefix h2) hbad
  · rw [List.nil_append] at h2 h3
    have hfirst : FirstBad part edges bad := ⟨before, after, h1, h2, h3⟩
    refine ⟨⟨fun h => ?_, fun h => ?_⟩, fun e => ⟨fun h => ?_, ?_⟩⟩
    · rw [h4] at h; cases h
    · rw [h1, show before ++ bad :: after = before ++ [bad] ++ after by simp] at h
      exact absurd (twoParts_prefix h) h3
    · rw [h4] at h
      injection h with h
      exact ⟨bad, hfirst, h.symm⟩
    · rintro ⟨bad', hbad', rfl⟩
      rw [← firstBad_unique hfirst hbad', h4]

omit [LinearOrder α] in
theorem projected_error (part : α → Option π) (project : π) (nodes : List α) (h : ∃ a ∈ nodes, part a = none) :
    projected part project nodes = .error .keyError := by
  induction nodes with
  | nil => simp at h
  | cons x nodes ih =>
      rw [projected]
      cases hx : part x with
      | none => rfl
      | some p =>
          obtain ⟨a, ha, hn⟩ := h
          rcases List.mem_cons.mp ha with rfl | ha
          · rw [hx] at hn; cases hn
          · simp only [ih ⟨a, ha, hn⟩, bind, Except.bind]

/-! ### The function -/

/-- The names of the metrics, as documented. -/
def metricTable : List (Option String × Metric) :=
  [(none, .shared), (some "cosine", .cosine), (some "jaccard", .jaccard), (some "overlap", .overlap), (some "dice", .dice),
    (some "binary_cosine", .binaryCosine)]

theorem ofName_spec (name : Option String) : (∀ m, Metric.ofName name = .ok m ↔ (name, m) ∈ metricTable) ∧
    ((∀ m, (name, m) ∉ metricTable) → Metric.ofName name = .error .typeError) := by
  unfold Metric.ofName metricTable
  constructor
  · intro m
    split
    · simp [eq_comm]
    · simp [eq_comm]
    · simp [eq_comm]
    · simp [eq_comm]
    · simp [eq_comm]
    · simp [eq_comm]
    · simp_all
  · intro h
    split <;> first | rfl | (exfalso; simp at h)

/-- What is wrong with the arguments: an unknown metric; with the check, an edge which shows that there are not two parts; a node without
a part; and, following the edges, a greater node two steps away from one of the part, which is not of the part or whose weights are all
zero for the cosine. -/
inductive ProjectionFault (g : Graph α (Option ℝ)) (project : π) (part : α → Option π) (name : Option String) (topo check : Bool) : PyErr → Prop
  | metric : (∀ m, (name, m) ∉ metricTable) → ProjectionFault g project part name topo check .typeError
  | noPartEdge (m bad) : (name, m) ∈ metricTable → check = true →
      FirstBad part ((Sparsification.edgesFrom g []).map fun e => (e.1, e.2.1)) bad → part bad.1 = none ∨ part bad.2 = none →
      ProjectionFault g project part name topo check .keyError
  | notTwo (m bad) : (name, m) ∈ metricTable → check = true →
      FirstBad part ((Sparsification.edgesFrom g []).map fun e => (e.1, e.2.1)) bad → part bad.1 ≠ none → part bad.2 ≠ none →
      ProjectionFault g project part name topo check .typeError
  | noPart (m a) : (name, m) ∈ metricTable → (check = true → TwoParts part ((Sparsification.edgesFrom g []).map fun e => (e.1, e.2.1))) →
      a ∈ g.keys → part a = none → ProjectionFault g project part name topo check .keyError
  | noVector (m a np b) : (name, m) ∈ metricTable →
      (check = true → TwoParts part ((Sparsification.edgesFrom g []).map fun e => (e.1, e.2.1))) → (∀ a ∈ g.keys, part a ≠ none) →
      topo = true → part a = some project → NonZero g m a → a < b → np ∈ nbrs g a → b ∈ nbrs g np →
      (part b ≠ some project ∨ ¬ NonZero g m b) → ProjectionFault g project part name topo check .keyError

/-- **C93**: on every undirected graph, `monopartite_projection` raises exactly on these faults, and otherwise returns the projection. -/
theorem projection_exact {g : Graph α (Option ℝ)} (hg : Undirected g) (project : π) (part : α → Option π) (name : Option String)
    (threshold : Option ℝ) (topo check : Bool) :
    (∀ e, monopartiteProjection g project part name threshold topo check = .error e ↔ ProjectionFault g project part name topo check e) ∧
    ∀ g', monopartiteProjection g project part name threshold topo check = .ok g' →
      ∃ m, (name, m) ∈ metricTable ∧ IsProjection g part project m threshold g' := by
  obtain ⟨n1, n2⟩ := ofName_spec name
  by_cases hname : ∀ m, (name, m) ∉ metricTable
  · have hrun : monopartiteProjection g project part name threshold topo check = .error .typeError := by
      unfold monopartiteProjection
      rw [n2 hname]
      rfl
    rw [hrun]
    refine ⟨fun e => ⟨fun h => ?_, fun h => ?_⟩, fun g' h => by cases h⟩
    · injection h with h
      subst h
      exact .metric hname
    · cases h with
      | metric _ => rfl
      | noPartEdge m _ hm => exact absurd hm (hname m)
      | notTwo m _ hm => exact absurd hm (hname m)
      | noPart m _ hm => exact absurd hm (hname m)
      | noVector m _ _ _ hm => exact absurd hm (hname m)
  push Not at hname
  obtain ⟨m, hm⟩ := hname
  have hok := (n1 m).mpr hm
  have huniq : ∀ m', (name, m') ∈ metricTable → m' = m := by
    intro m' hm'
    have := (n1 m').mpr hm'
    rw [hok] at this
    injection this with this
    exact this.symm
  obtain ⟨c1, c2⟩ := checkParts_spec part ((Sparsification.edgesFrom g []).map fun e => (e.1, e.2.1))
  by_cases hbad : check = true ∧ ¬ TwoParts part ((Sparsification.edgesFrom g []).map fun e => (e.1, e.2.1))
  · obtain ⟨hc, hnot⟩ := hbad
    cases hcheck : checkParts part ((Sparsification.edgesFrom g []).map fun e => (e.1, e.2.1)) [] with
    | ok x => exact absurd (c1.mp hcheck) hnot
    | error e =>
        have hrun : monopartiteProjection g project part name threshold topo check = .error e := by
          unfold monopartiteProjection
          simp only [hok, hc, hcheck, bind, Except.bind, if_true]
        rw [hrun]
        obtain ⟨bad, hb, he⟩ := (c2 e).mp hcheck
        refine ⟨fun e' => ⟨fun h => ?_, fun h => ?_⟩, fun g' h => by cases h⟩
        · injection h with h
          subst h
          by_cases hn : part bad.1 = none ∨ part bad.2 = none
          · rw [if_pos hn] at he
            rw [he]
            exact .noPartEdge m bad hm hc hb hn
          · rw [if_neg hn] at he
            rw [he]
            rw [not_or] at hn
            exact .notTwo m bad hm hc hb hn.1 hn.2
        · cases h with
          | metric h => exact absurd hm (h m)
          | noPartEdge _ bad' _ _ hb' hn =>
              rw [← firstBad_unique hb hb'] at hn
              rw [he, if_pos hn]
          | notTwo _ bad' _ _ hb' hn1 hn2 =>
              rw [← firstBad_unique hb hb'] at hn1 hn2
              rw [he, if_neg (by simp [hn1, hn2])]
          | noPart _ _ _ h => exact absurd (h hc) hnot
          | noVector _ _ _ _ _ h => exact absurd (h hc) hnot
  have hfine : check = true → TwoParts part ((Sparsification.edgesFrom g []).map fun e => (e.1, e.2.1)) :=
    fun h => by_contra fun h' => hbad ⟨h, h'⟩
  have hafter : ∀ bad, FirstBad part ((Sparsification.edgesFrom g []).map fun e => (e.1, e.2.1)) bad → check ≠ true := by
    rintro bad ⟨before, after, he, _, hb⟩ hc
    have := hfine hc
    rw [he, show before ++ bad :: after = before ++ [bad] ++ after by simp] at this
    exact hb (twoParts_prefix this)
  have hcheckok : check = true → checkParts part ((Sparsification.edgesFrom g []).map fun e => (e.1, e.2.1)) [] = .ok () :=
    fun h => c1.mpr (hfine h)
  have hunfold : monopartiteProjection g project part name threshold topo check = (do
      let nodes ← projected part project (Dict.keys g)
      let monopartite : Graph α ℝ := nodes.map fun node => (node, [])
      let vectors := vectorsOf m g nodes
      if topo then topology m threshold g vectors monopartite else quadratic m threshold vectors monopartite) := by
    unfold monopartiteProjection
    cases check with
    | false => simp only [hok, bind, Except.bind, Bool.false_eq_true, if_false, pure, Except.pure]
    | true => simp only [hok, hcheckok rfl, bind, Except.bind, if_true]
  rw [hunfold]
  by_cases hpart : ∃ a ∈ g.keys, part a = none
  · rw [projected_error part project _ hpart]
    obtain ⟨a, ha, hn⟩ := hpart
    refine ⟨fun e' => ⟨fun h => ?_, fun h => ?_⟩, fun g' h => by cases h⟩
    · injection h with h
      subst h
      exact .noPart m a hm hfine ha hn
    · cases h with
      | metric h => exact absurd hm (h m)
      | noPartEdge _ bad' _ hc hb' => exact absurd hc (hafter bad' hb')
      | notTwo _ bad' _ hc hb' => exact absurd hc (hafter bad' hb')
      | noPart => rfl
      | noVector => rfl
  have hpart : ∀ a ∈ g.keys, part a ≠ none := fun a ha h => hpart ⟨a, ha, h⟩
  rw [projected_eq part project _ (fun a ha => Option.isSome_iff_ne_none.mpr (hpart a ha))]
  simp only [bind, Except.bind]
  have hfault : ∀ e, ProjectionFault g project part name topo check e ↔ e = .keyError ∧ topo = true ∧ ¬ TwoSteps g part project m := by
    intro e
    constructor
    · intro h
      cases h with
      | metric h => exact absurd hm (h m)
      | noPartEdge _ bad' _ hc hb' => exact absurd hc (hafter bad' hb')
      | notTwo _ bad' _ hc hb' => exact absurd hc (hafter bad' hb')
      | noPart _ a _ _ ha hn => exact absurd hn (hpart a ha)
      | noVector m' a np b hm' _ _ ht ha hz hlt hnp hb hbad =>
          obtain rfl := huniq m' hm'
          refine ⟨rfl, ht, fun h => ?_⟩
          obtain ⟨g1, g2⟩ := h a np b ha hz hlt hnp hb
          exact hbad.elim (fun h => h g1) (fun h => h g2)
    · rintro ⟨rfl, ht, h⟩
      unfold TwoSteps at h
      push Not at h
      obtain ⟨a, np, b, ha, hz, hlt, hnp, hb, hbad⟩ := h
      refine .noVector m a np b hm hfine hpart ht ha hz hlt hnp hb ?_
      by_cases h : part b = some project
      · exact .inr (hbad h)
      · exact .inl h
  change (∀ e, (if topo = true then topology m threshold g (vectorsOf m g (partNodes g part project))
      ((partNodes g part project).map fun node => (node, [])) else quadratic m threshold (vectorsOf m g (partNodes g part project))
      ((partNodes g part project).map fun node => (node, []))) = .error e ↔ _) ∧
    ∀ g', (if topo = true then topology m threshold g (vectorsOf m g (partNodes g part project))
      ((partNodes g part project).map fun node => (node, [])) else quadratic m threshold (vectorsOf m g (partNodes g part project))
      ((partNodes g part project).map fun node => (node, []))) = .ok g' → _
  have hgood : ∀ {r : Py (Graph α ℝ)}, (∃ s, r = .ok s ∧ IsProjection g part project m threshold s) →
      (¬ (topo = true ∧ ¬ TwoSteps g part project m)) →
      (∀ e, r = .error e ↔ ProjectionFault g project part name topo check e) ∧
      ∀ g', r = .ok g' → ∃ m, (name, m) ∈ metricTable ∧ IsProjection g part project m threshold g' := by
    rintro r ⟨s, rfl, hs⟩ hno
    refine ⟨fun e => ?_, fun g' h => ?_⟩
    · rw [hfault]
      exact ⟨(fun h => by cases h), fun h => absurd h.2 hno⟩
    · injection h with h
      exact ⟨m, hm, h ▸ hs⟩
  cases topo with
  | false =>
      simp only [Bool.false_eq_true, if_false]
      exact hgood (quadratic_projection hg threshold) (by simp)
  | true =>
      simp only [if_true]
      by_cases h2 : TwoSteps g part project m
      · exact hgood (topology_projection hg h2 threshold) (by simp [h2])
      · rw [topology_error hg h2 threshold]
        refine ⟨fun e => ?_, fun g' h => by cases h⟩
        rw [hfault]
        refine ⟨fun h => ?_, fun h => by rw [h.1]⟩
        injection h with h
        exact ⟨h.symm, rfl, h2⟩

example : Undirected zeroGraph := zero_undirected

/-- With a metric of another name the function raises a `TypeError`, whatever the graph. -/
example : monopartiteProjection zeroGraph 0 zeroPart (some "cosin") none false false = .error .typeError :=
  ((projection_exact zero_undirected 0 zeroPart (some "cosin") none false false).1 _).mpr (.metric (by simp [metricTable]))

/-- When all nodes have the same part, the first edge is bad. -/
example : FirstBad (fun _ : Nat => some 0) [(0, 2), (1, 2)] (0, 2) :=
  ⟨[], [(1, 2)], rfl, ⟨by simp, none, none, by simp⟩, fun h => by
    obtain ⟨p, q, h1, h2, h3⟩ := h.1 (0, 2) (by simp)
    exact h3 ((Option.some.inj h1).symm.trans (Option.some.inj h2))⟩

/-- Without the check, a node two steps away which is not of the part makes the topology version raise, although the other version does
not. -/
theorem projection_modes_disagree : monopartiteProjection zeroGraph 0 (fun n => if n = 0 then some 0 else some 1) (some "jaccard") none true false =
      .error .keyError ∧
    ∃ g', monopartiteProjection zeroGraph 0 (fun n => if n = 0 then some 0 else some 1) (some "jaccard") none false false = .ok g' := by
  have hn02 : (2 : Nat) ∈ nbrs zeroGraph 0 := (mem_nbrs zero_undirected _ _).mpr ⟨some 1, zero_edge.mpr (by simp)⟩
  have hn21 : (1 : Nat) ∈ nbrs zeroGraph 2 := (mem_nbrs zero_undirected _ _).mpr ⟨some 0, zero_edge.mpr (by simp)⟩
  constructor
  · refine ((projection_exact zero_undirected 0 _ (some "jaccard") none true false).1 _).mpr ?_
    refine .noVector .jaccard 0 2 1 (by simp [metricTable]) (by simp) ?_ rfl rfl ⟨2, hn02, by simp⟩ (by decide) hn02 hn21 (.inl (by simp))
    intro a _
    by_cases h : a = 0 <;> simp [h]
  · cases h : monopartiteProjection zeroGraph 0 (fun n => if n = 0 then some 0 else some 1) (some "jaccard") none false false with
    | ok g' => exact ⟨g', rfl⟩
    | error e =>
        exfalso
        have := ((projection_exact zero_undirected 0 _ (some "jaccard") none false false).1 e).mp h
        clear h
        cases this with
        | metric h => exact h .jaccard (by simp [metricTable])
        | noPartEdge _ _ _ h => cases h
        | notTwo _ _ _ h => cases h
        | noPart _ a _ _ _ h => by_cases ha : a = 0 <;> simp [ha] at h
        | noVector _ _ _ _ _ _ _ h => cases h

end Fog.Props
