import Verif.Spec.Graph
import Verif.Lemmas.Dict
import Verif.Model.ClusteringUtils

/-!
# The graph search finds the connected components
-/

namespace Fog.ClusteringUtils

open Fog.Spec

variable {α : Type _} [DecidableEq α]

theorem sizeOk_iff (min : Nat) (max : Option Nat) (n : Nat) : sizeOk min max n = true ↔ SizeBetween min max n := by
  cases max <;> simp [sizeOk, SizeBetween]

/-! ### Connectivity -/

omit [DecidableEq α] in
theorem _root_.Fog.Spec.Connected.single {R : α → α → Prop} {a b : α} (h : R a b) : Connected R a b := .step h (.refl b)

omit [DecidableEq α] in
theorem _root_.Fog.Spec.Connected.trans {R : α → α → Prop} {a b c : α} (h : Connected R a b) (h2 : Connected R b c) :
    Connected R a c := by
  induction h with
  | refl => exact h2
  | step h _ ih => exact .step h (ih h2)

omit [DecidableEq α] in
theorem _root_.Fog.Spec.Connected.symm {R : α → α → Prop} (hs : ∀ a b, R a b → R b a) {a b : α} (h : Connected R a b) :
    Connected R b a := by
  induction h with
  | refl => exact .refl _
  | step h _ ih => exact Connected.trans ih (Connected.single (hs _ _ h))

omit [DecidableEq α] in
theorem _root_.Fog.Spec.Connected.mem_closed {R : α → α → Prop} {V : α → Prop} (hV : ∀ a b, V a → R a b → V b) {a b : α}
    (h : Connected R a b) (ha : V a) : V b := by
  induction h with
  | refl => exact ha
  | step h _ ih => exact ih (hV _ _ ha h)

omit [DecidableEq α] in
theorem _root_.Fog.Spec.Connected.mono {R S : α → α → Prop} (h : ∀ a b, R a b → S a b) {a b : α} (hc : Connected R a b) :
    Connected S a b := by
  induction hc with
  | refl => exact .refl _
  | step h1 _ ih => exact .step (h _ _ h1) ih

omit [DecidableEq α] in
theorem linked_symm (pairs : List (α × α)) (a b : α) (h : Linked pairs a b) : Linked pairs b a := h.symm

/-! ### The graph -/

theorem mem_add (fuzzy : Bool) (c : List α) (x y : α) : y ∈ add fuzzy c x ↔ y ∈ c ∨ y = x := by
  unfold add
  split
  · next h =>
      simp at h
      constructor
      · exact Or.inl
      · rintro (h1 | rfl)
        · exact h1
        · exact h.2
  · simp

theorem nodup_add {c : List α} (h : c.Nodup) (x : α) : (add true c x).Nodup := by
  unfold add
  split
  · exact h
  · next hx =>
      simp at hx
      rw [List.nodup_append]
      exact ⟨h, by simp, by rintro a ha b hb rfl; simp at hb; subst hb; exact hx ha⟩

/-- What the graph is for: neighbours of each key. -/
structure Represents (graph : Dict α (List α)) (R : α → α → Prop) : Prop where
  nodup : graph.keys.Nodup
  nb : ∀ a l, graph.get? a = some l → ∀ b, b ∈ l ↔ R a b
  node : ∀ a, (∃ l, graph.get? a = some l) ↔ ∃ b, R a b

theorem represents_addPair {fuzzy : Bool} {graph : Dict α (List α)} {R : α → α → Prop} (h : Represents graph R)
    (p : α × α) : Represents (addPair fuzzy graph p)
      (fun a b => R a b ∨ (a = p.1 ∧ b = p.2) ∨ (a = p.2 ∧ b = p.1)) := by
  obtain ⟨x, y⟩ := p
  have get0 : ∀ a b, b ∈ (graph.get? a).getD [] ↔ R a b := by
    intro a b
    cases hg : graph.get? a with
    | none =>
        simp
        intro hr
        obtain ⟨l, hl⟩ := (h.node a).mpr ⟨b, hr⟩
        rw [hg] at hl; cases hl
    | some l => simpa using h.nb a l hg b
  refine ⟨Dict.nodup_keys_update (Dict.nodup_keys_update h.nodup _ _ _) _ _ _, ?_, ?_⟩
  · intro a l hl b
    simp only [addPair, Dict.get?_update] at hl
    by_cases h1 : y = a
    · subst h1
      by_cases h2 : x = y
      · subst h2
        simp at hl; subst hl
        simp only [mem_add, get0]
        simp
      · simp [h2] at hl; subst hl
        simp only [mem_add, get0]
        simp [Ne.symm h2]
    · simp only [h1, if_false] at hl
      by_cases h2 : x = a
      · subst h2
        simp at hl; subst hl
        simp only [mem_add, get0]
        simp [Ne.symm h1]
      · simp only [h2, if_false] at hl
        rw [h.nb a l hl b]
        simp [Ne.symm h1, Ne.symm h2]
  · intro a
    simp only [addPair, Dict.get?_update]
    by_cases h1 : y = a
    · subst h1
      simp only [if_true]
      exact ⟨fun _ => ⟨x, by simp⟩, fun _ => ⟨_, rfl⟩⟩
    · simp only [h1, if_false]
      by_cases h2 : x = a
      · subst h2
        simp only [if_true]
        exact ⟨fun _ => ⟨y, by simp⟩, fun _ => ⟨_, rfl⟩⟩
      · simp only [h2, if_false]
        rw [h.node a]
        simp [Ne.symm h1, Ne.symm h2]

theorem Represents.congr {graph : Dict α (List α)} {R S : α → α → Prop} (h : Represents graph R)
    (hRS : ∀ a b, R a b ↔ S a b) : Represents graph S := by
  refine ⟨h.nodup, fun a l hl b => (h.nb a l hl b).trans (hRS a b), fun a => ?_⟩
  rw [h.node a]
  exact ⟨fun ⟨b, hb⟩ => ⟨b, (hRS a b).mp hb⟩, fun ⟨b, hb⟩ => ⟨b, (hRS a b).mpr hb⟩⟩

theorem represents_foldl {fuzzy : Bool} (pairs : List (α × α)) {graph : Dict α (List α)} {R : α → α → Prop}
    (h : Represents graph R) :
    Represents (pairs.foldl (addPair fuzzy) graph) (fun a b => R a b ∨ Linked pairs a b) := by
  induction pairs generalizing graph R with
  | nil => exact h.congr (by simp [Linked])
  | cons p pairs ih =>
      refine (ih (represents_addPair (fuzzy := fuzzy) h p)).congr ?_
      intro a b
      obtain ⟨x, y⟩ := p
      simp only [Linked, List.mem_cons, Prod.mk.injEq]
      grind

theorem represents_makeGraph (fuzzy : Bool) (pairs : List (α × α)) :
    Represents (makeGraph fuzzy pairs) (Linked pairs) := by
  have h0 : Represents ([] : Dict α (List α)) (fun _ _ => False) :=
    ⟨by simp [Dict.keys], by simp [Dict.get?], by simp [Dict.get?]⟩
  exact (represents_foldl pairs h0).congr (by simp)

/-! ### The search -/

theorem mem_iterate {fuzzy : Bool} {ord : α → List α → List α} (hord : ∀ a l x, x ∈ ord a l ↔ x ∈ l) (a : α)
    (l : List α) (x : α) : x ∈ iterate fuzzy ord a l ↔ x ∈ l := by
  unfold iterate; split
  · exact hord a l x
  · rfl

/-- Invariant of the `while` loop: `V` is what was visited before `item`. -/
structure SearchInv (R : α → α → Prop) (V : List α) (item : α) (stack visited cluster : List α) : Prop where
  nodup : cluster.Nodup
  vis : ∀ x, x ∈ visited ↔ x ∈ V ∨ x ∈ cluster
  fresh : ∀ x ∈ cluster, x ∉ V
  reach : ∀ x ∈ cluster, Connected R item x
  reachS : ∀ x ∈ stack, Connected R item x ∧ ∃ y, R x y
  closed : ∀ x ∈ cluster, ∀ y, R x y → y ∈ visited ∨ y ∈ stack

theorem search_spec {fuzzy : Bool} {ord : α → List α → List α} (hord : ∀ a l x, x ∈ ord a l ↔ x ∈ l)
    {graph : Dict α (List α)} {R : α → α → Prop} (hs : ∀ a b, R a b → R b a) (hg : Represents graph R) {V : List α}
    {item : α} (stack visited cluster : List α) (inv : SearchInv R V item stack visited cluster) :
    ∃ c v, search fuzzy ord graph stack visited cluster = .ok (c, v) ∧ SearchInv R V item [] v c ∧
      (∀ x ∈ cluster, x ∈ c) := by
  induction stack, visited, cluster using search.induct fuzzy ord graph with
  | case1 visited cluster => exact ⟨cluster, visited, by simp [search], inv, fun _ h => h⟩
  | case2 neighbor stack visited cluster hv ih =>
      have inv' : SearchInv R V item stack visited cluster := by
        refine ⟨inv.nodup, inv.vis, inv.fresh, inv.reach, fun x hx => inv.reachS x (by simp [hx]), ?_⟩
        intro x hx y hy
        rcases inv.closed x hx y hy with h | h
        · exact Or.inl h
        · simp only [List.mem_cons] at h
          rcases h with rfl | h
          · exact Or.inl hv
          · exact Or.inr h
      obtain ⟨c, v, h1, h2, h3⟩ := ih inv'
      refine ⟨c, v, ?_, h2, h3⟩
      rw [search]; simp only [hv, dif_pos]; exact h1
  | case3 neighbor stack visited cluster hv hnone =>
      obtain ⟨_, hy⟩ := inv.reachS neighbor (by simp)
      obtain ⟨l, hl⟩ := (hg.node neighbor).mpr hy
      rw [hnone] at hl; cases hl
  | case4 neighbor stack visited cluster hv ns hsome ih =>
      have hfresh : neighbor ∉ V ∧ neighbor ∉ cluster := by
        have := inv.vis neighbor
        constructor
        · intro h; exact hv (this.mpr (Or.inl h))
        · intro h; exact hv (this.mpr (Or.inr h))
      have hreach := (inv.reachS neighbor (by simp)).1
      have inv' : SearchInv R V item ((iterate fuzzy ord neighbor ns).reverse ++ stack) (neighbor :: visited)
          (cluster ++ [neighbor]) := by
        refine ⟨?_, ?_, ?_, ?_, ?_, ?_⟩
        · rw [List.nodup_append]
          exact ⟨inv.nodup, by simp, by rintro a ha b hb rfl; simp at hb; subst hb; exact hfresh.2 ha⟩
        · intro x
          simp only [List.mem_cons, List.mem_append, inv.vis x, List.not_mem_nil, or_false]
          grind
        · intro x hx
          simp only [List.mem_append, List.mem_singleton] at hx
          rcases hx with hx | rfl
          · exact inv.fresh x hx
          · exact hfresh.1
        · intro x hx
          simp only [List.mem_append, List.mem_singleton] at hx
          rcases hx with hx | rfl
          · exact inv.reach x hx
          · exact hreach
        · intro x hx
          simp only [List.mem_append, List.mem_reverse, mem_iterate hord] at hx
          rcases hx with hx | hx
          · have hr := (hg.nb neighbor ns hsome x).mp hx
            exact ⟨Connected.trans hreach (Connected.single hr), ⟨neighbor, hs _ _ hr⟩⟩
          · exact inv.reachS x (by simp [hx])
        · intro x hx y hy
          simp only [List.mem_append, List.mem_singleton] at hx
          simp only [List.mem_cons, List.mem_append, List.mem_reverse, mem_iterate hord]
          rcases hx with hx | rfl
          · rcases inv.closed x hx y hy with h | h
            · exact Or.inl (Or.inr h)
            · simp only [List.mem_cons] at h
              rcases h with rfl | h
              · exact Or.inl (Or.inl rfl)
              · exact Or.inr (Or.inr h)
          · exact Or.inr (Or.inl ((hg.nb x ns hsome y).mpr hy))
      obtain ⟨c, v, h1, h2, h3⟩ := ih inv'
      refine ⟨c, v, ?_, h2, fun x hx => h3 x (by simp [hx])⟩
      rw [search]
      simp only [hv, dif_neg, not_false_eq_true]
      split
      · next h => rw [hsome] at h; cases h
      · next ns' h =>
          rw [hsome] at h
          cases h
          exact h1

/-- One cluster: the search started at a fresh item returns its component. -/
theorem search_component {fuzzy : Bool} {ord : α → List α → List α} (hord : ∀ a l x, x ∈ ord a l ↔ x ∈ l)
    {graph : Dict α (List α)} {R : α → α → Prop} (hs : ∀ a b, R a b → R b a) (hg : Represents graph R) {V : List α}
    (hV : ∀ a b, a ∈ V → R a b → b ∈ V) {item : α} (hi : item ∉ V) {ns : List α} (hns : graph.get? item = some ns) :
    ∃ c v, search fuzzy ord graph (iterate fuzzy ord item ns).reverse (item :: V) [item] = .ok (c, v) ∧
      IsComponentOf R item c ∧ (∀ x, x ∈ v ↔ x ∈ V ∨ x ∈ c) ∧ (∀ a b, a ∈ v → R a b → b ∈ v) ∧ item ∈ c ∧
      (∀ x ∈ c, x ∉ V) := by
  have inv : SearchInv R V item (iterate fuzzy ord item ns).reverse (item :: V) [item] := by
    refine ⟨by simp, ?_, ?_, ?_, ?_, ?_⟩
    · intro x; simp only [List.mem_cons, List.not_mem_nil, or_false]; exact Or.comm
    · intro x hx; simp at hx; subst hx; exact hi
    · intro x hx; simp at hx; subst hx; exact .refl _
    · intro x hx
      simp only [List.mem_reverse, mem_iterate hord] at hx
      have hr := (hg.nb item ns hns x).mp hx
      exact ⟨Connected.single hr, ⟨item, hs _ _ hr⟩⟩
    · intro x hx y hy
      simp at hx; subst hx
      right
      simp only [List.mem_reverse, mem_iterate hord]
      exact (hg.nb x ns hns y).mpr hy
  obtain ⟨c, v, h1, h2, h3⟩ := search_spec hord hs hg _ _ _ inv
  have hic := h3 item (by simp)
  have hclosed : ∀ a b, a ∈ v → R a b → b ∈ v := by
    intro a b ha hr
    rcases (h2.vis a).mp ha with h | h
    · exact (h2.vis b).mpr (Or.inl (hV a b h hr))
    · rcases h2.closed a h b hr with h | h
      · exact h
      · simp at h
  refine ⟨c, v, h1, ⟨h2.nodup, fun x => ⟨h2.reach x, ?_⟩⟩, h2.vis, hclosed, hic, h2.fresh⟩
  intro hc
  have hxv : x ∈ v := Connected.mem_closed (V := fun x => x ∈ v) hclosed hc ((h2.vis item).mpr (Or.inr hic))
  rcases (h2.vis x).mp hxv with h | h
  · exact absurd (Connected.mem_closed (V := fun x => x ∈ V) hV (Connected.symm hs hc) h) hi
  · exact h

/-- Invariant of the outer loop: what is left yields the components of the items not visited yet. -/
theorem components_spec {fuzzy : Bool} {ord : α → List α → List α} (hord : ∀ a l x, x ∈ ord a l ↔ x ∈ l)
    (min : Nat) (max : Option Nat) {graph : Dict α (List α)} {R : α → α → Prop} (hs : ∀ a b, R a b → R b a)
    (hg : Represents graph R) (items : List (α × List α)) (hitems : ∀ p ∈ items, graph.get? p.1 = some p.2)
    (V : List α) (hV : ∀ a b, a ∈ V → R a b → b ∈ V) :
    ∃ cs, components fuzzy ord min max graph items V = .ok cs ∧
      (∀ c ∈ cs, SizeBetween min max c.length ∧ (∀ x ∈ c, x ∉ V) ∧ ∃ p ∈ items, IsComponentOf R p.1 c) ∧
      (∀ p ∈ items, p.1 ∉ V → ∀ l, IsComponentOf R p.1 l → SizeBetween min max l.length → ∃ c ∈ cs, p.1 ∈ c) ∧
      cs.Pairwise (fun c d => ∀ x, x ∈ c → x ∉ d) := by
  induction items generalizing V with
  | nil => exact ⟨[], by simp [components], by simp, by simp, by simp⟩
  | cons p items ih =>
      obtain ⟨item, ns⟩ := p
      have hrest : ∀ p ∈ items, graph.get? p.1 = some p.2 := fun p hp => hitems p (by simp [hp])
      by_cases hi : item ∈ V
      · obtain ⟨cs, h1, h2, h3, h4⟩ := ih hrest V hV
        refine ⟨cs, by rw [components]; simp only [hi, if_true]; exact h1, ?_, ?_, h4⟩
        · intro c hc
          obtain ⟨a, b, p, hp, h⟩ := h2 c hc
          exact ⟨a, b, p, by simp [hp], h⟩
        · intro p hp
          simp only [List.mem_cons] at hp
          rcases hp with rfl | hp
          · intro h; exact absurd hi h
          · exact h3 p hp
      · obtain ⟨c, v, s1, s2, s3, s4, s5, s6⟩ :=
          search_component (fuzzy := fuzzy) hord hs hg hV hi (hitems (item, ns) (by simp))
        obtain ⟨cs, h1, h2, h3, h4⟩ := ih hrest v s4
        have hdis : ∀ d ∈ cs, ∀ x, x ∈ c → x ∉ d := fun d hd x hx hxd =>
          (h2 d hd).2.1 x hxd ((s3 x).mpr (Or.inr hx))
        have hlen : ∀ l, IsComponentOf R item l → l.length = c.length := by
          intro l hl
          have : l.Perm c := (List.perm_ext_iff_of_nodup hl.1 s2.1).mpr fun x => by rw [hl.2, s2.2]
          exact this.length_eq
        by_cases hsz : sizeOk min max c.length = true
        · refine ⟨c :: cs, ?_, ?_, ?_, ?_⟩
          · rw [components]; simp only [hi, if_false, s1, h1, bind, Except.bind, hsz, if_true]
          · intro d hd
            simp only [List.mem_cons] at hd
            rcases hd with rfl | hd
            · exact ⟨(sizeOk_iff ..).mp hsz, s6, (item, ns), by simp, s2⟩
            · obtain ⟨a, b, p, hp, h⟩ := h2 d hd
              exact ⟨a, fun x hx hxV => b x hx ((s3 x).mpr (Or.inl hxV)), p, by simp [hp], h⟩
          · intro p hp hpV l hl hsl
            simp only [List.mem_cons] at hp
            rcases hp with rfl | hp
            · exact ⟨c, by simp, s5⟩
            · by_cases hpc : p.1 ∈ c
              · exact ⟨c, by simp, hpc⟩
              · obtain ⟨d, hd, hpd⟩ := h3 p hp (fun h => (s3 p.1).mp h |>.elim hpV hpc) l hl hsl
                exact ⟨d, by simp [hd], hpd⟩
          · exact List.Pairwise.cons hdis h4
        · refine ⟨cs, ?_, ?_, ?_, h4⟩
          · rw [components]; simp only [hi, if_false, s1, h1, bind, Except.bind, hsz]; rfl
          · intro d hd
            obtain ⟨a, b, p, hp, h⟩ := h2 d hd
            exact ⟨a, fun x hx hxV => b x hx ((s3 x).mpr (Or.inl hxV)), p, by simp [hp], h⟩
          · intro p hp hpV l hl hsl
            have hpc : p.1 ∉ c := by
              intro hpc
              -- then `l` is the component `c`, of a refused size
              have hcon : Connected R item p.1 := (s2.2 p.1).mp hpc
              have : IsComponentOf R item l := by
                refine ⟨hl.1, fun x => ?_⟩
                rw [hl.2]
                exact ⟨fun h => Connected.trans hcon h, fun h => Connected.trans (Connected.symm hs hcon) h⟩
              rw [hlen l this] at hsl
              exact hsz ((sizeOk_iff ..).mpr hsl)
            simp only [List.mem_cons] at hp
            rcases hp with rfl | hp
            · exact absurd s5 hpc
            · exact h3 p hp (fun h => (s3 p.1).mp h |>.elim hpV hpc) l hl hsl

/-- In connected components mode, the clusters are the components. -/
theorem clustersFromPairs_components {ord : α → List α → List α} (hord : ∀ a l x, x ∈ ord a l ↔ x ∈ l)
    (pairs : List (α × α)) (min : Nat) (max : Option Nat) (fuzzy : Bool) :
    ∃ cs, clustersFromPairs ord pairs min max .connectedComponents fuzzy = .ok cs ∧
      IsComponents (Linked pairs) (fun a => ∃ b, Linked pairs a b) (SizeBetween min max) cs := by
  have hg := represents_makeGraph fuzzy pairs
  obtain ⟨cs, h1, h2, h3, h4⟩ := components_spec (fuzzy := fuzzy) hord min max (linked_symm pairs) hg
    (makeGraph fuzzy pairs) (fun p hp => Dict.get?_of_mem hg.nodup hp) [] (by simp)
  refine ⟨cs, h1, ?_, ?_, h4⟩
  · intro c hc
    obtain ⟨a, _, p, hp, h⟩ := h2 c hc
    exact ⟨a, p.1, (hg.node p.1).mp ⟨p.2, Dict.get?_of_mem hg.nodup hp⟩, h⟩
  · intro a ha l hl hsl
    obtain ⟨ns, hns⟩ := (hg.node a).mpr ha
    exact h3 (a, ns) (Dict.mem_of_get? hns) (by simp) l hl hsl

/-! ### Uniqueness of the components -/

omit [DecidableEq α] in
theorem _root_.Fog.Spec.IsComponents.congr {R S : α → α → Prop} {N M : α → Prop} {ok ok' : Nat → Prop} {cs : List (List α)}
    (h : IsComponents R N ok cs) (hRS : ∀ a b, Connected R a b ↔ Connected S a b) (hNM : ∀ a, N a ↔ M a)
    (hok : ∀ n, ok n ↔ ok' n) : IsComponents S M ok' cs := by
  have hc : ∀ a c, IsComponentOf R a c ↔ IsComponentOf S a c := by
    intro a c; simp only [IsComponentOf, hRS]
  refine ⟨?_, ?_, h.disjoint⟩
  · intro c hc'
    obtain ⟨h1, a, h2, h3⟩ := h.sound c hc'
    exact ⟨(hok _).mp h1, a, (hNM a).mp h2, (hc a c).mp h3⟩
  · intro a ha l hl hsl
    exact h.complete a ((hNM a).mpr ha) l ((hc a l).mpr hl) ((hok _).mpr hsl)

omit [DecidableEq α] in
theorem sameClusters_of_match (cs ds : List (List α)) (hne : ∀ d ∈ ds, d ≠ [])
    (h1 : ∀ c ∈ cs, ∃ d ∈ ds, c.Perm d) (h2 : ∀ d ∈ ds, ∃ c ∈ cs, c.Perm d)
    (hc : cs.Pairwise (fun c d => ∀ x, x ∈ c → x ∉ d)) (hd : ds.Pairwise (fun c d => ∀ x, x ∈ c → x ∉ d)) :
    SameClusters cs ds := by
  induction cs generalizing ds with
  | nil =>
      cases ds with
      | nil => exact .nil
      | cons d ds => obtain ⟨c, hc, _⟩ := h2 d (by simp); simp at hc
  | cons c cs ih =>
      obtain ⟨d, hdm, hp⟩ := h1 c (by simp)
      obtain ⟨d1, d2, rfl⟩ := List.append_of_mem hdm
      rw [List.pairwise_cons] at hc
      have hd' : (d1 ++ d2).Pairwise (fun c d => ∀ x, x ∈ c → x ∉ d) := by
        refine hd.sublist ?_
        exact List.Sublist.append (List.Sublist.refl _) (List.sublist_cons_self _ _)
      have hdis : ∀ e ∈ d1 ++ d2, ∀ x, x ∈ d → x ∉ e := by
        rw [List.pairwise_append, List.pairwise_cons] at hd
        intro e he x hx hxe
        simp only [List.mem_append] at he
        rcases he with he | he
        · exact hd.2.2 e he d (by simp) x hxe hx
        · exact hd.2.1.1 e he x hx hxe
      have hdne : ∃ x, x ∈ d := List.exists_mem_of_ne_nil d (hne d (by simp))
      refine .cons hp (ih (d1 ++ d2) ?_ ?_ ?_ hc.2 hd')
      · intro e he
        apply hne
        simp only [List.mem_append, List.mem_cons] at he ⊢
        rcases he with he | he
        · exact Or.inl he
        · exact Or.inr (Or.inr he)
      · intro c' hc'
        obtain ⟨e, he, hpe⟩ := h1 c' (by simp [hc'])
        simp only [List.mem_append, List.mem_cons] at he
        rcases he with he | rfl | he
        · exact ⟨e, by simp [he], hpe⟩
        · obtain ⟨x, hx⟩ := hdne
          exact absurd (hpe.mem_iff.mpr hx) (hc.1 c' hc' x (hp.mem_iff.mpr hx))
        · exact ⟨e, by simp [he], hpe⟩
      · intro e he
        obtain ⟨c', hc', hpe⟩ := h2 e (by
          simp only [List.mem_append, List.mem_cons] at he ⊢
          rcases he with he | he
          · exact Or.inl he
          · exact Or.inr (Or.inr he))
        simp only [List.mem_cons] at hc'
        rcases hc' with rfl | hc'
        · obtain ⟨x, hx⟩ := hdne
          exact absurd (hpe.mem_iff.mp (hp.mem_iff.mpr hx)) (hdis e he x hx)
        · exact ⟨c', hc', hpe⟩

omit [DecidableEq α] in
theorem _root_.Fog.Spec.IsComponents.nonempty {R : α → α → Prop} {N : α → Prop} {ok : Nat → Prop} {cs : List (List α)}
    (h : IsComponents R N ok cs) : ∀ c ∈ cs, c ≠ [] := by
  rintro c hc rfl
  obtain ⟨_, a, _, h3⟩ := h.sound [] hc
  have := (h3.2 a).mpr (.refl a)
  simp at this

omit [DecidableEq α] in
/-- The components of a graph are unique. -/
theorem _root_.Fog.Spec.IsComponents.unique {R : α → α → Prop} (hs : ∀ a b, R a b → R b a) {N : α → Prop} {ok : Nat → Prop}
    {cs ds : List (List α)} (h : IsComponents R N ok cs) (h' : IsComponents R N ok ds) : SameClusters cs ds := by
  have key : ∀ {cs ds : List (List α)}, IsComponents R N ok cs → IsComponents R N ok ds →
      ∀ c ∈ cs, ∃ d ∈ ds, c.Perm d := by
    intro cs ds h h' c hc
    obtain ⟨h1, a, h2, h3⟩ := h.sound c hc
    obtain ⟨d, hd, had⟩ := h'.complete a h2 c h3 h1
    refine ⟨d, hd, ?_⟩
    obtain ⟨_, b, _, hb⟩ := h'.sound d hd
    refine (List.perm_ext_iff_of_nodup h3.1 hb.1).mpr fun x => ?_
    rw [h3.2, hb.2]
    have hba := (hb.2 a).mp had
    exact ⟨fun h => Connected.trans hba h, fun h => Connected.trans (Connected.symm hs hba) h⟩
  refine sameClusters_of_match cs ds h'.nonempty (key h h') ?_ h.disjoint h'.disjoint
  intro d hd
  obtain ⟨c, hc, hp⟩ := key h' h d hd
  exact ⟨c, hc, hp.symm⟩

end Fog.ClusteringUtils
