import Verif.Model.GraphUtils
import Verif.Lemmas.Components
import Mathlib.Data.List.Sort
import Mathlib.Data.List.Nodup

/-!
# C47: sizes of components
-/

namespace Fog.Props

open GraphUtils Spec

variable {α ω : Type _} [DecidableEq α]

/-- `w` is the data of the edge between `a` and `b`. -/
def Edge (g : Graph α ω) (a b : α) (w : ω) : Prop := ∃ edges, (a, edges) ∈ g ∧ (b, w) ∈ edges

/-- What an undirected `networkx` graph satisfies. -/
structure Undirected (g : Graph α ω) : Prop where
  nodes : g.keys.Nodup
  neighbors : ∀ p ∈ g, (Dict.keys p.2).Nodup
  symm : ∀ a b w, Edge g a b w → Edge g b a w

/-- The edges accepted by a filter. -/
def Kept (g : Graph α ω) (f : Option (α → α → ω → Bool)) (a b : α) : Prop :=
  ∃ w, Edge g a b w ∧ ∀ f', f = some f' → f' a b w = true

theorem mem_accepted {g : Graph α ω} (hg : Undirected g) {f : Option (α → α → ω → Bool)} {a : α} {edges : Dict α ω}
    (h : g.get? a = some edges) (b : α) : b ∈ accepted f a edges ↔ Kept g f a b := by
  unfold accepted Kept Edge
  simp only [List.mem_map, List.mem_filter, Prod.exists, exists_and_right, exists_eq_right]
  constructor
  · rintro ⟨w, hw, hf⟩
    refine ⟨w, ⟨edges, Dict.mem_of_get? h, hw⟩, ?_⟩
    rintro f' rfl
    exact hf
  · rintro ⟨w, ⟨edges', hm, hw⟩, hf⟩
    have := Dict.get?_of_mem hg.nodes hm
    rw [h] at this
    injection this with this
    subst this
    refine ⟨w, hw, ?_⟩
    cases f with
    | none => rfl
    | some f => exact hf f rfl

theorem kept_symm {g : Graph α ω} (hg : Undirected g) {f : Option (α → α → ω → Bool)}
    (hf : ∀ f', f = some f' → ∀ a b w, f' a b w = f' b a w) (a b : α) (h : Kept g f a b) : Kept g f b a := by
  obtain ⟨w, h1, h2⟩ := h
  exact ⟨w, hg.symm _ _ _ h1, fun f' hf' => by rw [hf f' hf']; exact h2 f' hf'⟩

theorem kept_node {g : Graph α ω} {f : Option (α → α → ω → Bool)} {a b : α} (h : Kept g f a b) : a ∈ g.keys := by
  obtain ⟨w, ⟨edges, h1, _⟩, _⟩ := h
  exact List.mem_map.mpr ⟨_, h1, rfl⟩

/-- Invariant of the `while` loop: `V` is what was seen before `item`. -/
structure WhileInv (R : α → α → Prop) (N : α → Prop) (V : List α) (item : α) (stack cluster : List α) : Prop where
  nodup : cluster.Nodup
  fresh : ∀ x ∈ cluster, x ∉ V
  reach : ∀ x ∈ cluster, Connected R item x
  reachS : ∀ x ∈ stack, Connected R item x ∧ N x
  closed : ∀ x ∈ cluster, ∀ y, R x y → y ∈ cluster ∨ y ∈ V ∨ y ∈ stack
  start : item ∈ cluster ∨ item ∈ stack

theorem while_spec {g : Graph α ω} (hg : Undirected g) {f : Option (α → α → ω → Bool)}
    (hf : ∀ f', f = some f' → ∀ a b w, f' a b w = f' b a w) {V : List α} {item : α} (hitem : item ∉ V)
    (stack seen : List α) (c : Nat) : ∀ cluster, seen = cluster ++ V → c = cluster.length →
    WhileInv (Kept g f) (· ∈ g.keys) V item stack cluster →
    ∃ cluster', search g f stack seen c = .ok (cluster' ++ V, cluster'.length) ∧
      WhileInv (Kept g f) (· ∈ g.keys) V item [] cluster' := by
  induction stack, seen, c using search.induct g f with
  | case1 seen c =>
      rintro cluster rfl rfl inv
      exact ⟨cluster, by simp [search], inv⟩
  | case2 n1 stack seen c hv ih =>
      rintro cluster rfl rfl inv
      obtain ⟨cluster', h1, h2⟩ := ih cluster rfl rfl (by
        refine ⟨inv.nodup, inv.fresh, inv.reach, fun x hx => inv.reachS x (by simp [hx]), ?_, ?_⟩
        · intro x hx y hy
          rcases inv.closed x hx y hy with h | h | h
          · exact Or.inl h
          · exact Or.inr (Or.inl h)
          · rcases List.mem_cons.mp h with rfl | h
            · rcases List.mem_append.mp hv with h | h
              · exact Or.inl h
              · exact Or.inr (Or.inl h)
            · exact Or.inr (Or.inr h)
        · rcases inv.start with h | h
          · exact Or.inl h
          · rcases List.mem_cons.mp h with rfl | h
            · rcases List.mem_append.mp hv with h | h
              · exact Or.inl h
              · exact absurd h hitem
            · exact Or.inr h)
      refine ⟨cluster', ?_, h2⟩
      rw [search]; simp only [hv, dif_pos]; exact h1
  | case3 n1 stack seen c hv hnone =>
      rintro cluster rfl rfl inv
      have := (inv.reachS n1 (by simp)).2
      exact absurd this ((Dict.get?_eq_none_iff g n1).mp hnone)
  | case4 n1 stack seen c hv edges hsome ih =>
      rintro cluster rfl rfl inv
      have hv' : n1 ∉ cluster ∧ n1 ∉ V := by simpa using hv
      have hreach := (inv.reachS n1 (by simp)).1
      obtain ⟨cluster', h1, h2⟩ := ih (n1 :: cluster) rfl rfl (by
        refine ⟨?_, ?_, ?_, ?_, ?_, ?_⟩
        · exact List.nodup_cons.mpr ⟨hv'.1, inv.nodup⟩
        · intro x hx
          rcases List.mem_cons.mp hx with rfl | hx
          · exact hv'.2
          · exact inv.fresh x hx
        · intro x hx
          rcases List.mem_cons.mp hx with rfl | hx
          · exact hreach
          · exact inv.reach x hx
        · intro x hx
          rcases List.mem_append.mp hx with hx | hx
          · have hr := (mem_accepted hg hsome x).mp (List.mem_reverse.mp hx)
            exact ⟨Connected.trans hreach (Connected.single hr), kept_node (kept_symm hg hf _ _ hr)⟩
          · exact inv.reachS x (by simp [hx])
        · intro x hx y hy
          rcases List.mem_cons.mp hx with rfl | hx
          · exact Or.inr (Or.inr (by
              rw [List.mem_append, List.mem_reverse]; exact Or.inl ((mem_accepted hg hsome y).mpr hy)))
          · rcases inv.closed x hx y hy with h | h | h
            · exact Or.inl (by simp [h])
            · exact Or.inr (Or.inl h)
            · rcases List.mem_cons.mp h with rfl | h
              · exact Or.inl (by simp)
              · exact Or.inr (Or.inr (by simp [h]))
        · rcases inv.start with h | h
          · exact Or.inl (by simp [h])
          · rcases List.mem_cons.mp h with rfl | h
            · exact Or.inl (by simp)
            · exact Or.inr (by simp [h]))
      refine ⟨cluster', ?_, h2⟩
      rw [search]
      simp only [hv, dif_neg, not_false_eq_true]
      split
      · next h => rw [hsome] at h; cases h
      · next edges' h =>
          rw [hsome] at h
          cases h
          exact h1

theorem sizesLoop_spec {g : Graph α ω} (hg : Undirected g) {f : Option (α → α → ω → Bool)}
    (hf : ∀ f', f = some f' → ∀ a b w, f' a b w = f' b a w) : ∀ (nodes V : List α), (∀ x ∈ nodes, x ∈ g.keys) →
    (∀ a b, a ∈ V → Kept g f a b → b ∈ V) →
    ∃ comps : List (List α), sizesLoop g f nodes V = .ok (comps.map List.length) ∧
      (∀ c ∈ comps, (∀ x ∈ c, x ∉ V) ∧ ∃ a ∈ nodes, IsComponentOf (Kept g f) a c) ∧
      (∀ a ∈ nodes, a ∉ V → ∃ c ∈ comps, a ∈ c) ∧
      comps.Pairwise (fun c d => ∀ x, x ∈ c → x ∉ d) := by
  intro nodes
  induction nodes with
  | nil => intro V _ _; exact ⟨[], by simp [sizesLoop], by simp, by simp, by simp⟩
  | cons node nodes ih =>
      intro V hn hV
      have hn' : ∀ x ∈ nodes, x ∈ g.keys := fun x hx => hn x (by simp [hx])
      by_cases hi : node ∈ V
      · obtain ⟨comps, h1, h2, h3, h4⟩ := ih V hn' hV
        refine ⟨comps, by rw [sizesLoop, if_pos hi]; exact h1, ?_, ?_, h4⟩
        · intro c hc
          obtain ⟨ha, a, hb, h⟩ := h2 c hc
          exact ⟨ha, a, by simp [hb], h⟩
        · intro a ha haV
          rcases List.mem_cons.mp ha with rfl | ha
          · exact absurd hi haV
          · exact h3 a ha haV
      · obtain ⟨c, s1, inv⟩ := while_spec hg hf hi [node] V 0 [] rfl rfl
          ⟨by simp, by simp, by simp, by
            intro x hx
            rw [List.mem_singleton.mp hx]
            exact ⟨.refl _, hn node (by simp)⟩, by simp, by simp⟩
        have hnode : node ∈ c := by simpa using inv.start
        have hclosed : ∀ a b, a ∈ c ++ V → Kept g f a b → b ∈ c ++ V := by
          intro a b ha hr
          rcases List.mem_append.mp ha with h | h
          · rcases inv.closed a h b hr with h | h | h
            · simp [h]
            · simp [h]
            · simp at h
          · simp [hV a b h hr]
        have hcomp : IsComponentOf (Kept g f) node c := by
          refine ⟨inv.nodup, fun x => ⟨inv.reach x, fun hx => ?_⟩⟩
          have hxv := Connected.mem_closed (V := fun x => x ∈ c ++ V) hclosed hx (by simp [hnode])
          rcases List.mem_append.mp hxv with h | h
          · exact h
          · exact absurd (Connected.mem_closed (V := fun x => x ∈ V) hV (Connected.symm (kept_symm hg hf) hx) h) hi
        obtain ⟨comps, h1, h2, h3, h4⟩ := ih (c ++ V) hn' hclosed
        refine ⟨c :: comps, ?_, ?_, ?_, ?_⟩
        · rw [sizesLoop, if_neg hi, s1]
          simp only [bind, Except.bind, h1, pure, Except.pure, List.map_cons]
        · intro d hd
          rcases List.mem_cons.mp hd with rfl | hd
          · exact ⟨inv.fresh, node, by simp, hcomp⟩
          · obtain ⟨ha, a, hb, h⟩ := h2 d hd
            exact ⟨fun x hx hxV => ha x hx (by simp [hxV]), a, by simp [hb], h⟩
        · intro a ha haV
          rcases List.mem_cons.mp ha with rfl | ha
          · exact ⟨c, by simp, hnode⟩
          · by_cases hac : a ∈ c
            · exact ⟨c, by simp, hac⟩
            · obtain ⟨d, hd, had⟩ := h3 a ha (by simp [hac, haV])
              exact ⟨d, by simp [hd], had⟩
        · refine List.Pairwise.cons ?_ h4
          intro d hd x hx hxd
          exact (h2 d hd).1 x hxd (by simp [hx])

/-- **C47**: `component_sizes` gives the sizes of the connected components of the graph of accepted edges, each once, and the sizes
add up to the number of nodes. -/
theorem component_sizes_eq {g : Graph α ω} (hg : Undirected g) {f : Option (α → α → ω → Bool)}
    (hf : ∀ f', f = some f' → ∀ a b w, f' a b w = f' b a w) :
    ∃ comps, componentSizes g f = .ok (comps.map List.length) ∧
      IsComponents (Kept g f) (· ∈ g.keys) (fun _ => True) comps ∧ (comps.map List.length).sum = g.length := by
  obtain ⟨comps, h1, h2, h3, h4⟩ := sizesLoop_spec hg hf g.keys [] (fun _ h => h) (by simp)
  refine ⟨comps, h1, ⟨?_, ?_, h4⟩, ?_⟩
  · intro c hc
    obtain ⟨_, a, ha, h⟩ := h2 c hc
    exact ⟨trivial, a, ha, h⟩
  · intro a ha _ _ _
    exact h3 a ha (by simp)
  · rw [← List.length_flatten]
    have hperm : comps.flatten.Perm g.keys := by
      rw [List.perm_ext_iff_of_nodup _ hg.nodes]
      · intro x
        rw [List.mem_flatten]
        constructor
        · rintro ⟨c, hc, hx⟩
          obtain ⟨_, a, ha, hcomp⟩ := h2 c hc
          exact Connected.mem_closed (V := fun x => x ∈ g.keys)
            (fun u v _ huv => kept_node (kept_symm hg hf _ _ huv)) ((hcomp.2 x).mp hx) ha
        · intro hx
          exact h3 x hx (by simp)
      · rw [List.nodup_flatten]
        refine ⟨fun c hc => ?_, ?_⟩
        · obtain ⟨_, a, _, hcomp⟩ := h2 c hc
          exact hcomp.1
        · exact h4.imp fun h x hx hy => h x hx hy
    rw [hperm.length_eq]
    simp [Dict.keys]

/-- **C47**: `second_largest_component_size` gives the second largest size, or nothing when there are fewer than two components. -/
theorem second_largest_eq {g : Graph α ω} {f : Option (α → α → ω → Bool)} {sizes : List Nat} (h : componentSizes g f = .ok sizes) :
    (sizes.length < 2 → secondLargest g f = .ok none) ∧
    (2 ≤ sizes.length → ∃ a b rest, sizes.Perm (a :: b :: rest) ∧ b ≤ a ∧ (∀ x ∈ rest, x ≤ b) ∧ secondLargest g f = .ok (some b)) := by
  have hperm := List.mergeSort_perm sizes (fun a b => decide (b ≤ a))
  have hsorted : (sizes.mergeSort fun a b => decide (b ≤ a)).Pairwise (fun a b => b ≤ a) := by
    have := List.pairwise_mergeSort (le := fun a b : Nat => decide (b ≤ a)) (by
      intro a b c hab hbc
      simp only [decide_eq_true_eq] at *; omega) (by
      intro a b
      simp only [Bool.or_eq_true, decide_eq_true_eq]; omega) sizes
    exact this.imp (fun h => of_decide_eq_true h)
  have hlen := hperm.length_eq
  constructor
  · intro hl
    unfold secondLargest
    simp only [h, bind, Except.bind]
    rw [if_pos]
    · rfl
    · rw [List.length_take]; omega
  · intro hl
    generalize hm : (sizes.mergeSort fun a b => decide (b ≤ a)) = sorted at hperm hsorted hlen
    match sorted, hm with
    | [], _ => simp at hlen; omega
    | [a], _ => simp at hlen; omega
    | a :: b :: rest, hm =>
        simp only [List.pairwise_cons] at hsorted
        refine ⟨a, b, rest, hperm.symm, hsorted.1 b (by simp), hsorted.2.1, ?_⟩
        unfold secondLargest
        simp only [h, bind, Except.bind, hm]
        rfl

-- A graph of four nodes and three edges, one of which is refused.
example : Undirected ([(1, [(2, 5), (4, 1)]), (2, [(1, 5)]), (3, [(4, 7)]), (4, [(3, 7), (1, 1)])] : Graph Nat Nat) := by
  refine ⟨by decide, by decide, ?_⟩
  rintro a b w ⟨edges, h1, h2⟩
  simp only [List.mem_cons, Prod.mk.injEq, List.not_mem_nil, or_false] at h1
  rcases h1 with ⟨rfl, rfl⟩ | ⟨rfl, rfl⟩ | ⟨rfl, rfl⟩ | ⟨rfl, rfl⟩ <;>
    simp only [List.mem_cons, Prod.mk.injEq, List.not_mem_nil, or_false] at h2
  · rcases h2 with ⟨rfl, rfl⟩ | ⟨rfl, rfl⟩
    · exact ⟨[(1, 5)], by decide, by decide⟩
    · exact ⟨[(3, 7), (1, 1)], by decide, by decide⟩
  · obtain ⟨rfl, rfl⟩ := h2; exact ⟨[(2, 5), (4, 1)], by decide, by decide⟩
  · obtain ⟨rfl, rfl⟩ := h2; exact ⟨[(3, 7), (1, 1)], by decide, by decide⟩
  · rcases h2 with ⟨rfl, rfl⟩ | ⟨rfl, rfl⟩
    · exact ⟨[(4, 7)], by decide, by decide⟩
    · exact ⟨[(2, 5), (4, 1)], by decide, by decide⟩

example : componentSizes ([(1, [(2, 5), (4, 1)]), (2, [(1, 5)]), (3, [(4, 7)]), (4, [(3, 7), (1, 1)])] : Graph Nat Nat)
    (some fun _ _ w => decide (5 ≤ w)) = .ok [2, 2] := by
  simp [componentSizes, sizesLoop, search, accepted, Dict.keys, Dict.get?, bind, Except.bind, pure, Except.pure]

end Fog.Props
