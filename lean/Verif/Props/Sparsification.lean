import Verif.Model.Sparsification
import Verif.Props.GraphUtils
import Mathlib.Algebra.Order.Field.Basic
import Mathlib.Algebra.Order.Archimedean.Basic
import Mathlib.Tactic.Ring
import Mathlib.Tactic.Linarith
import Mathlib.Analysis.SpecialFunctions.Log.Basic
import Mathlib.Analysis.Complex.ExponentialBounds
import Mathlib.Algebra.Order.Floor.Semiring

/-!
# C48: floatsam sparsification
-/

namespace Fog.Props

open GraphUtils Sparsification Spec

variable {α K : Type _} [DecidableEq α] [Field K] [LinearOrder K]

/-- The nodes linked by an edge whose weight is at least `θ`. -/
def Above (g : Graph α K) (θ : K) (a b : α) : Prop := ∃ w, Edge g a b w ∧ θ ≤ w

/-- Without edges whose weight is below `θ`, at least two components have `m` nodes or more. -/
def Drifts (g : Graph α K) (m : Nat) (θ : K) : Prop :=
  ∃ a b la lb, a ∈ g.keys ∧ b ∈ g.keys ∧ IsComponentOf (Above g θ) a la ∧ IsComponentOf (Above g θ) b lb ∧
    ¬ Connected (Above g θ) a b ∧ m ≤ la.length ∧ m ≤ lb.length

theorem kept_above (g : Graph α K) (θ : K) : Kept g (some fun _ _ w => decide (w ≥ θ)) = Above g θ := by
  funext a b
  apply propext
  unfold Kept Above
  simp

theorem two_of_sorted {sizes rest : List Nat} {x y : Nat} (m : Nat) (hp : sizes.Perm (x :: y :: rest)) (hyx : y ≤ x)
    (hr : ∀ z ∈ rest, z ≤ y) : m ≤ y ↔ 2 ≤ (sizes.filter fun z => decide (m ≤ z)).length := by
  rw [(hp.filter _).length_eq]
  constructor
  · intro h
    have h2 : m ≤ x := le_trans h hyx
    simp [h, h2]
  · intro h
    by_contra hlt
    have : rest.filter (fun z => decide (m ≤ z)) = [] := by
      rw [List.filter_eq_nil_iff]
      intro z hz
      have := hr z hz
      simp; omega
    rw [List.filter_cons, List.filter_cons, this] at h
    simp only [hlt, decide_false, Bool.false_eq_true, if_false] at h
    split at h <;> simp at h

/-- The second largest component reaches a size exactly when two components do. -/
theorem second_largest_iff {g : Graph α K} (hg : Undirected g) (θ : K) (m : Nat) :
    (∃ c, secondLargest g (some fun _ _ w => decide (w ≥ θ)) = .ok c ∧ ((∃ n, c = some n ∧ m ≤ n) ↔ Drifts g m θ)) := by
  have hf : ∀ f', (some fun (_ _ : α) (w : K) => decide (w ≥ θ)) = some f' → ∀ a b w, f' a b w = f' b a w := by
    intro f' h a b w
    injection h with h
    subst h
    rfl
  obtain ⟨comps, h1, h2, _⟩ := component_sizes_eq hg hf
  rw [kept_above] at h2
  have hR : ∀ a b, Above g θ a b → Above g θ b a := by
    rintro a b ⟨w, h, hw⟩
    exact ⟨w, hg.symm _ _ _ h, hw⟩
  have key : Drifts g m θ ↔ 2 ≤ (comps.filter fun c => decide (m ≤ c.length)).length := by
    constructor
    · rintro ⟨a, b, la, lb, ha, hb, hla, hlb, hab, hma, hmb⟩
      obtain ⟨ca, hca, haca⟩ := h2.complete a ha la hla trivial
      obtain ⟨cb, hcb, hbcb⟩ := h2.complete b hb lb hlb trivial
      have hperm : ∀ {x : α} {l c : List α}, IsComponentOf (Above g θ) x l → c ∈ comps → x ∈ c → c.Perm l := by
        intro x l c hl hc hx
        obtain ⟨_, y, _, hy⟩ := h2.sound c hc
        refine (List.perm_ext_iff_of_nodup hy.1 hl.1).mpr fun z => ?_
        rw [hy.2, hl.2]
        have hyx := (hy.2 x).mp hx
        exact ⟨fun h => (hyx.symm hR).trans h, fun h => hyx.trans h⟩
      have hpa := hperm hla hca haca
      have hpb := hperm hlb hcb hbcb
      have hne : ca ≠ cb := by
        rintro rfl
        exact hab ((hla.2 b).mp (hpa.mem_iff.mp hbcb))
      have : [ca, cb].Subperm (comps.filter fun c => decide (m ≤ c.length)) := by
        apply List.subperm_of_subset
        · simpa using hne
        · intro c hc
          rw [List.mem_filter]
          rcases List.mem_cons.mp hc with rfl | hc
          · exact ⟨hca, decide_eq_true (by rw [hpa.length_eq]; exact hma)⟩
          · rw [List.mem_singleton] at hc
            subst hc
            exact ⟨hcb, decide_eq_true (by rw [hpb.length_eq]; exact hmb)⟩
      exact this.length_le
    · intro h
      match hl : comps.filter fun c => decide (m ≤ c.length) with
      | [] => rw [hl] at h; simp at h
      | [_] => rw [hl] at h; simp at h
      | ca :: cb :: rest =>
          have hca : ca ∈ comps ∧ m ≤ ca.length := by
            have : ca ∈ comps.filter fun c => decide (m ≤ c.length) := by rw [hl]; simp
            simpa using this
          have hcb : cb ∈ comps ∧ m ≤ cb.length := by
            have : cb ∈ comps.filter fun c => decide (m ≤ c.length) := by rw [hl]; simp
            simpa using this
          have hdis : ∀ x, x ∈ ca → x ∉ cb := by
            have := h2.disjoint.sublist (List.filter_sublist (p := fun c => decide (m ≤ c.length)))
            rw [hl, List.pairwise_cons] at this
            exact this.1 cb (by simp)
          obtain ⟨_, a, ha, hla⟩ := h2.sound ca hca.1
          obtain ⟨_, b, hb, hlb⟩ := h2.sound cb hcb.1
          refine ⟨a, b, ca, cb, ha, hb, hla, hlb, ?_, hca.2, hcb.2⟩
          intro hcon
          exact hdis b ((hla.2 b).mpr hcon) ((hlb.2 b).mpr (.refl b))
  have hfl : (comps.filter fun c => decide (m ≤ c.length)).length =
      ((comps.map List.length).filter fun z => decide (m ≤ z)).length := by
    rw [List.filter_map, List.length_map]
    rfl
  rw [key, hfl]
  obtain ⟨g1, g2⟩ := second_largest_eq h1
  by_cases hlen : (comps.map List.length).length < 2
  · refine ⟨none, g1 hlen, ?_⟩
    have := List.length_filter_le (fun z => decide (m ≤ z)) (comps.map List.length)
    constructor
    · rintro ⟨n, h, _⟩; simp at h
    · intro h; omega
  · obtain ⟨x, y, rest, hp, hyx, hr, he⟩ := g2 (by omega)
    refine ⟨some y, he, ?_⟩
    rw [← two_of_sorted m hp hyx hr]
    simp

/-- What the loop does. -/
theorem floatsam_loop {g : Graph α K} (hg : Undirected g) (lr : K) (m : Nat) : ∀ (fuel : Nat) (t : K),
    (∃ k < fuel, loop g lr m fuel t = .ok (some (t + k * lr)) ∧ Drifts g m (t + (k + 1) * lr) ∧
      ∀ j < k, ¬ Drifts g m (t + (j + 1) * lr)) ∨
    (loop g lr m fuel t = .ok none ∧ ∀ j < fuel, ¬ Drifts g m (t + (j + 1) * lr)) := by
  intro fuel
  induction fuel with
  | zero => intro t; exact Or.inr ⟨rfl, by simp⟩
  | succ fuel ih =>
      intro t
      obtain ⟨c, hc, hiff⟩ := second_largest_iff hg (t + lr) m
      have e1 : t + ((0 : Nat) + 1 : K) * lr = t + lr := by push_cast; ring
      by_cases hd : Drifts g m (t + lr)
      · left
        obtain ⟨n, rfl, hn⟩ := hiff.mpr hd
        refine ⟨0, Nat.succ_pos _, ?_, ?_, by simp⟩
        · rw [loop]
          simp only [hc, ge_iff_le, hn, if_true]
          simp
        · rw [e1]; exact hd
      · have hstep : loop g lr m (fuel + 1) t = loop g lr m fuel (t + lr) := by
          rw [loop]
          simp only [hc]
          cases c with
          | none => rfl
          | some n =>
              have : ¬ m ≤ n := fun h => hd (hiff.mp ⟨n, rfl, h⟩)
              simp [this]
        have shift : ∀ j : Nat, t + lr + ((j : K) + 1) * lr = t + (((j + 1 : Nat) : K) + 1) * lr := by
          intro j; push_cast; ring
        have hprev : ∀ n : Nat, (∀ j : Nat, j < n → ¬ Drifts g m (t + lr + ((j : K) + 1) * lr)) →
            ∀ j : Nat, j < n + 1 → ¬ Drifts g m (t + ((j : K) + 1) * lr) := by
          intro n h j hj
          cases j with
          | zero => rw [e1]; exact hd
          | succ j => rw [← shift]; exact h j (by omega)
        rw [hstep]
        rcases ih (t + lr) with ⟨k, hk, h1, h2, h3⟩ | ⟨h1, h2⟩
        · left
          refine ⟨k + 1, by omega, ?_, ?_, hprev k h3⟩
          · rw [h1]; push_cast; congr 2; ring
          · rw [← shift]; exact h2
        · right
          exact ⟨h1, hprev fuel h2⟩

/-! ### Removing edges -/

/-- The data of an edge. -/
def dataOf {ω : Type _} (g : Graph α ω) (a b : α) : Option ω := Dict.get? ((Dict.get? g a).getD []) b

theorem edge_iff {ω : Type _} {g : Graph α ω} (h1 : g.keys.Nodup) (h2 : ∀ p ∈ g, (Dict.keys p.2).Nodup) (a b : α) (w : ω) :
    Edge g a b w ↔ dataOf g a b = some w := by
  unfold Edge dataOf
  constructor
  · rintro ⟨edges, hm, hw⟩
    rw [Dict.get?_of_mem h1 hm]
    exact Dict.get?_of_mem (h2 _ hm) hw
  · intro h
    cases hg : Dict.get? g a with
    | none => rw [hg] at h; simp [Dict.get?] at h
    | some edges =>
        rw [hg] at h
        exact ⟨edges, Dict.mem_of_get? hg, Dict.mem_of_get? h⟩

theorem get?_erase {κ ν : Type _} [DecidableEq κ] (d : Dict κ ν) (k k' : κ) :
    Dict.get? (erase d k) k' = if k' = k then none else Dict.get? d k' := by
  induction d with
  | nil => simp [erase, Dict.get?]
  | cons x d ih =>
      obtain ⟨a, b⟩ := x
      unfold erase at ih ⊢
      rw [List.filter_cons]
      by_cases ha : a = k
      · subst ha
        simp only [ne_eq, not_true_eq_false, decide_false, Bool.false_eq_true, if_false, ih]
        by_cases hk : k' = a
        · simp [hk]
        · simp [hk, Dict.get?, Ne.symm hk]
      · simp only [ne_eq, ha, not_false_eq_true, decide_true, if_true, Dict.get?, ih]
        by_cases hk : k' = k
        · subst hk; simp [ha]
        · simp [hk]

theorem keys_set_of_mem {κ ν : Type _} [DecidableEq κ] {d : Dict κ ν} {k : κ} (h : k ∈ Dict.keys d) (v : ν) :
    Dict.keys (Dict.set d k v) = Dict.keys d := by rw [Dict.keys_set, if_pos h]

theorem mem_set {κ ν : Type _} [DecidableEq κ] {d : Dict κ ν} {k : κ} {v : ν} {p : κ × ν} (h : p ∈ Dict.set d k v) :
    p ∈ d ∨ p.2 = v := by
  induction d with
  | nil => simp only [Dict.set, List.mem_singleton] at h; right; rw [h]
  | cons x d ih =>
      obtain ⟨a, b⟩ := x
      rw [Dict.set] at h
      split at h
      · rcases List.mem_cons.mp h with rfl | h
        · exact Or.inr rfl
        · exact Or.inl (by simp [h])
      · rcases List.mem_cons.mp h with rfl | h
        · exact Or.inl (by simp)
        · rcases ih h with h | h
          · exact Or.inl (by simp [h])
          · exact Or.inr h

theorem dataOf_set {ω : Type _} {g : Graph α ω} {u : α} {nbrs : Dict α ω} (hu : Dict.get? g u = some nbrs) (v a b : α) :
    dataOf (Dict.set g u (erase nbrs v)) a b = if a = u ∧ b = v then none else dataOf g a b := by
  unfold dataOf
  rw [Dict.get?_set]
  by_cases ha : u = a
  · subst ha
    simp only [if_true, Option.getD_some, get?_erase, hu, true_and]
  · simp [ha, Ne.symm ha]

theorem removeEdge_spec {ω : Type _} {g : Graph α ω} (hg : Undirected g) {u v : α} {w0 : ω} (h : Edge g u v w0) :
    ∃ g', removeEdge g u v = .ok g' ∧ Undirected g' ∧ g'.keys = g.keys ∧
      ∀ a b w, Edge g' a b w ↔ Edge g a b w ∧ ¬ (a = u ∧ b = v) ∧ ¬ (a = v ∧ b = u) := by
  have hu := (edge_iff hg.nodes hg.neighbors u v w0).mp h
  have hv := (edge_iff hg.nodes hg.neighbors v u w0).mp (hg.symm _ _ _ h)
  obtain ⟨nbrs, hnm, hw⟩ := h
  have hnu := Dict.get?_of_mem hg.nodes hnm
  have hvk : v ∈ Dict.keys nbrs := List.mem_map.mpr ⟨_, hw, rfl⟩
  have huk : u ∈ Dict.keys g := List.mem_map.mpr ⟨_, hnm, rfl⟩
  have nodupE : ∀ (d : Dict α ω) (k : α), (Dict.keys d).Nodup → (Dict.keys (erase d k)).Nodup := by
    intro d k hd
    exact hd.sublist (List.Sublist.map _ List.filter_sublist)
  have h1nodes : (Dict.keys (Dict.set g u (erase nbrs v))).Nodup := Dict.nodup_keys_set hg.nodes _ _
  have h1nb : ∀ p ∈ Dict.set g u (erase nbrs v), (Dict.keys p.2).Nodup := by
    intro p hp
    rcases mem_set hp with hp | hp
    · exact hg.neighbors p hp
    · rw [hp]; exact nodupE _ _ (hg.neighbors _ hnm)
  have finish : ∀ g' : Graph α ω, g'.keys.Nodup → (∀ p ∈ g', (Dict.keys p.2).Nodup) →
      (∀ a b, dataOf g' a b = if (a = u ∧ b = v) ∨ (a = v ∧ b = u) then none else dataOf g a b) →
      Undirected g' ∧ ∀ a b w, Edge g' a b w ↔ Edge g a b w ∧ ¬ (a = u ∧ b = v) ∧ ¬ (a = v ∧ b = u) := by
    intro g' hn hb hd
    have hall : ∀ a b w, Edge g' a b w ↔ Edge g a b w ∧ ¬ (a = u ∧ b = v) ∧ ¬ (a = v ∧ b = u) := by
      intro a b w
      rw [edge_iff hn hb, hd, edge_iff hg.nodes hg.neighbors, ← not_or]
      split
      · next h => simp [h]
      · next h => simp [h]
    refine ⟨⟨hn, hb, ?_⟩, hall⟩
    intro a b w hab
    rw [hall] at hab ⊢
    exact ⟨hg.symm _ _ _ hab.1, fun h => hab.2.2 ⟨h.2, h.1⟩, fun h => hab.2.1 ⟨h.2, h.1⟩⟩
  by_cases huv : u = v
  · subst huv
    refine ⟨Dict.set g u (erase nbrs u), ?_, ?_⟩
    · unfold removeEdge
      simp [hnu, hvk]
    · obtain ⟨f1, f2⟩ := finish _ h1nodes h1nb (by intro a b; rw [dataOf_set hnu]; simp)
      exact ⟨f1, keys_set_of_mem huk _, f2⟩
  · obtain ⟨nbrs', hnv⟩ : ∃ nbrs', Dict.get? g v = some nbrs' := by
      unfold dataOf at hv
      cases hgv : Dict.get? g v with
      | none => rw [hgv] at hv; simp [Dict.get?] at hv
      | some n => exact ⟨n, rfl⟩
    have hnv' : Dict.get? (Dict.set g u (erase nbrs v)) v = some nbrs' := by rw [Dict.get?_set, if_neg huv]; exact hnv
    have huk' : u ∈ Dict.keys nbrs' := by
      unfold dataOf at hv
      rw [hnv] at hv
      exact (Dict.mem_keys_iff _ _).mpr ⟨w0, hv⟩
    have hvk' : v ∈ Dict.keys (Dict.set g u (erase nbrs v)) := (Dict.mem_keys_iff _ _).mpr ⟨_, hnv'⟩
    refine ⟨Dict.set (Dict.set g u (erase nbrs v)) v (erase nbrs' u), ?_, ?_⟩
    · unfold removeEdge
      simp [hnu, hvk, huv, hnv', huk']
    · obtain ⟨f1, f2⟩ := finish _ (Dict.nodup_keys_set h1nodes v (erase nbrs' u)) (by
        intro p hp
        rcases mem_set hp with hp | hp
        · exact h1nb p hp
        · rw [hp]; exact nodupE _ _ (hg.neighbors _ (Dict.mem_of_get? hnv))) (by
        intro a b
        rw [dataOf_set hnv', dataOf_set hnu]
        by_cases h1 : a = v ∧ b = u <;> by_cases h2 : a = u ∧ b = v <;> simp [h1, h2])
      exact ⟨f1, by rw [keys_set_of_mem hvk', keys_set_of_mem huk], f2⟩

theorem removeEdges_spec {ω : Type _} : ∀ (l : List (α × α)) (g : Graph α ω), Undirected g → (∀ e ∈ l, ∃ w, Edge g e.1 e.2 w) →
    l.Pairwise (fun e e' => e ≠ e' ∧ e ≠ (e'.2, e'.1)) →
    ∃ g', l.foldlM (fun g e => removeEdge g e.1 e.2) g = .ok g' ∧ Undirected g' ∧ g'.keys = g.keys ∧
      ∀ a b w, Edge g' a b w ↔ Edge g a b w ∧ (a, b) ∉ l ∧ (b, a) ∉ l := by
  intro l
  induction l with
  | nil => intro g hg _ _; exact ⟨g, rfl, hg, rfl, by simp⟩
  | cons e l ih =>
      obtain ⟨u, v⟩ := e
      intro g hg he hp
      rw [List.pairwise_cons] at hp
      obtain ⟨w0, hw0⟩ := he (u, v) (by simp)
      obtain ⟨g1, h1, h2, h3, h4⟩ := removeEdge_spec hg hw0
      obtain ⟨g', h5, h6, h7, h8⟩ := ih g1 h2 (by
        intro e' he'
        obtain ⟨w, hw⟩ := he e' (by simp [he'])
        refine ⟨w, (h4 _ _ _).mpr ⟨hw, ?_, ?_⟩⟩
        · rintro ⟨rfl, rfl⟩
          exact (hp.1 e' he').1 rfl
        · rintro ⟨rfl, rfl⟩
          exact (hp.1 e' he').2 rfl) hp.2
      refine ⟨g', ?_, h6, h7.trans h3, ?_⟩
      · rw [List.foldlM_cons]
        simp only [h1]
        exact h5
      · intro a b w
        rw [h8, h4]
        simp only [List.mem_cons, Prod.mk.injEq, not_or]
        constructor
        · rintro ⟨⟨x1, x2, x3⟩, x4, x5⟩
          exact ⟨x1, ⟨x2, x4⟩, fun h => x3 ⟨h.2, h.1⟩, x5⟩
        · rintro ⟨x1, ⟨x2, x4⟩, x3, x5⟩
          exact ⟨⟨x1, x2, fun h => x3 ⟨h.2, h.1⟩⟩, x4, x5⟩

theorem edgesFrom_spec {ω : Type _} : ∀ (l : List (α × Dict α ω)) (seen : List α), (∀ x ∈ l.map Prod.fst, x ∉ seen) → (l.map Prod.fst).Nodup →
    (∀ p ∈ l, (Dict.keys p.2).Nodup) →
    (∀ u v w, (u, v, w) ∈ edgesFrom l seen ↔ ∃ pre nbrs post, l = pre ++ (u, nbrs) :: post ∧ (v, w) ∈ nbrs ∧
      v ∉ seen ∧ v ∉ pre.map Prod.fst) ∧
    ((edgesFrom l seen).map fun e => (e.1, e.2.1)).Pairwise (fun e e' => e ≠ e' ∧ e ≠ (e'.2, e'.1)) := by
  intro l
  induction l with
  | nil => intro seen _ _ _; exact ⟨by simp [edgesFrom], by simp [edgesFrom]⟩
  | cons p l ih =>
      obtain ⟨n, nbrs⟩ := p
      intro seen hs hn hb
      simp only [List.map_cons, List.nodup_cons, List.mem_cons, forall_eq_or_imp] at hs hn hb
      obtain ⟨h1, h2⟩ := ih (n :: seen) (by
        intro x hx
        simp only [List.mem_cons, not_or]
        exact ⟨fun h => hn.1 (h ▸ hx), hs.2 x hx⟩) hn.2 hb.2
      refine ⟨?_, ?_⟩
      · intro u v w
        rw [edgesFrom, List.mem_append, h1]
        constructor
        · rintro (h | ⟨pre, nb, post, hl, hvw, hvs, hvp⟩)
          · obtain ⟨e, he, heq⟩ := List.mem_map.mp h
            obtain ⟨he, hes⟩ := List.mem_filter.mp he
            injection heq with e1 e2
            injection e2 with e2 e3
            subst e1 e2 e3
            exact ⟨[], nbrs, l, rfl, he, of_decide_eq_true hes, by simp⟩
          · simp only [List.mem_cons, not_or] at hvs
            exact ⟨(n, nbrs) :: pre, nb, post, by rw [hl]; rfl, hvw, hvs.2, by
              simp only [List.map_cons, List.mem_cons, not_or]; exact ⟨hvs.1, hvp⟩⟩
        · rintro ⟨pre, nb, post, hl, hvw, hvs, hvp⟩
          cases pre with
          | nil =>
              simp only [List.nil_append, List.cons.injEq, Prod.mk.injEq] at hl
              obtain ⟨⟨rfl, rfl⟩, rfl⟩ := hl
              exact Or.inl (List.mem_map.mpr ⟨(v, w), List.mem_filter.mpr ⟨hvw, decide_eq_true hvs⟩, rfl⟩)
          | cons q pre =>
              simp only [List.cons_append, List.cons.injEq] at hl
              obtain ⟨rfl, rfl⟩ := hl
              simp only [List.map_cons, List.mem_cons, not_or] at hvp
              exact Or.inr ⟨pre, nb, post, rfl, hvw, by simp only [List.mem_cons, not_or]; exact ⟨hvp.1, hvs⟩, hvp.2⟩
      · rw [edgesFrom, List.map_append, List.pairwise_append]
        refine ⟨?_, h2, ?_⟩
        · rw [List.map_map, List.pairwise_map]
          have hnd : (nbrs.filter fun e => decide (e.1 ∉ seen)).Pairwise (fun e e' => e.1 ≠ e'.1) := by
            have : (nbrs.map Prod.fst).Nodup := hb.1
            unfold List.Nodup at this
            rw [List.pairwise_map] at this
            exact this.sublist List.filter_sublist
          refine hnd.imp ?_
          intro e e' hee
          simp only [Function.comp, ne_eq, Prod.mk.injEq, true_and]
          exact ⟨hee, fun h => hee (h.2.trans h.1)⟩
        · intro e he e' he'
          rw [List.map_map] at he
          obtain ⟨x, _, rfl⟩ := List.mem_map.mp he
          obtain ⟨⟨u, v, w⟩, hy, rfl⟩ := List.mem_map.mp he'
          obtain ⟨pre, nb, post, hl, _, hvs, _⟩ := (h1 u v w).mp hy
          have hun : u ≠ n := by
            rintro rfl
            exact hn.1 (by rw [hl]; simp)
          have hvn : v ≠ n := by
            rintro rfl
            exact hvs (by simp)
          simp only [Function.comp, ne_eq, Prod.mk.injEq, not_and]
          exact ⟨fun h => absurd h.symm hun, fun h => absurd h.symm hvn⟩

theorem edges_complete {ω : Type _} {g : Graph α ω} (hg : Undirected g) {a b : α} {w : ω} (h : Edge g a b w) :
    (a, b, w) ∈ edgesFrom g [] ∨ (b, a, w) ∈ edgesFrom g [] := by
  obtain ⟨h1, _⟩ := edgesFrom_spec g [] (by simp) hg.nodes hg.neighbors
  obtain ⟨na, hna, hw⟩ := h
  obtain ⟨nb, hnb, hw'⟩ := hg.symm _ _ _ ⟨na, hna, hw⟩
  obtain ⟨pre, post, hl⟩ := List.append_of_mem hna
  by_cases hb : b ∈ pre.map Prod.fst
  · right
    obtain ⟨⟨b', nb'⟩, hm, hb'⟩ := List.mem_map.mp hb
    simp only at hb'
    subst hb'
    have : nb' = nb := by
      have e1 := Dict.get?_of_mem hg.nodes (show (b', nb') ∈ g by rw [hl]; simp [hm])
      have e2 := Dict.get?_of_mem hg.nodes hnb
      rw [e1] at e2
      injection e2
    subst this
    obtain ⟨pre', post', hl'⟩ := List.append_of_mem hm
    refine (h1 b' a w).mpr ⟨pre', nb', post' ++ (a, na) :: post, by rw [hl, hl']; simp, hw', by simp, ?_⟩
    have hnd := hg.nodes
    unfold Dict.keys at hnd
    rw [hl, hl'] at hnd
    simp only [List.map_append, List.map_cons] at hnd
    intro hc
    rw [List.append_assoc, List.nodup_append] at hnd
    exact hnd.2.2 a hc a (by simp) rfl
  · left
    exact (h1 a b w).mpr ⟨pre, na, post, hl, hw, by simp, hb⟩

/-! ### The function -/

variable [IsStrictOrderedRing K]

/-- No edge at all. -/
def NoEdge (g : Graph α K) : Prop := ∀ a b w, ¬ Edge g a b w

omit [DecidableEq α] [IsStrictOrderedRing K] [Field K] [LinearOrder K] in
theorem all_isEmpty_iff (g : Graph α K) : (g.all fun p => p.2.isEmpty) = true ↔ NoEdge g := by
  rw [List.all_eq_true]
  constructor
  · rintro h a b w ⟨edges, h1, h2⟩
    have := h _ h1
    simp only [List.isEmpty_iff] at this
    rw [this] at h2
    simp at h2
  · intro h p hp
    rw [List.isEmpty_iff]
    by_contra hne
    obtain ⟨⟨b, w⟩, hb⟩ := List.exists_mem_of_ne_nil _ hne
    exact h p.1 b w ⟨p.2, hp, hb⟩

omit [IsStrictOrderedRing K] in
/-- **C48** partial: when `floatsam_sparsification` stops on a graph which has edges, it returns the last step before the first step
at which two components have the given size; if asked to, it removes exactly the edges of smaller weight. Missing: it may not stop,
see below. -/
theorem floatsam_partial (log : Nat → Nat) {g : Graph α K} (hg : Undirected g) (hne : ¬ NoEdge g) (t lr : K) (m : Option Nat)
    (remove : Bool) (fuel : Nat) :
    (∃ (k : Nat) (g' : Graph α K), floatsam log fuel g t lr m remove = .ok (some (t + k * lr, g')) ∧
      Drifts g (m.getD (log g.length)) (t + (k + 1) * lr) ∧ (∀ j < k, ¬ Drifts g (m.getD (log g.length)) (t + (j + 1) * lr)) ∧
      Undirected g' ∧ g'.keys = g.keys ∧ ∀ a b w, Edge g' a b w ↔ Edge g a b w ∧ (remove = true → t + k * lr ≤ w)) ∨
    (floatsam log fuel g t lr m remove = .ok none ∧ ∀ j < fuel, ¬ Drifts g (m.getD (log g.length)) (t + (j + 1) * lr)) := by
  have hall : (g.all fun p => p.2.isEmpty) = false := by
    rw [Bool.eq_false_iff]
    exact fun h => hne ((all_isEmpty_iff g).mp h)
  rcases floatsam_loop hg lr (m.getD (log g.length)) fuel t with ⟨k, _, h1, h2, h3⟩ | ⟨h1, h2⟩
  · left
    cases remove with
    | false =>
        refine ⟨k, g, ?_, h2, h3, hg, rfl, by simp⟩
        unfold floatsam
        simp only [hall, Bool.false_eq_true, if_false, h1]
        rfl
    | true =>
        obtain ⟨e1, e2⟩ := edgesFrom_spec g [] (by simp) hg.nodes hg.neighbors
        have hedge : ∀ u v w, (u, v, w) ∈ edgesFrom g [] → Edge g u v w := by
          intro u v w h
          obtain ⟨pre, nbrs, post, hl, hvw, _, _⟩ := (e1 u v w).mp h
          exact ⟨nbrs, by rw [hl]; simp, hvw⟩
        have huniq : ∀ {u v w w'}, Edge g u v w → Edge g u v w' → w = w' := by
          intro u v w w' h h'
          rw [edge_iff hg.nodes hg.neighbors] at h h'
          rw [h] at h'
          injection h'
        obtain ⟨g', r1, r2, r3, r4⟩ := removeEdges_spec
          (((edgesFrom g []).filter fun e : α × α × K => decide (e.2.2 < t + k * lr)).map fun e : α × α × K => (e.1, e.2.1)) g hg (by
            intro e he
            obtain ⟨⟨u, v, w⟩, hx, rfl⟩ := List.mem_map.mp he
            exact ⟨w, hedge u v w (List.mem_filter.mp hx).1⟩) (by
            exact e2.sublist (List.Sublist.map _ List.filter_sublist))
        refine ⟨k, g', ?_, h2, h3, r2, r3, ?_⟩
        · unfold floatsam
          simp only [hall, Bool.false_eq_true, if_false, h1, if_true, r1, bind, Except.bind]
          rfl
        · intro a b w
          rw [r4]
          constructor
          · rintro ⟨hab, hn1, hn2⟩
            refine ⟨hab, fun _ => ?_⟩
            by_contra hlt
            rcases edges_complete hg hab with h | h
            · exact hn1 (List.mem_map.mpr ⟨(a, b, w), List.mem_filter.mpr ⟨h, decide_eq_true (not_le.mp hlt)⟩, rfl⟩)
            · exact hn2 (List.mem_map.mpr ⟨(b, a, w), List.mem_filter.mpr ⟨h, decide_eq_true (not_le.mp hlt)⟩, rfl⟩)
          · rintro ⟨hab, hle⟩
            have hle := hle rfl
            refine ⟨hab, ?_, ?_⟩
            · intro h
              obtain ⟨⟨u, v, w'⟩, hx, heq⟩ := List.mem_map.mp h
              obtain ⟨hx, hlt⟩ := List.mem_filter.mp hx
              injection heq with q1 q2
              simp only at q1 q2
              subst q1 q2
              have := of_decide_eq_true hlt
              rw [huniq (hedge _ _ _ hx) hab] at this
              exact absurd this (not_lt.mpr hle)
            · intro h
              obtain ⟨⟨u, v, w'⟩, hx, heq⟩ := List.mem_map.mp h
              obtain ⟨hx, hlt⟩ := List.mem_filter.mp hx
              injection heq with q1 q2
              simp only at q1 q2
              subst q1 q2
              have := of_decide_eq_true hlt
              rw [huniq (hg.symm _ _ _ (hedge _ _ _ hx)) hab] at this
              exact absurd this (not_lt.mpr hle)
  · right
    refine ⟨?_, h2⟩
    unfold floatsam
    simp only [hall, Bool.false_eq_true, if_false, h1]

/-- **C48** partial: it stops when the size is at most 1, there are two nodes and the learning rate is positive. -/
theorem floatsam_stops_partial [Archimedean K] (log : Nat → Nat) {g : Graph α K} (hg : Undirected g) (t lr : K) (hlr : 0 < lr)
    (m : Option Nat) (hm : m.getD (log g.length) ≤ 1) (h2 : 2 ≤ g.length) (remove : Bool) :
    ∃ fuel r, floatsam log fuel g t lr m remove = .ok (some r) := by
  by_cases hne : NoEdge g
  · exact ⟨0, (t, g), by unfold floatsam; rw [if_pos ((all_isEmpty_iff g).mpr hne)]⟩
  obtain ⟨W, hW⟩ : ∃ W : K, ∀ a b w, Edge g a b w → w ≤ W := by
    have : ∀ l : List K, ∃ W : K, ∀ w ∈ l, w ≤ W := by
      intro l
      induction l with
      | nil => exact ⟨0, by simp⟩
      | cons x l ih =>
          obtain ⟨W, hW⟩ := ih
          refine ⟨max x W, ?_⟩
          intro w hw
          rcases List.mem_cons.mp hw with rfl | hw
          · exact le_max_left _ _
          · exact le_trans (hW w hw) (le_max_right _ _)
    obtain ⟨W, hW⟩ := this (g.flatMap fun p => p.2.map Prod.snd)
    refine ⟨W, ?_⟩
    rintro a b w ⟨edges, h1, h2⟩
    exact hW w (List.mem_flatMap.mpr ⟨_, h1, List.mem_map.mpr ⟨_, h2, rfl⟩⟩)
  obtain ⟨n, hn⟩ := exists_nat_gt ((W - t) / lr)
  have hbig : W < t + (n + 1) * lr := by
    rw [div_lt_iff₀ hlr] at hn
    have : (n : K) * lr < (n + 1) * lr := by
      apply mul_lt_mul_of_pos_right _ hlr
      linarith
    linarith
  have hnone : ∀ a b, ¬ Above g (t + (n + 1) * lr) a b := by
    rintro a b ⟨w, hw, hle⟩
    exact absurd (lt_of_lt_of_le hbig hle) (not_lt.mpr (hW _ _ _ hw))
  have hcon : ∀ a b, Connected (Above g (t + (n + 1) * lr)) a b ↔ a = b := by
    intro a b
    constructor
    · intro h
      cases h with
      | refl => rfl
      | step h _ => exact absurd h (hnone _ _)
    · rintro rfl; exact .refl _
  have hdrift : Drifts g (m.getD (log g.length)) (t + (n + 1) * lr) := by
    match hgl : g, h2 with
    | (a, ea) :: (b, eb) :: rest, _ =>
        have hab : a ≠ b := by
          have := hg.nodes
          simp only [Dict.keys, List.map_cons, List.nodup_cons, List.mem_cons, not_or] at this
          exact this.1.1
        refine ⟨a, b, [a], [b], by simp [Dict.keys], by simp [Dict.keys], ⟨by simp, ?_⟩, ⟨by simp, ?_⟩, ?_, by simpa using hm,
          by simpa using hm⟩
        · intro x; rw [hcon]; simp [eq_comm]
        · intro x; rw [hcon]; simp [eq_comm]
        · rw [hcon]; exact hab
  rcases floatsam_partial log hg hne t lr m remove (n + 1) with ⟨k, g', h, _⟩ | ⟨_, h⟩
  · exact ⟨n + 1, _, h⟩
  · exact absurd hdrift (h n (Nat.lt_succ_self n))

omit [IsStrictOrderedRing K] in
/-- **C48**: `floatsam_sparsification` stops on a graph with edges exactly when at some step two components have the given size. -/
theorem floatsam_stops_iff (log : Nat → Nat) {g : Graph α K} (hg : Undirected g) (hne : ¬ NoEdge g) (t lr : K) (m : Option Nat) (remove : Bool) :
    (∃ fuel r, floatsam log fuel g t lr m remove = .ok (some r)) ↔ ∃ k : Nat, Drifts g (m.getD (log g.length)) (t + (k + 1) * lr) := by
  constructor
  · rintro ⟨fuel, r, h⟩
    rcases floatsam_partial log hg hne t lr m remove fuel with ⟨k, _, _, hd, _⟩ | ⟨h', _⟩
    · exact ⟨k, hd⟩
    · rw [h'] at h; simp at h
  · rintro ⟨k, hd⟩
    rcases floatsam_partial log hg hne t lr m remove (k + 1) with ⟨_, _, h, _⟩ | ⟨_, h⟩
    · exact ⟨k + 1, _, h⟩
    · exact absurd hd (h k (Nat.lt_succ_self k))

omit [IsStrictOrderedRing K] in
/-- **C48** is false: `floatsam_sparsification` does not stop on a graph with edges which has fewer than twice as many nodes as the
given size. -/
theorem floatsam_never_stops (log : Nat → Nat) {g : Graph α K} (hg : Undirected g) (hne : ¬ NoEdge g) (t lr : K) {m : Nat}
    (hm : g.length < 2 * m) (remove : Bool) (fuel : Nat) : floatsam log fuel g t lr (some m) remove = .ok none := by
  rcases floatsam_partial log hg hne t lr (some m) remove fuel with ⟨k, g', _, hd, _⟩ | ⟨h, _⟩
  · exfalso
    obtain ⟨a, b, la, lb, ha, hb, hla, hlb, hab, hma, hmb⟩ := hd
    simp only [Option.getD_some] at hma hmb
    have hR : ∀ a b, Above g (t + (k + 1) * lr) a b → Above g (t + (k + 1) * lr) b a := by
      rintro a b ⟨w, h, hw⟩
      exact ⟨w, hg.symm _ _ _ h, hw⟩
    have hmem : ∀ {x : α} {l : List α}, x ∈ g.keys → IsComponentOf (Above g (t + (k + 1) * lr)) x l → ∀ y ∈ l, y ∈ g.keys := by
      intro x l hx hl y hy
      refine Connected.mem_closed (V := fun x => x ∈ g.keys) (fun u v _ huv => ?_) ((hl.2 y).mp hy) hx
      obtain ⟨w, ⟨edges, h1, _⟩, _⟩ := hR _ _ huv
      exact List.mem_map.mpr ⟨_, h1, rfl⟩
    have hsub : (la ++ lb).Subperm g.keys := by
      apply List.subperm_of_subset
      · rw [List.nodup_append]
        refine ⟨hla.1, hlb.1, ?_⟩
        rintro x hx y hy rfl
        exact hab (((hla.2 x).mp hx).trans (((hlb.2 x).mp hy).symm hR))
      · intro x hx
        rcases List.mem_append.mp hx with hx | hx
        · exact hmem ha hla x hx
        · exact hmem hb hlb x hx
    have := hsub.length_le
    rw [List.length_append] at this
    have hk : g.keys.length = g.length := by simp [Dict.keys]
    omega
  · exact h

/-- A star: node 0 is linked to seven others. -/
def star : Graph Nat K :=
  [(0, [(1, 1), (2, 1), (3, 1), (4, 1), (5, 1), (6, 1), (7, 1)]), (1, [(0, 1)]), (2, [(0, 1)]), (3, [(0, 1)]), (4, [(0, 1)]),
    (5, [(0, 1)]), (6, [(0, 1)]), (7, [(0, 1)])]

omit [IsStrictOrderedRing K] [LinearOrder K] in
theorem star_edge {a b : Nat} {w : K} : Edge star a b w ↔ w = 1 ∧ ((a = 0 ∧ 1 ≤ b ∧ b ≤ 7) ∨ (b = 0 ∧ 1 ≤ a ∧ a ≤ 7)) := by
  unfold Edge star
  simp only [List.mem_cons, Prod.mk.injEq, List.not_mem_nil, or_false]
  constructor
  · rintro ⟨edges, h1, h2⟩
    rcases h1 with ⟨rfl, rfl⟩ | ⟨rfl, rfl⟩ | ⟨rfl, rfl⟩ | ⟨rfl, rfl⟩ | ⟨rfl, rfl⟩ | ⟨rfl, rfl⟩ | ⟨rfl, rfl⟩ | ⟨rfl, rfl⟩ <;>
      simp only [List.mem_cons, Prod.mk.injEq, List.not_mem_nil, or_false] at h2
    · rcases h2 with ⟨rfl, rfl⟩ | ⟨rfl, rfl⟩ | ⟨rfl, rfl⟩ | ⟨rfl, rfl⟩ | ⟨rfl, rfl⟩ | ⟨rfl, rfl⟩ | ⟨rfl, rfl⟩ <;> simp
    all_goals obtain ⟨rfl, rfl⟩ := h2; simp
  · rintro ⟨rfl, ⟨rfl, h1, h2⟩ | ⟨rfl, h1, h2⟩⟩
    · refine ⟨_, Or.inl ⟨rfl, rfl⟩, ?_⟩
      have : b = 1 ∨ b = 2 ∨ b = 3 ∨ b = 4 ∨ b = 5 ∨ b = 6 ∨ b = 7 := by omega
      rcases this with rfl | rfl | rfl | rfl | rfl | rfl | rfl <;> simp
    · have : a = 1 ∨ a = 2 ∨ a = 3 ∨ a = 4 ∨ a = 5 ∨ a = 6 ∨ a = 7 := by omega
      rcases this with rfl | rfl | rfl | rfl | rfl | rfl | rfl <;> refine ⟨[(0, 1)], ?_, by simp⟩ <;> simp

omit [IsStrictOrderedRing K] [LinearOrder K] in
theorem star_undirected : Undirected (star : Graph Nat K) := by
  refine ⟨by simp [star, Dict.keys], ?_, ?_⟩
  · intro p hp
    simp only [star, List.mem_cons, List.not_mem_nil, or_false] at hp
    rcases hp with rfl | rfl | rfl | rfl | rfl | rfl | rfl | rfl <;> simp [Dict.keys]
  · intro a b w h
    rw [star_edge] at h ⊢
    exact ⟨h.1, h.2.symm⟩

omit [IsStrictOrderedRing K] [LinearOrder K] in
theorem star_has_edge : ¬ NoEdge (star : Graph Nat K) := fun h => h 0 1 1 (star_edge.mpr ⟨rfl, Or.inl ⟨rfl, by omega, by omega⟩⟩)

omit [IsStrictOrderedRing K] in
/-- **C48** is false with the default size, which is the integer part of the logarithm of the number of nodes: for a star of 8 nodes,
whatever the thresholds, `floatsam_sparsification` does not stop. -/
theorem floatsam_star (t lr : K) (remove : Bool) (fuel : Nat) :
    floatsam (fun n => ⌊Real.log n⌋₊) fuel (star : Graph Nat K) t lr none remove = .ok none := by
  have hlog : 2 ≤ ⌊Real.log ((star : Graph Nat K).length : Nat)⌋₊ := by
    have : (star : Graph Nat K).length = 2 ^ 3 := rfl
    rw [this]
    apply Nat.le_floor
    rw [Nat.cast_pow, Real.log_pow]
    have := Real.log_two_gt_d9
    push_cast
    linarith
  rcases floatsam_partial (fun n => ⌊Real.log n⌋₊) star_undirected star_has_edge t lr none remove fuel with ⟨k, g', _, hd, _⟩ | ⟨h, _⟩
  · exfalso
    obtain ⟨a, b, la, lb, ha, hb, hla, hlb, hab, hma, hmb⟩ := hd
    simp only [Option.getD_none] at hma hmb
    have hR : ∀ a b, Above star (t + (k + 1) * lr) a b → Above star (t + (k + 1) * lr) b a := by
      rintro a b ⟨w, h, hw⟩
      exact ⟨w, star_undirected.symm _ _ _ h, hw⟩
    have hzero : ∀ {x : Nat} {l : List Nat}, IsComponentOf (Above star (t + (k + 1) * lr)) x l → 2 ≤ l.length →
        Connected (Above star (t + (k + 1) * lr)) x 0 := by
      intro x l hl h2
      obtain ⟨y, hy, hyx⟩ : ∃ y ∈ l, y ≠ x := by
        by_contra hno
        have hall : ∀ y ∈ l, y = x := fun y hy => by_contra fun h => hno ⟨y, hy, h⟩
        match l, hl.1, h2 with
        | p :: q :: r, hn, _ =>
            have e1 := hall p (by simp)
            have e2 := hall q (by simp)
            simp only [List.nodup_cons, List.mem_cons, not_or] at hn
            exact hn.1.1 (e1.trans e2.symm)
      have hcon := (hl.2 y).mp hy
      cases hcon with
      | refl => exact absurd rfl hyx
      | @step _ z _ hz _ =>
          obtain ⟨w, he, _⟩ := id hz
          rcases (star_edge.mp he).2 with ⟨h, _⟩ | ⟨h, _⟩
          · rw [h]; exact .refl _
          · rw [h] at hz; exact Connected.single hz
    exact hab ((hzero hla (le_trans hlog hma)).trans ((hzero hlb (le_trans hlog hmb)).symm hR))
  · exact h

-- Two nodes and an edge.
example : Undirected ([('a', [('b', 1)]), ('b', [('a', 1)])] : Graph Char ℚ) ∧
    ¬ NoEdge ([('a', [('b', 1)]), ('b', [('a', 1)])] : Graph Char ℚ) := by
  refine ⟨⟨by decide, by decide, ?_⟩, fun h => h 'a' 'b' 1 ⟨[('b', 1)], by simp, by simp⟩⟩
  rintro a b w ⟨edges, h1, h2⟩
  simp only [List.mem_cons, Prod.mk.injEq, List.not_mem_nil, or_false] at h1
  rcases h1 with ⟨rfl, rfl⟩ | ⟨rfl, rfl⟩ <;>
    simp only [List.mem_cons, Prod.mk.injEq, List.not_mem_nil, or_false] at h2 <;> obtain ⟨rfl, rfl⟩ := h2
  · exact ⟨[('a', 1)], by simp, by simp⟩
  · exact ⟨[('b', 1)], by simp, by simp⟩

end Fog.Props
