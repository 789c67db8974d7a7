import Verif.Lemmas.NnDescentFull
import Verif.Props.ClusteringUtils
import Verif.Spec.NearestNeighbors
import Mathlib.Data.List.Sort

/-!
# C42: NN-Descent

`nn_descent` looks for neighbors of neighbors until nothing changes. The random generator is any stream of numbers, and sets are iterated upon
in any order.
-/

namespace Fog.Props

open Fog.Spec Fog.ClusteringUtils Fog.NnDescent

/-! ### The heaps -/

/-- What is asked of `heapq`: it loses nothing, and the first element of what `heapify` and `heapreplace` leave is one of the least similar. -/
structure HeapLaws {K F : Type} [LinearOrder K] (heapq : Heapq (Neighbor K F)) (IsHeap : List (Neighbor K F) → Prop) : Prop where
  lawful : NnDescent.Lawful heapq
  heapify : ∀ l, IsHeap (heapq.heapify l)
  heapreplace : ∀ l x, l ≠ [] → IsHeap l → IsHeap (heapq.heapreplace l x)
  first : ∀ a l, IsHeap (a :: l) → ∀ e ∈ l, a.1 ≤ e.1

/-- Lists sorted by similarity obey these laws. -/
def sortedHeapq (K F : Type) [LinearOrder K] : Heapq (Neighbor K F) where
  heapify l := l.insertionSort fun a b => a.1 ≤ b.1
  heapreplace l x := (x :: l.tail).insertionSort fun a b => a.1 ≤ b.1

theorem sortedHeapq_laws (K F : Type) [LinearOrder K] :
    HeapLaws (sortedHeapq K F) (List.Pairwise fun a b => a.1 ≤ b.1) where
  lawful := ⟨fun l => List.perm_insertionSort _ l, fun l x _ => List.perm_insertionSort _ _⟩
  heapify l := by
    haveI : Std.Total (fun a b : Neighbor K F => a.1 ≤ b.1) := ⟨fun a b => le_total _ _⟩
    haveI : IsTrans _ (fun a b : Neighbor K F => a.1 ≤ b.1) := ⟨fun a b c => le_trans⟩
    exact List.pairwise_insertionSort (r := fun a b : Neighbor K F => a.1 ≤ b.1) l
  heapreplace l x _ _ := by
    haveI : Std.Total (fun a b : Neighbor K F => a.1 ≤ b.1) := ⟨fun a b => le_total _ _⟩
    haveI : IsTrans _ (fun a b : Neighbor K F => a.1 ≤ b.1) := ⟨fun a b c => le_trans⟩
    exact List.pairwise_insertionSort (r := fun a b : Neighbor K F => a.1 ≤ b.1) (x :: l.tail)
  first a l h := (List.pairwise_cons.mp h).1

variable {α K F : Type} [LinearOrder K]

/-! ### Tables of neighbors -/

/-- Neighbors without their flag. -/
def table (B : List (List (Neighbor K F))) : List (List (K × Nat)) := B.map fun heap => heap.map fun e => (e.1, e.2.1)

omit [LinearOrder K] in
theorem table_get {B : List (List (Neighbor K F))} {i : Nat} {l : List (K × Nat)} (h : (table B)[i]? = some l) :
    ∃ heap, B[i]? = some heap ∧ l = heap.map fun e => (e.1, e.2.1) := by
  unfold table at h
  rw [List.getElem?_map, Option.map_eq_some_iff] at h
  obtain ⟨heap, h1, h2⟩ := h
  exact ⟨heap, h1, h2.symm⟩

theorem isTable_of_good {V : List α} {Ok : α → α → K → Prop} {P : List (Neighbor K F) → Prop} {k : Nat} {B : List (List (Neighbor K F))}
    (h : Good V Ok P k B) : IsTable V Ok k (table B) := by
  refine ⟨by unfold table; rw [List.length_map, h.length], ?_, ?_⟩
  · intro i l hl
    obtain ⟨heap, h1, rfl⟩ := table_get hl
    rw [List.length_map, h.size i heap h1]
  · intro i l s j hl hm
    obtain ⟨heap, h1, rfl⟩ := table_get hl
    obtain ⟨e, he, heq⟩ := List.mem_map.mp hm
    injection heq with e1 e2
    subst e1 e2
    exact h.entry i heap h1 e he

theorem adjacent_of_near {B : List (List (Neighbor K F))} {i j : Nat} (h : Near (table B) i j) : Adjacent B i j := by
  have key : ∀ i j, (∃ l s, (table B)[i]? = some l ∧ (s, j) ∈ l) → At (B.map fun heap => heap.map fun e => e.2.1) i j := by
    rintro i j ⟨l, s, hl, hm⟩
    obtain ⟨heap, h1, rfl⟩ := table_get hl
    obtain ⟨e, he, heq⟩ := List.mem_map.mp hm
    injection heq with e1 e2
    refine ⟨heap.map fun e => e.2.1, by rw [List.getElem?_map, h1]; rfl, List.mem_map.mpr ⟨e, he, e2⟩⟩
  rcases h with h | h
  · exact Or.inl (key _ _ h)
  · exact Or.inr (key _ _ h)

theorem locallyOptimal_of_optimal {V : List α} {similarity : α → α → K} {P : List (Neighbor K F) → Prop}
    (hP : ∀ a l, P (a :: l) → ∀ e ∈ l, a.1 ≤ e.1) {Ok : α → α → K → Prop} {k : Nat} {B : List (List (Neighbor K F))} (hB : Good V Ok P k B)
    (h : Optimal V similarity B) : LocallyOptimal V similarity (table B) := by
  intro i j m x y hij hjm hne hx hy l s n hl hm
  obtain ⟨heap, h1, rfl⟩ := table_get hl
  obtain ⟨e, he, heq⟩ := List.mem_map.mp hm
  injection heq with e1 e2
  subst e1
  have hp := hB.inv i heap h1
  cases heap with
  | nil => simp at he
  | cons a rest =>
      have := h i j m x y (adjacent_of_near hij) (adjacent_of_near hjm) hne hx hy (a :: rest) a h1 rfl
      rcases List.mem_cons.mp he with rfl | he
      · exact this
      · exact le_trans this (hP a rest hp e he)

theorem links_table (radius : K) (B : List (List (Neighbor K F))) : LinksOf radius (table B) (links radius B) := by
  intro i j
  unfold links
  rw [List.mem_flatMap]
  constructor
  · rintro ⟨⟨heap, i'⟩, hx, hm⟩
    obtain ⟨e, he, heq⟩ := List.mem_map.mp hm
    obtain ⟨he, hr⟩ := List.mem_filter.mp he
    injection heq with e1 e2
    simp only at e1 e2
    subst e1 e2
    have hi := List.mem_zipIdx_iff_getElem?.mp hx
    refine ⟨heap.map fun e => (e.1, e.2.1), e.1, by unfold table; rw [List.getElem?_map]; simp only at hi; rw [hi]; rfl,
      List.mem_map.mpr ⟨e, he, rfl⟩, of_decide_eq_true hr⟩
  · rintro ⟨l, s, hl, hm, hr⟩
    obtain ⟨heap, h1, rfl⟩ := table_get hl
    obtain ⟨e, he, heq⟩ := List.mem_map.mp hm
    injection heq with e1 e2
    subst e1 e2
    exact ⟨(heap, i), List.mem_zipIdx_iff_getElem?.mpr h1, List.mem_map.mpr ⟨e, List.mem_filter.mpr ⟨he, decide_eq_true hr⟩, rfl⟩⟩

/-! ### Both functions -/

/-- What is returned: the connected components of the links of a table of neighbors, as items. -/
def Outcome (V : List α) (Ok : α → α → K → Prop) (radius : K) (k min_size : Nat) (max_size : Option Nat) (B : List (List (K × Nat)))
    (result : List (List α)) : Prop :=
  IsTable V Ok k B ∧ ∃ pairs clusters, LinksOf radius B pairs ∧
    IsComponents (Linked pairs) (fun a => ∃ b, Linked pairs a b) (SizeBetween min_size max_size) clusters ∧
    List.Forall₂ (List.Forall₂ fun i x => V[i]? = some x) clusters result

theorem finish_spec (ord : Nat → List Nat → List Nat) (hord : ∀ a l, (ord a l).Perm l) {V : List α} {Ok : α → α → K → Prop} (radius : K)
    {k : Nat} (min_size : Nat) (max_size : Option Nat) {P : List (Neighbor K F) → Prop} {B : List (List (Neighbor K F))} (hB : Good V Ok P k B) :
    ∃ result, finish ord V radius min_size max_size .connectedComponents B = .ok result ∧
      Outcome V Ok radius k min_size max_size (table B) result := by
  obtain ⟨clusters, h1, h2⟩ := clusters_from_pairs_components ord hord (links radius B) min_size max_size true
  have hbound : ∀ a b, Linked (links radius B) a b → a < V.length := by
    have key : ∀ a b, (a, b) ∈ links radius B → a < V.length ∧ b < V.length := by
      intro a b hab
      obtain ⟨l, s, hl, hm, _⟩ := (links_table radius B a b).mp hab
      obtain ⟨_, x, y, hx, hy, _⟩ := (isTable_of_good hB).entry a l s b hl hm
      exact ⟨(List.getElem?_eq_some_iff.mp hx).1, (List.getElem?_eq_some_iff.mp hy).1⟩
    rintro a b (h | h)
    · exact (key _ _ h).1
    · exact (key _ _ h).2
  obtain ⟨result, h3, h4⟩ := mapM_forall₂ (R := List.Forall₂ fun i x => V[i]? = some x) (fun cluster => cluster.mapM fun i => item V i) clusters (by
    intro c hc
    obtain ⟨_, a, ⟨b, hab⟩, _, hm⟩ := h2.sound c hc
    apply mapM_forall₂
    intro i hi
    have hlt : i < V.length := by
      have hcon := (hm i).mp hi
      have : ∀ a i, Connected (Linked (links radius B)) a i → a < V.length → i < V.length := by
        intro a i h
        induction h with
        | refl a => exact id
        | step hab _ ih => exact fun _ => ih (hbound _ _ (Or.symm hab))
      exact this a i hcon (hbound a b hab)
    exact ⟨V[i], item_ok (List.getElem?_eq_getElem hlt), List.getElem?_eq_getElem hlt⟩)
  refine ⟨result, ?_, isTable_of_good hB, links radius B, clusters, links_table radius B, h2, h4⟩
  unfold finish
  rw [h1]
  exact h3

theorem good_of_initial {V : List α} {similarity : α → α → K} {Ok : α → α → K → Prop} (hOk : ∀ x y, Ok x y (similarity x y))
    {P : List (Neighbor K F) → Prop} {k : Nat} {B : List (List (Neighbor K F))}
    (h : List.Forall₂ (fun i (heap : List (Neighbor K F)) => heap.length = k ∧ P heap ∧
      ∀ e ∈ heap, e.2.1 ≠ i ∧ ∃ x y, V[i]? = some x ∧ V[e.2.1]? = some y ∧ e.1 = similarity x y) (List.range V.length) B) : Good V Ok P k B := by
  have get : ∀ {i : Nat} {heap : List (Neighbor K F)}, B[i]? = some heap → heap.length = k ∧ P heap ∧
      ∀ e ∈ heap, e.2.1 ≠ i ∧ ∃ x y, V[i]? = some x ∧ V[e.2.1]? = some y ∧ e.1 = similarity x y := by
    intro i heap hi
    obtain ⟨i', h1, h2⟩ := forall₂_getElem? h hi
    obtain ⟨_, rfl⟩ := List.getElem?_eq_some_iff.mp h1
    rwa [List.getElem_range] at h2
  refine ⟨by rw [← h.length_eq, List.length_range], fun i heap hi => (get hi).1, fun i heap hi => (get hi).2.1, ?_⟩
  intro i heap hi e he
  obtain ⟨hne, x, y, hx, hy, hs⟩ := (get hi).2.2 e he
  exact ⟨hne, x, y, hx, hy, hs ▸ hOk x y⟩

/-- The number of neighbors. -/
def neighborsOf (N : Nat) (k : Option Nat) : Nat := k.getD N.log2

theorem chooseK_ok {N : Nat} {k : Option Nat} (h : 0 < N) : chooseK N k = .ok (neighborsOf N k) := by
  cases k with
  | none => unfold chooseK neighborsOf; simp only; rw [if_neg (by omega)]; rfl
  | some k => rfl

/-! ### C42: nn_descent -/

theorem descend_sound {heapq : Heapq (Neighbor K Unit)} (hq : NnDescent.Lawful heapq) {setOrd : List Nat → List Nat}
    (hset : ∀ l, (setOrd l).Perm l) {V : List α} {similarity : α → α → K} {P : List (Neighbor K Unit) → Prop}
    (hP : ∀ l x, l ≠ [] → P l → P (heapq.heapreplace l x)) {k : Nat} : ∀ (fuel : Nat) {B : List (List (Neighbor K Unit))},
    Good V (fun x y s => s = similarity x y) P k B →
    descend heapq setOrd V similarity fuel B = .ok none ∨
    ∃ B', descend heapq setOrd V similarity fuel B = .ok (some B') ∧ Good V (fun x y s => s = similarity x y) P k B' ∧
      Optimal V similarity B' := by
  intro fuel
  induction fuel with
  | zero => intro B _; exact Or.inl rfl
  | succ fuel ih =>
      intro B hB
      obtain ⟨B', c, h1, h2, h3, h4⟩ := turn_spec hq hset hP hB
      rw [descend, h1]
      simp only [bind, Except.bind]
      by_cases hc : c = 0
      · rw [if_neg (by simpa using hc)]
        obtain ⟨rfl, ho⟩ := h4 hc
        exact Or.inr ⟨B', rfl, hB, ho⟩
      · rw [if_pos hc]
        exact ih h2

/-- C42, soundness. Whatever the random choices, `nn_descent` on at least one item never raises; and when it ends, its clusters are the
connected components of links between different items whose similarity is at least the radius, each among `k` neighbors of the other, no
neighbor of a neighbor being more similar. -/
theorem nn_descent_sound {heapq : Heapq (Neighbor K Unit)} {IsHeap : List (Neighbor K Unit) → Prop} (hq : HeapLaws heapq IsHeap)
    (setOrd : List Nat → List Nat) (hset : ∀ l, (setOrd l).Perm l) (ord : Nat → List Nat → List Nat) (hord : ∀ a l, (ord a l).Perm l)
    (draws : Nat → Nat) (V : List α) (hV : V ≠ []) (radius : K) (similarity : α → α → K) (k : Option Nat) (min_size : Nat)
    (max_size : Option Nat) (fuel : Nat) :
    nnDescent heapq setOrd ord draws V radius similarity k min_size max_size .connectedComponents fuel = .ok none ∨
    ∃ B result, nnDescent heapq setOrd ord draws V radius similarity k min_size max_size .connectedComponents fuel = .ok (some result) ∧
      Outcome V (fun x y s => s = similarity x y) radius (neighborsOf V.length k) min_size max_size B result ∧
      LocallyOptimal V similarity B := by
  unfold nnDescent
  rw [chooseK_ok (List.length_pos_iff.mpr hV)]
  simp only [bind, Except.bind]
  rcases initial_spec hq.lawful hset (V := V) (P := IsHeap) hq.heapify (draws := draws) (similarity := similarity) (flag := ()) (k := neighborsOf V.length k)
    (fuel := fuel) (t := 0) (is := List.range V.length) (by simp) with h | ⟨B, t, h, hB⟩
  · rw [h]; exact Or.inl rfl
  · rw [h]
    have hB := good_of_initial (Ok := fun x y s => s = similarity x y) (fun _ _ => rfl) hB
    simp only
    rcases descend_sound hq.lawful hset hq.heapreplace fuel hB with h | ⟨B', h, hB', ho⟩
    · rw [h]; exact Or.inl rfl
    · rw [h]
      obtain ⟨result, h1, h2⟩ := finish_spec ord hord radius min_size max_size hB'
      simp only
      rw [h1]
      exact Or.inr ⟨table B', result, rfl, h2, locallyOptimal_of_optimal hq.first hB' ho⟩

/-- C42, in particular: two items are in a same cluster of the result only when a chain of links leads from one to the other, and each
link is between different items whose similarity, in one of the two orders, is at least the radius. -/
theorem nn_descent_links {V : List α} {similarity : α → α → K} {radius : K} {k min_size : Nat} {max_size : Option Nat}
    {B : List (List (K × Nat))} {result : List (List α)}
    (h : Outcome V (fun x y s => s = similarity x y) radius k min_size max_size B result) :
    ∀ c ∈ result, SizeBetween min_size max_size c.length ∧ ∀ x ∈ c, ∀ y ∈ c, ∃ i j : Nat, V[i]? = some x ∧ V[j]? = some y ∧
      Connected (fun i j : Nat => i ≠ j ∧ ∃ x y, V[i]? = some x ∧ V[j]? = some y ∧ (radius ≤ similarity x y ∨ radius ≤ similarity y x)) i j := by
  obtain ⟨hB, pairs, clusters, hp, hc, hr⟩ := h
  intro c hcr
  obtain ⟨n, hn⟩ := List.getElem?_of_mem hcr
  obtain ⟨d, hd, hf⟩ := forall₂_getElem? hr hn
  obtain ⟨hs, a, _, _, hm⟩ := hc.sound d (List.mem_of_getElem? hd)
  refine ⟨hf.length_eq ▸ hs, ?_⟩
  have link : ∀ i j, Linked pairs i j →
      i ≠ j ∧ ∃ x y, V[i]? = some x ∧ V[j]? = some y ∧ (radius ≤ similarity x y ∨ radius ≤ similarity y x) := by
    rintro i j (h | h)
    · obtain ⟨l, s, h1, h2, h3⟩ := (hp _ _).mp h
      obtain ⟨hne, x, y, hx, hy, rfl⟩ := hB.entry _ l s _ h1 h2
      exact ⟨fun e => hne e.symm, x, y, hx, hy, Or.inl h3⟩
    · obtain ⟨l, s, h1, h2, h3⟩ := (hp _ _).mp h
      obtain ⟨hne, x, y, hx, hy, rfl⟩ := hB.entry _ l s _ h1 h2
      exact ⟨hne, y, x, hy, hx, Or.inr h3⟩
  have trans : ∀ {R : Nat → Nat → Prop} {a b c : Nat}, Connected R a b → Connected R b c → Connected R a c := by
    intro R a b c h
    induction h with
    | refl => exact id
    | step h _ ih => exact fun h' => .step h (ih h')
  have symm : ∀ {a b : Nat}, Connected (Linked pairs) a b → Connected (Linked pairs) b a := by
    intro a b h
    induction h with
    | refl => exact .refl _
    | step h _ ih => exact trans ih (.step (Or.symm h) (.refl _))
  have mono : ∀ {R S : Nat → Nat → Prop} {a b : Nat}, (∀ a b, R a b → S a b) → Connected R a b → Connected S a b := by
    intro R S a b hRS h
    induction h with
    | refl => exact .refl _
    | step h _ ih => exact .step (hRS _ _ h) ih
  intro x hx y hy
  obtain ⟨m, hm1⟩ := List.getElem?_of_mem hx
  obtain ⟨i, hi, hVi⟩ := forall₂_getElem? hf hm1
  obtain ⟨m', hm2⟩ := List.getElem?_of_mem hy
  obtain ⟨j, hj, hVj⟩ := forall₂_getElem? hf hm2
  refine ⟨i, j, hVi, hVj, mono link ?_⟩
  exact trans (symm ((hm i).mp (List.mem_of_getElem? hi))) ((hm j).mp (List.mem_of_getElem? hj))

/-- From the initial samples on, `nn_descent` ends. -/
theorem nn_descent_from_initial {heapq : Heapq (Neighbor K Unit)} (hq : NnDescent.Lawful heapq) (setOrd : List Nat → List Nat)
    (hset : ∀ l, (setOrd l).Perm l) (ord : Nat → List Nat → List Nat) (hord : ∀ a l, (ord a l).Perm l) (draws : Nat → Nat) (V : List α)
    (hV : 0 < V.length) (radius : K) (similarity : α → α → K) (k : Option Nat) (min_size : Nat) (max_size : Option Nat) {fuel₁ : Nat}
    {B : List (List (Neighbor K Unit))} {t : Nat}
    (h1 : initial heapq setOrd draws V similarity () (neighborsOf V.length k) fuel₁ (List.range V.length) 0 = .ok (some (B, t))) :
    ∃ result, ∀ fuel, max fuel₁ (V.length * (neighborsOf V.length k * (V.length * V.length)) + 1) ≤ fuel →
      nnDescent heapq setOrd ord draws V radius similarity k min_size max_size .connectedComponents fuel = .ok (some result) := by
  have hB : Good V (fun x y s => s = similarity x y) (fun _ => True) (neighborsOf V.length k) B := by
    rcases initial_spec hq hset (V := V) (P := fun _ => True) (fun _ => trivial) (draws := draws) (similarity := similarity) (flag := ())
      (k := neighborsOf V.length k) (fuel := fuel₁) (t := 0) (is := List.range V.length) (by simp) with h | ⟨B', t', h, hB⟩
    · rw [h1] at h; simp at h
    · rw [h1] at h
      injection h with h
      injection h with h
      injection h with h h'
      subst h
      exact good_of_initial (Ok := fun x y s => s = similarity x y) (P := fun _ => True) (fun _ _ => rfl) hB
  obtain ⟨B', h2, _, h3⟩ := descend_spec hq hset (fun _ _ _ _ => trivial) _ hB (Nat.le_add_left _ _)
  obtain ⟨result, h4, _⟩ := finish_spec ord hord radius min_size max_size h2
  refine ⟨result, ?_⟩
  intro fuel hfuel
  unfold nnDescent
  rw [chooseK_ok (by omega)]
  simp only [bind, Except.bind]
  rw [initial_mono (by omega) h1]
  simp only
  rw [h3 fuel (by omega)]
  simp only
  rw [h4]
  rfl

/-- C42, termination: when the number of neighbors is less than the number of items, and the generator keeps giving every index,
`nn_descent` ends. -/
theorem nn_descent_terminates_partial {heapq : Heapq (Neighbor K Unit)} (hq : NnDescent.Lawful heapq) (setOrd : List Nat → List Nat)
    (hset : ∀ l, (setOrd l).Perm l) (ord : Nat → List Nat → List Nat) (hord : ∀ a l, (ord a l).Perm l) (draws : Nat → Nat) (V : List α)
    (hf : Fair draws V.length) (radius : K) (similarity : α → α → K) (k : Option Nat) (hk : neighborsOf V.length k < V.length) (min_size : Nat)
    (max_size : Option Nat) :
    ∃ result fuel₀, ∀ fuel, fuel₀ ≤ fuel →
      nnDescent heapq setOrd ord draws V radius similarity k min_size max_size .connectedComponents fuel = .ok (some result) := by
  obtain ⟨fuel₁, ⟨B, t⟩, h1⟩ := initial_ends hq hset similarity () hk hf (List.range V.length) 0 (by simp)
  obtain ⟨result, h⟩ := nn_descent_from_initial hq setOrd hset ord hord draws V (by omega) radius similarity k min_size max_size h1
  exact ⟨result, _, h⟩

/-- The default number of neighbors is small enough. -/
theorem nn_descent_default_k {N : Nat} (h : 0 < N) : neighborsOf N none < N := by
  unfold neighborsOf
  simp only [Option.getD_none]
  exact (Nat.log2_lt (by omega)).mpr Nat.lt_two_pow_self

/-- C42 is false of the code: when the number of neighbors is at least the number of items, `nn_descent` never ends. -/
theorem nn_descent_diverges (heapq : Heapq (Neighbor K Unit)) (setOrd : List Nat → List Nat) (ord : Nat → List Nat → List Nat)
    (draws : Nat → Nat) (V : List α) (hV : V ≠ []) (radius : K) (similarity : α → α → K) (k : Nat) (hk : V.length ≤ k) (min_size : Nat)
    (max_size : Option Nat) (mode : Mode) (fuel : Nat) :
    nnDescent heapq setOrd ord draws V radius similarity (some k) min_size max_size mode fuel = .ok none := by
  have hpos := List.length_pos_iff.mpr hV
  unfold nnDescent chooseK
  simp only [bind, Except.bind]
  obtain ⟨n, hn⟩ : ∃ n, V.length = n + 1 := ⟨V.length - 1, by omega⟩
  rw [hn, List.range_succ_eq_map, initial_none (by omega) hk]
  rfl

/-! ### C42: nn_descent_full -/

/-- C42, `nn_descent_full`: it never raises on at least one item; it only ends with links between different items whose similarity, in one of
the two orders, is at least the radius. -/
theorem nn_descent_full_sound {heapq : Heapq (Neighbor K Bool)} (hq : NnDescent.Lawful heapq) (setOrd : List Nat → List Nat)
    (hset : ∀ l, (setOrd l).Perm l) (ord : Nat → List Nat → List Nat) (hord : ∀ a l, (ord a l).Perm l) (draws : Nat → Nat) (V : List α)
    (hV : V ≠ []) (radius : K) (similarity : α → α → K) (k : Option Nat) (min_size : Nat) (max_size : Option Nat) (rho delta : Rat)
    (fuel : Nat) :
    nnDescentFull heapq setOrd ord draws V radius similarity k min_size max_size .connectedComponents rho delta fuel = .ok none ∨
    ∃ B result,
      nnDescentFull heapq setOrd ord draws V radius similarity k min_size max_size .connectedComponents rho delta fuel = .ok (some result) ∧
      Outcome V (fun x y s => s = similarity x y ∨ s = similarity y x) radius (neighborsOf V.length k) min_size max_size B result := by
  unfold nnDescentFull
  rw [chooseK_ok (List.length_pos_iff.mpr hV)]
  simp only [bind, Except.bind]
  rcases initial_spec hq hset (V := V) (P := fun _ => True) (fun _ => trivial) (draws := draws) (similarity := similarity) (flag := true)
    (k := neighborsOf V.length k) (fuel := fuel) (t := 0) (is := List.range V.length) (by simp) with h | ⟨B, t, h, hB⟩
  · rw [h]; exact Or.inl rfl
  · rw [h]
    have hB := good_of_initial (Ok := Either similarity) (fun _ _ => Or.inl rfl) hB
    simp only
    have key : ∀ (go : Nat → Bool) (rhoK fuel c : Nat) {B : List (List (Neighbor K Bool))} (t : Nat),
        Good V (Either similarity) (fun _ => True) (neighborsOf V.length k) B →
        descendFull heapq setOrd draws V similarity rhoK go fuel c B t = .ok none ∨
        ∃ B', descendFull heapq setOrd draws V similarity rhoK go fuel c B t = .ok (some B') ∧
          Good V (Either similarity) (fun _ => True) (neighborsOf V.length k) B' := by
      intro go rhoK fuel
      induction fuel with
      | zero => intro c B t _; exact Or.inl rfl
      | succ fuel ih =>
          intro c B t hB
          rw [descendFull]
          by_cases hc : go c = true
          · rw [if_pos hc]
            obtain ⟨B', c', t', h1, h2, _⟩ := turnFull_spec hq hset draws rhoK hB t
            simp only [bind, Except.bind, h1]
            exact ih c' t' h2
          · rw [if_neg hc]
            exact Or.inr ⟨B, rfl, hB⟩
    rcases key _ _ fuel _ t hB with h | ⟨B', h, hB'⟩
    · rw [h]; exact Or.inl rfl
    · rw [h]
      obtain ⟨result, h1, h2⟩ := finish_spec ord hord radius min_size max_size hB'
      simp only
      rw [h1]
      exact Or.inr ⟨table B', result, rfl, h2⟩

/-- From the initial samples on, `nn_descent_full` ends. -/
theorem nn_descent_full_from_initial {heapq : Heapq (Neighbor K Bool)} (hq : NnDescent.Lawful heapq) (setOrd : List Nat → List Nat)
    (hset : ∀ l, (setOrd l).Perm l) (ord : Nat → List Nat → List Nat) (hord : ∀ a l, (ord a l).Perm l) (draws : Nat → Nat) (V : List α)
    (hV : 0 < V.length) (radius : K) (similarity : α → α → K) (k : Option Nat) (hpos : 0 < neighborsOf V.length k) (min_size : Nat)
    (max_size : Option Nat) (rho delta : Rat) (hd : 0 < delta) {fuel₁ : Nat} {B : List (List (Neighbor K Bool))} {t : Nat}
    (h1 : initial heapq setOrd draws V similarity true (neighborsOf V.length k) fuel₁ (List.range V.length) 0 = .ok (some (B, t))) :
    ∃ result, ∀ fuel, max fuel₁ (V.length * (neighborsOf V.length k * (V.length * V.length)) + 2) ≤ fuel →
      nnDescentFull heapq setOrd ord draws V radius similarity k min_size max_size .connectedComponents rho delta fuel = .ok (some result) := by
  have hB : Good V (Either similarity) (fun _ => True) (neighborsOf V.length k) B := by
    rcases initial_spec hq hset (V := V) (P := fun _ => True) (fun _ => trivial) (draws := draws) (similarity := similarity) (flag := true)
      (k := neighborsOf V.length k) (fuel := fuel₁) (t := 0) (is := List.range V.length) (by simp) with h | ⟨B', t', h, hB⟩
    · rw [h1] at h; simp at h
    · rw [h1] at h
      injection h with h
      injection h with h
      injection h with h h'
      subst h
      exact good_of_initial (Ok := Either similarity) (P := fun _ => True) (fun _ _ => Or.inl rfl) hB
  have hgo : decide (((0 : Nat) : Rat) ≥ delta * ((V.length * neighborsOf V.length k : Nat) : Rat)) = false := by
    apply decide_eq_false
    rw [not_le]
    have : (0 : Rat) < ((V.length * neighborsOf V.length k : Nat) : Rat) := by
      have : 0 < V.length * neighborsOf V.length k := Nat.mul_pos (by omega) hpos
      exact_mod_cast this
    simpa using mul_pos hd this
  obtain ⟨B', h2, h3⟩ := descendFull_spec hq hset draws (rho * neighborsOf V.length k).floor.toNat
    (go := fun c => decide ((c : Rat) ≥ delta * ((V.length * neighborsOf V.length k : Nat) : Rat))) hgo _ (V.length * neighborsOf V.length k) t hB
    (Nat.le_add_left _ _)
  obtain ⟨result, h4, _⟩ := finish_spec ord hord radius min_size max_size h2
  refine ⟨result, ?_⟩
  intro fuel hfuel
  unfold nnDescentFull
  rw [chooseK_ok (by omega)]
  simp only [bind, Except.bind]
  rw [initial_mono (by omega) h1]
  simp only
  rw [h3 fuel (by omega)]
  simp only
  rw [h4]
  rfl

/-- C42, termination of `nn_descent_full`: it ends when there are enough items, the generator keeps giving every index, and `delta` is
positive with at least one neighbor. -/
theorem nn_descent_full_terminates_partial {heapq : Heapq (Neighbor K Bool)} (hq : NnDescent.Lawful heapq) (setOrd : List Nat → List Nat)
    (hset : ∀ l, (setOrd l).Perm l) (ord : Nat → List Nat → List Nat) (hord : ∀ a l, (ord a l).Perm l) (draws : Nat → Nat) (V : List α)
    (hf : Fair draws V.length) (radius : K) (similarity : α → α → K) (k : Option Nat) (hk : neighborsOf V.length k < V.length)
    (hpos : 0 < neighborsOf V.length k) (min_size : Nat) (max_size : Option Nat) (rho delta : Rat) (hd : 0 < delta) :
    ∃ result fuel₀, ∀ fuel, fuel₀ ≤ fuel →
      nnDescentFull heapq setOrd ord draws V radius similarity k min_size max_size .connectedComponents rho delta fuel = .ok (some result) := by
  obtain ⟨fuel₁, ⟨B, t⟩, h1⟩ := initial_ends hq hset similarity true hk hf (List.range V.length) 0 (by simp)
  obtain ⟨result, h⟩ := nn_descent_full_from_initial hq setOrd hset ord hord draws V (by omega) radius similarity k hpos min_size max_size
    rho delta hd h1
  exact ⟨result, _, h⟩

/-- C42 is false of `nn_descent_full` too: it never ends when `delta` is zero or less, or when there is no neighbor to look for, as happens
with one item and the default arguments. -/
theorem nn_descent_full_diverges {heapq : Heapq (Neighbor K Bool)} (hq : NnDescent.Lawful heapq) (setOrd : List Nat → List Nat)
    (hset : ∀ l, (setOrd l).Perm l) (ord : Nat → List Nat → List Nat) (draws : Nat → Nat) (V : List α) (hV : V ≠ []) (radius : K)
    (similarity : α → α → K) (k : Option Nat) (min_size : Nat) (max_size : Option Nat) (mode : Mode) (rho delta : Rat)
    (h : delta ≤ 0 ∨ neighborsOf V.length k = 0) (fuel : Nat) :
    nnDescentFull heapq setOrd ord draws V radius similarity k min_size max_size mode rho delta fuel = .ok none := by
  unfold nnDescentFull
  rw [chooseK_ok (List.length_pos_iff.mpr hV)]
  simp only [bind, Except.bind]
  rcases initial_spec hq hset (V := V) (P := fun _ => True) (fun _ => trivial) (draws := draws) (similarity := similarity) (flag := true)
    (k := neighborsOf V.length k) (fuel := fuel) (t := 0) (is := List.range V.length) (by simp) with h' | ⟨B, t, h', hB⟩
  · rw [h']; rfl
  · rw [h']
    have hB := good_of_initial (Ok := Either similarity) (fun _ _ => Or.inl rfl) hB
    simp only
    rw [descendFull_none hq hset draws _ (by
      intro c
      apply decide_eq_true
      have hc : (0 : Rat) ≤ (c : Rat) := by exact_mod_cast Nat.zero_le c
      refine le_trans ?_ hc
      rcases h with h | h
      · exact mul_nonpos_of_nonpos_of_nonneg h (by exact_mod_cast Nat.zero_le _)
      · rw [h]; simp) fuel _ t hB]
    rfl

/-! ### Examples -/

/-- The indices in turn: every index keeps coming. -/
theorem fair_id (N : Nat) : Fair (fun t => t) N := by
  intro j hj t
  refine ⟨(N - t % N) + j, ?_⟩
  have h1 := Nat.mod_lt t (Nat.zero_lt_of_lt hj)
  have h2 := Nat.div_add_mod t N
  have : t + (N - t % N + j) = j + N * (t / N + 1) := by
    rw [Nat.mul_add]
    omega
  simp only
  rw [this, Nat.add_mul_mod_self_left, Nat.mod_eq_of_lt hj]

/-- Numbers are similar when they are close. -/
def close (x y : Int) : Int := -(x - y).natAbs

/-- The hypotheses can be met: four numbers, two neighbors each. -/
example : ∃ result fuel₀, ∀ fuel, fuel₀ ≤ fuel → nnDescent (sortedHeapq Int Unit) (fun l => l) (fun _ l => l) (fun t => t) [1, 2, 10, 11] (-3)
    close none 2 none .connectedComponents fuel = .ok (some result) :=
  nn_descent_terminates_partial (sortedHeapq_laws Int Unit).lawful _ (fun _ => .refl _) _ (fun _ _ => .refl _) _ _ (fair_id _) _ _ _
    (nn_descent_default_k (by decide)) _ _

/-- The same, with the loop of `nn_descent_full`. -/
example : ∃ result fuel₀, ∀ fuel, fuel₀ ≤ fuel → nnDescentFull (sortedHeapq Int Bool) (fun l => l) (fun _ l => l) (fun t => t) [1, 2, 10, 11]
    (-3) close (some 2) 2 none .connectedComponents (1 / 2) (1 / 1000) fuel = .ok (some result) :=
  nn_descent_full_terminates_partial (sortedHeapq_laws Int Bool).lawful _ (fun _ => .refl _) _ (fun _ _ => .refl _) _ _ (fair_id _) _ _ _
    (by decide) (by decide) _ _ _ _ (by norm_num)

/-- What is found: the close numbers. -/
example : nnDescent (sortedHeapq Int Unit) (fun l => l) (fun _ l => l) (fun t => t) [1, 2, 10, 11] (-3) close none 2 none .fuzzyClusters 9 =
    .ok (some [[1, 2], [10, 11]]) := by
  decide +kernel

/-- Divergence: one item, and `k=1`. -/
example (fuel : Nat) : nnDescent (sortedHeapq Int Unit) (fun l => l) (fun _ l => l) (fun t => t) [1] (-3) close (some 1) 2 none
    .fuzzyClusters fuel = .ok none :=
  nn_descent_diverges _ _ _ _ _ (by decide) _ _ _ (by decide) _ _ _ _

/-- Divergence of `nn_descent_full`: one item, and the default arguments. -/
example (fuel : Nat) : nnDescentFull (sortedHeapq Int Bool) (fun l => l) (fun _ l => l) (fun t => t) [1] (-3) close none 2 none
    .fuzzyClusters (1 / 2) (1 / 1000) fuel = .ok none :=
  nn_descent_full_diverges (sortedHeapq_laws Int Bool).lawful _ (fun _ => .refl _) _ _ _ (by decide) _ _ _ _ _ _ _ _ (Or.inr (by decide)) _

/-- Four items: the first two are the closest, and so are the last two; the first and the third are close enough too. -/
def foursome (x y : Nat) : Int :=
  if (x, y) ∈ [(0, 1), (1, 0), (2, 3), (3, 2)] then 9 else if (x, y) ∈ [(0, 2), (2, 0)] then 8 else 0

/-- A weakness of the code: the same neighbor is put several times in a heap, and expels the others. Here every item has all others as
neighbors at the start, so that all pairs are compared, and yet the similarity of the first and third items, 8, is lost. -/
theorem nn_descent_loses_neighbors :
    nnDescent (sortedHeapq Int Unit) (fun l => l) (fun _ l => l) (fun t => t) [0, 1, 2, 3] 8 foursome (some 3) 2 none .fuzzyClusters 9 =
      .ok (some [[0, 1], [2, 3]]) ∧ (8 : Int) ≤ foursome 0 2 := by
  constructor
  · decide +kernel
  · decide

/-- Why: at the end, a neighbor reached by two steps is not more similar than any neighbor, so that all neighbors are as similar as it. -/
theorem nn_descent_neighbors_collapse {V : List α} {similarity : α → α → K} {k : Nat} {B : List (List (K × Nat))}
    (hB : IsTable V (fun x y s => s = similarity x y) k B) (ho : LocallyOptimal V similarity B) {i j m : Nat} {l : List (K × Nat)} {s s' : K}
    {n : Nat} (hl : B[i]? = some l) (hj : (s, j) ∈ l) (him : Near B i m) (hmj : Near B m j) (hn : (s', n) ∈ l) : s ≤ s' := by
  obtain ⟨hne, x, y, hx, hy, rfl⟩ := hB.entry i l s j hl hj
  exact ho i m j x y him hmj (fun h => hne h.symm) hx hy l s' n hl hn

end Fog.Props
