import Verif.Props.NnDescentHelpers
import Verif.Spec.NnTurn

/-!
# C100, C103: a turn of `nn_descent_full`, and of `nn_descent`
-/

namespace Fog.Props

open NnDescent Spec

variable {α K F : Type} [LinearOrder K]

/-! ### What is kept -/

/-- From `B` to `B'`, heaps stay heaps of the same length, keep what they had or have better, and only get what `P` allows. -/
structure Keeps (IsHeap : List (Neighbor K F) → Prop) (P : Nat → Neighbor K F → Prop) (B B' : List (List (Neighbor K F))) : Prop where
  length : B'.length = B.length
  heap : ∀ i l, B[i]? = some l → ∃ l', B'[i]? = some l' ∧ (IsHeap l → IsHeap l') ∧ l'.length = l.length ∧
    (∀ s j, Kept (l.map core) s j → Kept (l'.map core) s j) ∧ ∀ x ∈ l', x ∈ l ∨ P i x

theorem Keeps.refl {IsHeap : List (Neighbor K F) → Prop} {P : Nat → Neighbor K F → Prop} (B : List (List (Neighbor K F))) :
    Keeps IsHeap P B B := ⟨rfl, fun _ l h => ⟨l, h, id, rfl, fun _ _ h => h, fun _ h => Or.inl h⟩⟩

theorem Keeps.trans {IsHeap : List (Neighbor K F) → Prop} {P : Nat → Neighbor K F → Prop} {B B' B'' : List (List (Neighbor K F))}
    (h : Keeps IsHeap P B B') (h' : Keeps IsHeap P B' B'') : Keeps IsHeap P B B'' := by
  refine ⟨h'.length.trans h.length, ?_⟩
  intro i l hl
  obtain ⟨l', a1, a2, a3, a4, a5⟩ := h.heap i l hl
  obtain ⟨l'', b1, b2, b3, b4, b5⟩ := h'.heap i l' a1
  refine ⟨l'', b1, b2 ∘ a2, b3.trans a3, fun s j hk => b4 s j (a4 s j hk), fun x hx => ?_⟩
  rcases b5 x hx with hx | hx
  · exact a5 x hx
  · exact Or.inr hx

theorem Keeps.mono {IsHeap : List (Neighbor K F) → Prop} {P Q : Nat → Neighbor K F → Prop} {B B' : List (List (Neighbor K F))}
    (h : Keeps IsHeap P B B') (hPQ : ∀ i x, P i x → Q i x) : Keeps IsHeap Q B B' := by
  refine ⟨h.length, ?_⟩
  intro i l hl
  obtain ⟨l', a1, a2, a3, a4, a5⟩ := h.heap i l hl
  exact ⟨l', a1, a2, a3, a4, fun x hx => (a5 x hx).imp id (hPQ i x)⟩

/-- Lists of neighbors which are heaps, and have some. -/
def Heaps (IsHeap : List (Neighbor K F) → Prop) (B : List (List (Neighbor K F))) : Prop :=
  ∀ (i : Nat) (l : List (Neighbor K F)), B[i]? = some l → l ≠ [] ∧ IsHeap l

theorem Heaps.keeps {IsHeap : List (Neighbor K F) → Prop} {P : Nat → Neighbor K F → Prop} {B B' : List (List (Neighbor K F))}
    (h : Heaps IsHeap B) (hk : Keeps IsHeap P B B') : Heaps IsHeap B' := by
  intro i l' hl'
  have hi : i < B.length := by rw [← hk.length]; exact (List.getElem?_eq_some_iff.mp hl').1
  obtain ⟨l, a1, a2, a3, _⟩ := hk.heap i B[i] (List.getElem?_eq_getElem hi)
  rw [hl'] at a1
  injection a1 with a1
  subst a1
  obtain ⟨h1, h2⟩ := h i _ (List.getElem?_eq_getElem hi)
  exact ⟨by rw [← List.length_pos_iff, a3, List.length_pos_iff]; exact h1, a2 h2⟩

theorem replaceIf_keeps {heapq : Heapq (Neighbor K F)} {IsHeap : List (Neighbor K F) → Prop} (hq : HeapLaws heapq IsHeap)
    {st : List (List (Neighbor K F)) × Nat} (hst : Heaps IsHeap st.1) {u : Nat} (hu : u < st.1.length) (e : Neighbor K F) :
    ∃ st', replaceIf heapq st u e = .ok st' ∧ Keeps IsHeap (fun i x => i = u ∧ x = e) st.1 st'.1 ∧
      ∀ l', st'.1[u]? = some l' → Kept (l'.map core) e.1 e.2.1 := by
  have hheap : st.1[u]? = some st.1[u] := List.getElem?_eq_getElem hu
  generalize st.1[u] = heap at hheap
  obtain ⟨hne, hheapI⟩ := hst u heap hheap
  cases heap with
  | nil => exact absurd rfl hne
  | cons first rest =>
      have hmin := hq.first first rest hheapI
      unfold replaceIf
      rw [item_ok hheap]
      simp only [bind, Except.bind, item_ok (show (first :: rest)[0]? = some first from rfl)]
      by_cases hgt : e.1 > first.1
      · rw [if_pos hgt]
        have hperm := hq.lawful.heapreplace (first :: rest) e (by simp)
        have hmem : ∀ x, x ∈ heapq.heapreplace (first :: rest) e ↔ x = e ∨ x ∈ rest := by
          intro x; rw [hperm.mem_iff]; simp
        refine ⟨_, rfl, ⟨by simp, ?_⟩, ?_⟩
        · intro i l hl
          by_cases hi : u = i
          · subst hi
            rw [hheap] at hl
            injection hl with hl
            subst hl
            refine ⟨_, by rw [List.getElem?_set_self hu], fun _ => hq.heapreplace _ _ (by simp) hheapI, by rw [hperm.length_eq]; simp, ?_, ?_⟩
            · intro s j hk
              rcases hk with hk | hk
              · obtain ⟨x, hx, hc⟩ := List.mem_map.mp hk
                rcases List.mem_cons.mp hx with rfl | hx
                · right
                  intro y hy
                  obtain ⟨z, hz, rfl⟩ := List.mem_map.mp hy
                  have hs : s = x.1 := (congrArg Prod.fst hc).symm
                  rcases (hmem z).mp hz with rfl | hz
                  · rw [hs]; exact le_of_lt hgt
                  · rw [hs]; exact hmin z hz
                · left
                  exact List.mem_map.mpr ⟨x, (hmem x).mpr (Or.inr hx), hc⟩
              · right
                intro y hy
                obtain ⟨z, hz, rfl⟩ := List.mem_map.mp hy
                rcases (hmem z).mp hz with rfl | hz
                · exact le_trans (hk (core first) (by simp)) (le_of_lt hgt)
                · exact hk (core z) (List.mem_map.mpr ⟨z, by simp [hz], rfl⟩)
            · intro x hx
              rcases (hmem x).mp hx with rfl | hx
              · exact Or.inr ⟨rfl, rfl⟩
              · exact Or.inl (by simp [hx])
          · exact ⟨l, by rw [List.getElem?_set_ne hi]; exact hl, id, rfl, fun _ _ h => h, fun _ h => Or.inl h⟩
        · intro l' hl'
          simp only [List.getElem?_set_self hu] at hl'
          injection hl' with hl'
          subst hl'
          exact Or.inl (List.mem_map.mpr ⟨e, (hmem e).mpr (Or.inl rfl), rfl⟩)
      · rw [if_neg hgt]
        refine ⟨st, rfl, .refl _, ?_⟩
        intro l' hl'
        rw [hheap] at hl'
        injection hl' with hl'
        subst hl'
        right
        intro y hy
        obtain ⟨z, hz, rfl⟩ := List.mem_map.mp hy
        have h1 := not_lt.mp hgt
        rcases List.mem_cons.mp hz with rfl | hz
        · exact h1
        · exact le_trans h1 (hmin z hz)

/-- Neighbors which come from a compared pair. -/
def FromPair (V : List α) (similarity : α → α → K) (pairs : List (Nat × Nat)) (i : Nat) (e : Neighbor K Bool) : Prop :=
  e.2.2 = true ∧ ∃ u v x y, (u, v) ∈ pairs ∧ V[u]? = some x ∧ V[v]? = some y ∧ e.1 = similarity x y ∧ ((i, e.2.1) = (u, v) ∨ (i, e.2.1) = (v, u))

theorem joinAll_keeps {heapq : Heapq (Neighbor K Bool)} {IsHeap : List (Neighbor K Bool) → Prop} (hq : HeapLaws heapq IsHeap)
    {V : List α} {similarity : α → α → K} : ∀ (pairs : List (Nat × Nat)) (st : List (List (Neighbor K Bool)) × Nat),
    (∀ p ∈ pairs, p.1 < V.length ∧ p.2 < V.length) → st.1.length = V.length → Heaps IsHeap st.1 →
    ∃ st', pairs.foldlM (join heapq V similarity) st = .ok st' ∧ Keeps IsHeap (FromPair V similarity pairs) st.1 st'.1 ∧
      ∀ u v x y, (u, v) ∈ pairs → V[u]? = some x → V[v]? = some y → ∀ l,
        (st'.1[u]? = some l → Kept (l.map core) (similarity x y) v) ∧ (st'.1[v]? = some l → Kept (l.map core) (similarity x y) u) := by
  intro pairs
  induction pairs with
  | nil => intro st _ _ _; exact ⟨st, rfl, .refl _, by simp⟩
  | cons p pairs ih =>
      obtain ⟨u, v⟩ := p
      intro st hp hlen hst
      obtain ⟨hu, hv⟩ := hp (u, v) (by simp)
      simp only at hu hv
      have e1 := List.getElem?_eq_getElem hu
      have e2 := List.getElem?_eq_getElem hv
      generalize V[u] = x at e1
      generalize V[v] = y at e2
      obtain ⟨st1, a1, a2, a3⟩ := replaceIf_keeps hq hst (u := u) (by omega) (similarity x y, v, true)
      have l1 : st1.1.length = V.length := a2.length.trans hlen
      obtain ⟨st2, b1, b2, b3⟩ := replaceIf_keeps hq (hst.keeps a2) (u := v) (by omega) (similarity x y, u, true)
      have l2 : st2.1.length = V.length := b2.length.trans l1
      obtain ⟨st3, c1, c2, c3⟩ := ih st2 (fun q hq => hp q (by simp [hq])) l2 ((hst.keeps a2).keeps b2)
      refine ⟨st3, ?_, ?_, ?_⟩
      · rw [List.foldlM_cons]
        have : join heapq V similarity st (u, v) = .ok st2 := by
          unfold join
          simp only [bind, Except.bind, sim_ok similarity e1 e2, a1]
          exact b1
        rw [this]
        exact c1
      · refine ((a2.mono ?_).trans (b2.mono ?_)).trans (c2.mono ?_)
        · rintro i z ⟨rfl, rfl⟩
          exact ⟨rfl, i, v, x, y, by simp, e1, e2, rfl, Or.inl rfl⟩
        · rintro i z ⟨rfl, rfl⟩
          exact ⟨rfl, u, i, x, y, by simp, e1, e2, rfl, Or.inr rfl⟩
        · rintro i z ⟨hf, a, b, x', y', hab, h⟩
          exact ⟨hf, a, b, x', y', by simp [hab], h⟩
      · intro u' v' x' y' hm hx hy l
        rcases List.mem_cons.mp hm with he | hm
        · injection he with h1 h2
          subst h1 h2
          rw [e1] at hx
          rw [e2] at hy
          injection hx with hx
          injection hy with hy
          subst hx hy
          constructor
          · intro hl
            have g1 := List.getElem?_eq_getElem (l := st1.1) (i := u') (by omega)
            obtain ⟨m, m1, _, _, m2, _⟩ := (b2.heap u' _ g1)
            obtain ⟨m', m3, _, _, m4, _⟩ := (c2.heap u' _ m1)
            rw [hl] at m3
            injection m3 with m3
            subst m3
            exact m4 _ _ (m2 _ _ (a3 _ g1))
          · intro hl
            have g1 := List.getElem?_eq_getElem (l := st2.1) (i := v') (by omega)
            obtain ⟨m', m3, _, _, m4, _⟩ := (c2.heap v' _ g1)
            rw [hl] at m3
            injection m3 with m3
            subst m3
            exact m4 _ _ (b3 _ g1)
        · exact c3 u' v' x' y' hm hx hy l

/-! ### What is compared -/

theorem joins_exact {setOrd : List Nat → List Nat} (hset : ∀ l, (setOrd l).Perm l) (o n : List Nat) (u v : Nat) :
    (u, v) ∈ joins setOrd o n ↔ u ∈ n ∧ ((v ∈ n ∧ u < v) ∨ (v ∈ o ∧ u ≠ v)) := by
  unfold joins
  simp only [List.mem_flatMap, List.mem_append, List.mem_map, List.mem_filter, (hset _).mem_iff, decide_eq_true_eq, Prod.mk.injEq]
  constructor
  · rintro ⟨a, ha, ⟨b, ⟨hb, hab⟩, rfl, rfl⟩ | ⟨b, ⟨hb, hab⟩, rfl, rfl⟩⟩
    · exact ⟨ha, Or.inl ⟨hb, hab⟩⟩
    · exact ⟨ha, Or.inr ⟨hb, hab⟩⟩
  · rintro ⟨hu, ⟨hv, huv⟩ | ⟨hv, huv⟩⟩
    · exact ⟨u, hu, Or.inl ⟨v, ⟨hv, huv⟩, rfl, rfl⟩⟩
    · exact ⟨u, hu, Or.inr ⟨v, ⟨hv, huv⟩, rfl, rfl⟩⟩

theorem sampleFull_sampleOf (draws : Nat → Nat) {L : List Nat} (hL : L.Nodup) (k t : Nat) :
    ∃ L' s t', sampleFull draws L k t = .ok (L', s, t') ∧ SampleOf k L s := by
  obtain ⟨L', s, t', h1, h2, h3, h4⟩ := sample_full_exact draws L k t
  refine ⟨L', s, t', h1, ?_, ?_, h4⟩
  · rw [h3]; exact (List.take_sublist _ _).nodup (h2.nodup_iff.mpr hL)
  · intro x hx; exact h2.mem_iff.mp (List.mem_of_mem_take (h3 ▸ hx))

theorem allJoins_exact (draws : Nat → Nat) {setOrd : List Nat → List Nat} (hset : ∀ l, (setOrd l).Perm l) (rhoK N : Nat)
    (old new old_prime new_prime : Nat → List Nat) (ho : ∀ i, (old_prime i).Nodup) (hn : ∀ i, (new_prime i).Nodup) :
    ∀ (is : List Nat) (t : Nat), is.Nodup → (∀ i ∈ is, i < N) →
    ∃ pairs t', ∃ so sn : Nat → List Nat, allJoins draws setOrd rhoK ((List.range N).map old) ((List.range N).map new)
        ((List.range N).map old_prime) ((List.range N).map new_prime) is t = .ok (pairs, t') ∧
      (∀ i ∈ is, SampleOf rhoK (old_prime i) (so i) ∧ SampleOf rhoK (new_prime i) (sn i)) ∧
      ∀ u v, (u, v) ∈ pairs ↔ ∃ i ∈ is, (u ∈ new i ∨ u ∈ sn i) ∧ (((v ∈ new i ∨ v ∈ sn i) ∧ u < v) ∨ ((v ∈ old i ∨ v ∈ so i) ∧ u ≠ v)) := by
  have get : ∀ (f : Nat → List Nat) {i : Nat}, i < N → item ((List.range N).map f) i = .ok (f i) := by
    intro f i hi
    apply item_ok
    rw [List.getElem?_map, List.getElem?_range hi]
    rfl
  intro is
  induction is with
  | nil => intro t _ _; exact ⟨[], t, fun _ => [], fun _ => [], rfl, by simp, by simp⟩
  | cons i is ih =>
      intro t hnd his
      have hi := his i (by simp)
      obtain ⟨hni, hnd⟩ := List.nodup_cons.mp hnd
      obtain ⟨L1, s1, t1, h1, h2⟩ := sampleFull_sampleOf draws (ho i) rhoK t
      obtain ⟨L2, s2, t2, h3, h4⟩ := sampleFull_sampleOf draws (hn i) rhoK t1
      obtain ⟨pairs, t', so, sn, h5, h6, h7⟩ := ih t2 hnd (fun j hj => his j (by simp [hj]))
      refine ⟨joins setOrd (dedup (old i ++ s1)) (dedup (new i ++ s2)) ++ pairs, t', fun j => if j = i then s1 else so j,
        fun j => if j = i then s2 else sn j, ?_, ?_, ?_⟩
      · rw [allJoins]
        simp only [bind, Except.bind, get _ hi, h1, h3, h5]
        rfl
      · intro j hj
        rcases List.mem_cons.mp hj with rfl | hj
        · simp only [if_true]; exact ⟨h2, h4⟩
        · have : j ≠ i := fun h => hni (h ▸ hj)
          simp only [if_neg this]; exact h6 j hj
      · intro u v
        rw [List.mem_append, joins_exact hset, h7]
        simp only [mem_dedup, List.mem_append, List.mem_cons]
        constructor
        · rintro (h | ⟨j, hj, h⟩)
          · exact ⟨i, Or.inl rfl, by simpa using h⟩
          · have : j ≠ i := fun h => hni (h ▸ hj)
            exact ⟨j, Or.inr hj, by simpa only [if_neg this] using h⟩
        · rintro ⟨j, rfl | hj, h⟩
          · left; simpa using h
          · have : j ≠ i := fun h => hni (h ▸ hj)
            right; exact ⟨j, hj, by simpa only [if_neg this] using h⟩

/-- The in-neighbors of an item, when neighbors are different. -/
theorem inNeighbors_nodup (i : Nat) (f : Nat → List Nat) : ∀ (l : List (List Nat)) (n : Nat), (∀ r ∈ l, r.Nodup) →
    (∀ a r, l[a]? = some r → ∀ j, j ∈ r ↔ j ∈ f (n + a)) →
    ((l.zipIdx n).flatMap fun x => List.replicate (x.1.count i) x.2) = (List.range' n l.length).filter fun a => decide (i ∈ f a) := by
  intro l
  induction l with
  | nil => intro n _ _; rfl
  | cons r l ih =>
      intro n hnd hf
      have hr := hnd r (by simp)
      have h0 := hf 0 r rfl i
      rw [Nat.add_zero] at h0
      rw [List.zipIdx_cons, List.flatMap_cons, List.length_cons, List.range'_succ,
        ih (n + 1) (fun x hx => hnd x (by simp [hx])) (fun a x hx j => by rw [hf (a + 1) x hx j]; congr! 2; omega)]
      by_cases hi : i ∈ r
      · rw [List.filter_cons_of_pos (by simpa using h0.mp hi), List.count_eq_one_of_mem hr hi]
        rfl
      · rw [List.filter_cons_of_neg (by simpa using fun h => hi (h0.mpr h)), List.count_eq_zero_of_not_mem hi]
        rfl

theorem oldNews_exact (draws : Nat → Nat) (rhoK : Nat) : ∀ (B : List (List (Neighbor K Bool))) (t : Nat),
    ∃ old new B' t', ∃ places : Nat → List Nat, oldNews draws rhoK B t = .ok (old, new, B', t') ∧
      old.length = B.length ∧ new.length = B.length ∧ B'.length = B.length ∧
      ∀ i l, B[i]? = some l → ∃ o n l', old[i]? = some o ∧ new[i]? = some n ∧ B'[i]? = some l' ∧ o.Nodup ∧ n.Nodup ∧
        SampleOf rhoK (newPlaces l) (places i) ∧ (∀ j, j ∈ o ↔ ∃ s, (s, j, false) ∈ l) ∧
        (∀ j, j ∈ n ↔ ∃ p ∈ places i, ∃ s, l[p]? = some (s, j, true)) ∧ l'.length = l.length ∧
        ∀ p s j flag, l[p]? = some (s, j, flag) → l'[p]? = some (s, j, flag && decide (p ∈ places i)) := by
  intro B
  induction B with
  | nil => intro t; exact ⟨[], [], [], t, fun _ => [], rfl, rfl, rfl, rfl, by simp⟩
  | cons l B ih =>
      intro t
      obtain ⟨o, n, l', t1, ps, h1, h2, h3, h4, h5, h6, h7, h8, h9, h10⟩ := old_new_exact_partial draws rhoK l t
      obtain ⟨old, new, B', t', places, g1, g2, g3, g4, g5⟩ := ih t1
      refine ⟨o :: old, n :: new, l' :: B', t', fun i => match i with | 0 => ps | i + 1 => places i, ?_, by simp [g2], by simp [g3],
        by simp [g4], ?_⟩
      · rw [oldNews]
        simp only [bind, Except.bind, h1, g1]
        rfl
      · intro i m hm
        cases i with
        | zero =>
            simp only [List.getElem?_cons_zero, Option.some.injEq] at hm
            subst hm
            refine ⟨o, n, l', rfl, rfl, rfl, h2, h7, ⟨h4, ?_, ?_⟩, h3, h8, h9, h10⟩
            · intro p hp
              obtain ⟨s, j, hs⟩ := h6 p hp
              refine List.mem_filter.mpr ⟨List.mem_range.mpr (List.getElem?_eq_some_iff.mp hs).1, ?_⟩
              rw [hs]
            · rw [h5]
              congr 1
              unfold newPlaces
              rw [← List.countP_eq_length_filter]
              have e : (List.range l.length).map (fun p => l[p]?) = l.map some := by
                apply List.ext_getElem <;> simp
              have h : (l.map some).countP (fun x => match x with | some e => e.2.2 | none => false) = l.countP fun e => e.2.2 := by
                rw [List.countP_map]; rfl
              rw [← h, ← e, List.countP_map]
              rfl
        | succ i => exact g5 i m (by simpa using hm)

/-- **C100**: with heaps of neighbors which are items, a turn of `nn_descent_full` does not raise, and for some sampled places, the pairs it compares
are those of `Compared`. Every list keeps its length; each neighbor it had is still there, or all of the list is at least as similar, and so it
is of each compared item; and what it has either was there, where only sampled places kept their flag, or comes from a comparison, and has a
flag. -/
theorem turn_full_exact {heapq : Heapq (Neighbor K Bool)} {IsHeap : List (Neighbor K Bool) → Prop} (hq : HeapLaws heapq IsHeap)
    (hcore : ∀ l l' : List (Neighbor K Bool), l.map (fun e => (e.1, e.2.1)) = l'.map (fun e => (e.1, e.2.1)) → IsHeap l → IsHeap l')
    {setOrd : List Nat → List Nat} (hset : ∀ l, (setOrd l).Perm l) (draws : Nat → Nat) (V : List α) (similarity : α → α → K) (rhoK : Nat)
    (B : List (List (Neighbor K Bool))) (t : Nat) (hlen : B.length = V.length)
    (hB : ∀ l ∈ B, l ≠ [] ∧ IsHeap l ∧ ∀ e ∈ l, e.2.1 < V.length) :
    ∃ B' c t' pairs places, turnFull heapq setOrd draws V similarity rhoK B t = .ok (B', c, t') ∧
      Compared rhoK B places pairs ∧ B'.length = B.length ∧
      ∀ (i : Nat) (l l' : List (Neighbor K Bool)), B[i]? = some l → B'[i]? = some l' → IsHeap l' ∧ l'.length = l.length ∧
        (∀ e ∈ l, Kept (l'.map fun e => (e.1, e.2.1)) e.1 e.2.1) ∧
        (∀ u v x y, (u, v) ∈ pairs → V[u]? = some x → V[v]? = some y →
          (i = u → Kept (l'.map fun e => (e.1, e.2.1)) (similarity x y) v) ∧ (i = v → Kept (l'.map fun e => (e.1, e.2.1)) (similarity x y) u)) ∧
        ∀ s j flag, (s, j, flag) ∈ l' →
          (∃ p f, l[p]? = some (s, j, f) ∧ flag = (f && decide (p ∈ places i))) ∨
          (flag = true ∧ ∃ u v x y, (u, v) ∈ pairs ∧ V[u]? = some x ∧ V[v]? = some y ∧ s = similarity x y ∧
            ((i, j) = (u, v) ∨ (i, j) = (v, u))) := by
  obtain ⟨old, new, B1, t1, places, h1, h2, h3, h4, h5⟩ := oldNews_exact draws rhoK B t
  have get : ∀ (l : List (List Nat)), l.length = B.length → l = (List.range V.length).map fun i => l.getD i [] := by
    intro l hl
    apply List.ext_getElem?
    intro i
    rw [List.getElem?_map]
    by_cases hi : i < l.length
    · rw [List.getElem?_range (by omega), List.getElem?_eq_getElem hi, Option.map_some, List.getD_eq_getElem?_getD, List.getElem?_eq_getElem hi]; rfl
    · rw [List.getElem?_eq_none (by omega), List.getElem?_eq_none (by simp; omega)]; rfl
  have hget : ∀ (l : List (List Nat)) {i r}, l[i]? = some r → l.getD i [] = r := by
    intro l i r h; rw [List.getD_eq_getElem?_getD, h]; rfl
  have holdb : ∀ i j, j ∈ old.getD i [] → j < V.length := by
    intro i j hj
    by_cases hi : i < B.length
    · obtain ⟨o, n, l', a1, _, _, _, _, _, a2, _⟩ := h5 i _ (List.getElem?_eq_getElem hi)
      rw [hget _ a1, a2] at hj
      obtain ⟨s, hs⟩ := hj
      exact (hB _ (List.getElem_mem hi)).2.2 _ hs
    · rw [List.getD_eq_getElem?_getD, List.getElem?_eq_none (by omega)] at hj; simp at hj
  have hnewb : ∀ i j, j ∈ new.getD i [] → j < V.length := by
    intro i j hj
    by_cases hi : i < B.length
    · obtain ⟨o, n, l', _, a1, _, _, _, _, _, a2, _⟩ := h5 i _ (List.getElem?_eq_getElem hi)
      rw [hget _ a1, a2] at hj
      obtain ⟨p, _, s, hs⟩ := hj
      exact (hB _ (List.getElem_mem hi)).2.2 _ (List.mem_of_getElem? hs)
    · rw [List.getD_eq_getElem?_getD, List.getElem?_eq_none (by omega)] at hj; simp at hj
  have hrev : ∀ l : List (List Nat), l.length = B.length → (∀ (i : Nat) (r : List Nat), l[i]? = some r → r.Nodup) → (∀ i j, j ∈ l.getD i [] → j < V.length) →
      NnDescent.reverse (l.map setOrd) = .ok ((List.range V.length).map fun i => (List.range B.length).filter fun a => decide (i ∈ l.getD a [])) := by
    intro l hl hnd hb
    rw [(reverse_exact (l.map setOrd)).1]
    · rw [List.length_map, hl, hlen]
      congr 1
      apply List.map_congr_left
      intro i _
      unfold inNeighbors
      rw [inNeighbors_nodup i (fun a => l.getD a []), List.length_map, hl, hlen, ← List.range_eq_range']
      · intro r hr
        obtain ⟨x, hx, rfl⟩ := List.mem_map.mp hr
        obtain ⟨a, ha⟩ := List.getElem?_of_mem hx
        exact (hset x).nodup_iff.mpr (hnd a x ha)
      · intro a r hr j
        rw [List.getElem?_map, Option.map_eq_some_iff] at hr
        obtain ⟨x, hx, rfl⟩ := hr
        rw [Nat.zero_add, hget _ hx, (hset x).mem_iff]
    · intro r hr j hj
      obtain ⟨x, hx, rfl⟩ := List.mem_map.mp hr
      obtain ⟨a, ha⟩ := List.getElem?_of_mem hx
      rw [List.length_map, hl, hlen]
      exact hb a j (by rw [hget _ ha]; exact (hset x).mem_iff.mp hj)
  have hlt : ∀ {l : List (List Nat)} {i r}, l.length = B.length → l[i]? = some r → i < B.length := by
    intro l i r hl h; rw [← hl]; exact (List.getElem?_eq_some_iff.mp h).1
  have r1 := hrev old h2 (by
    intro i r hr
    obtain ⟨o, n, l', a1, _, _, a2, _⟩ := h5 i _ (List.getElem?_eq_getElem (hlt h2 hr))
    rw [hr] at a1; injection a1 with a1; subst a1; exact a2) holdb
  have r2 := hrev new h3 (by
    intro i r hr
    obtain ⟨o, n, l', _, a1, _, _, a2, _⟩ := h5 i _ (List.getElem?_eq_getElem (hlt h3 hr))
    rw [hr] at a1; injection a1 with a1; subst a1; exact a2) hnewb
  obtain ⟨pairs, t2, so, sn, j1, j2, j3⟩ := allJoins_exact draws hset rhoK V.length (fun i => old.getD i []) (fun i => new.getD i [])
    (fun i => (List.range B.length).filter fun a => decide (i ∈ old.getD a []))
    (fun i => (List.range B.length).filter fun a => decide (i ∈ new.getD a []))
    (fun i => List.filter_sublist.nodup List.nodup_range) (fun i => List.filter_sublist.nodup List.nodup_range)
    (List.range V.length) t1 List.nodup_range (by simp)
  have hpairs : ∀ p ∈ pairs, p.1 < V.length ∧ p.2 < V.length := by
    rintro ⟨u, v⟩ hp
    obtain ⟨i, hi, a, b⟩ := (j3 u v).mp hp
    obtain ⟨m1, m2⟩ := j2 i hi
    have inr : ∀ {x : Nat} {q : Nat → Bool}, x ∈ (List.range B.length).filter q → x < V.length := by
      intro x q hx
      rw [← hlen]
      exact List.mem_range.mp (List.mem_of_mem_filter hx)
    have hn : ∀ x, x ∈ new.getD i [] ∨ x ∈ sn i → x < V.length := fun x hx => hx.elim (hnewb i x) (fun h => inr (m2.mem x h))
    have ho : ∀ x, x ∈ old.getD i [] ∨ x ∈ so i → x < V.length := fun x hx => hx.elim (holdb i x) (fun h => inr (m1.mem x h))
    refine ⟨hn u a, ?_⟩
    rcases b with ⟨b, _⟩ | ⟨b, _⟩
    · exact hn v b
    · exact ho v b
  have hB1 : ∀ i l l1, B[i]? = some l → B1[i]? = some l1 → l.map core = l1.map core ∧
      ∀ p s j flag, l[p]? = some (s, j, flag) → l1[p]? = some (s, j, flag && decide (p ∈ places i)) := by
    intro i l l1 hl hl1
    obtain ⟨o, n, l', _, _, a1, _, _, _, _, _, a2, a3⟩ := h5 i l hl
    rw [hl1] at a1
    injection a1 with a1
    subst a1
    refine ⟨?_, a3⟩
    apply List.ext_getElem?
    intro p
    rw [List.getElem?_map, List.getElem?_map]
    by_cases hp : p < l.length
    · have := List.getElem?_eq_getElem hp
      rw [a3 p l[p].1 l[p].2.1 l[p].2.2 this, this]; rfl
    · rw [List.getElem?_eq_none (by omega), List.getElem?_eq_none (by omega)]
  have hheaps : Heaps IsHeap B1 := by
    intro i l1 hl1
    have hi : i < B.length := by rw [← h4]; exact (List.getElem?_eq_some_iff.mp hl1).1
    have hl := List.getElem?_eq_getElem hi
    obtain ⟨c1, _⟩ := hB1 i _ l1 hl hl1
    obtain ⟨b1, b2, _⟩ := hB _ (List.getElem_mem hi)
    refine ⟨?_, hcore _ _ c1 b2⟩
    rintro rfl
    simp at c1
    exact b1 c1
  obtain ⟨⟨B', c⟩, f1, f2, f3⟩ := joinAll_keeps hq (similarity := similarity) pairs (B1, 0) hpairs (h4.trans hlen) hheaps
  refine ⟨B', c, t2, pairs, places, ?_, ⟨fun i => old.getD i [], fun i => new.getD i [], so, sn, ?_, ?_, ?_⟩, f2.length.trans h4, ?_⟩
  · unfold turnFull
    simp only [bind, Except.bind, h1, r1, r2]
    rw [← get old h2, ← get new h3] at j1
    simp only [j1, f1]
    rfl
  · intro i l hl
    obtain ⟨o, n, l', a1, a2, _, _, _, a3, a4, a5, _⟩ := h5 i l hl
    refine ⟨a3, ?_, ?_⟩
    · simp only [hget _ a1]; exact a4
    · simp only [hget _ a2]; exact a5
  · intro i hi
    exact j2 i (List.mem_range.mpr (by omega))
  · intro u v
    rw [j3 u v, hlen]
    simp only [List.mem_range]
  · intro i l l' hl hl'
    have hi : i < B.length := (List.getElem?_eq_some_iff.mp hl).1
    have hl1 := List.getElem?_eq_getElem (l := B1) (i := i) (by omega)
    generalize B1[i] = l1 at hl1
    obtain ⟨c1, c2⟩ := hB1 i l l1 hl hl1
    obtain ⟨m, m1, m2, m3, m4, m5⟩ := f2.heap i l1 hl1
    rw [hl'] at m1
    injection m1 with m1
    subst m1
    have hle : l1.length = l.length := by have := congrArg List.length c1; simpa using this.symm
    refine ⟨m2 (hheaps i l1 hl1).2, m3.trans hle, ?_, ?_, ?_⟩
    · intro e he
      refine m4 _ _ (Or.inl ?_)
      rw [← c1]
      exact List.mem_map.mpr ⟨e, he, rfl⟩
    · intro u v x y hp hx hy
      exact ⟨fun h => (f3 u v x y hp hx hy l').1 (h ▸ hl'), fun h => (f3 u v x y hp hx hy l').2 (h ▸ hl')⟩
    · intro s j flag hm
      rcases m5 _ hm with hm | ⟨a, b⟩
      · left
        obtain ⟨p, hp⟩ := List.getElem?_of_mem hm
        have hpl : p < l.length := by rw [← hle]; exact (List.getElem?_eq_some_iff.mp hp).1
        have := List.getElem?_eq_getElem hpl
        have h := c2 p l[p].1 l[p].2.1 l[p].2.2 this
        rw [hp] at h
        injection h with h
        injection h with e1 h
        injection h with e2 e3
        exact ⟨p, l[p].2.2, by rw [e1, e2]; exact this, e3⟩
      · exact Or.inr ⟨a, b⟩

/-- Whether a list is sorted by similarity does not depend on flags. -/
theorem sorted_core (l l' : List (Neighbor K Bool)) (h : l.map (fun e => (e.1, e.2.1)) = l'.map (fun e => (e.1, e.2.1)))
    (hl : l.Pairwise fun a b => a.1 ≤ b.1) : l'.Pairwise fun a b => a.1 ≤ b.1 := by
  have e : ∀ l : List (Neighbor K Bool), (l.Pairwise fun a b => a.1 ≤ b.1) ↔ (l.map fun e => (e.1, e.2.1)).Pairwise fun a b => a.1 ≤ b.1 := by
    intro l; rw [List.pairwise_map]
  rw [e, ← h, ← e]
  exact hl

-- Four items: 0 knows 1, 1 only knows 3, which is far, and 2 and 3 know each other. After a turn, 1 and 2 know each other.
example : turnFull (sortedHeapq Int Bool) (fun l => l) (fun t => t) [1, 2, 4, 9] close 1
    [[(-1, 1, true)], [(-7, 3, true)], [(-5, 3, true)], [(-5, 2, true)]] 0 =
      .ok ([[(-1, 1, true)], [(-2, 2, true)], [(-2, 1, true)], [(-5, 2, true)]], 2, 1) := by rfl

-- The theorem applies to them.
example : ∃ B' c t' pairs places, turnFull (sortedHeapq Int Bool) (fun l => l) (fun t => t) [1, 2, 4, 9] close 1
    [[(-1, 1, true)], [(-7, 3, true)], [(-5, 3, true)], [(-5, 2, true)]] 0 = .ok (B', c, t') ∧
    Compared 1 [[((-1 : Int), 1, true)], [(-7, 3, true)], [(-5, 3, true)], [(-5, 2, true)]] places pairs := by
  obtain ⟨B', c, t', pairs, places, h, h', _⟩ := turn_full_exact (sortedHeapq_laws Int Bool) sorted_core (setOrd := fun l => l) (fun _ => .refl _)
    (fun t => t) [1, 2, 4, 9] close 1 [[(-1, 1, true)], [(-7, 3, true)], [(-5, 3, true)], [(-5, 2, true)]] 0 rfl (by simp)
  exact ⟨B', c, t', pairs, places, h, h'⟩

/-! ### nn_descent -/

theorem near_iff_adjacent {B : List (List (Neighbor K F))} {i j : Nat} : Near (table B) i j ↔ Adjacent B i j := by
  refine ⟨adjacent_of_near, ?_⟩
  have key : ∀ i j, At (B.map fun heap => heap.map fun e => e.2.1) i j → ∃ l s, (table B)[i]? = some l ∧ (s, j) ∈ l := by
    rintro i j ⟨r, hr, hj⟩
    rw [List.getElem?_map] at hr
    cases hB : B[i]? with
    | none => rw [hB] at hr; cases hr
    | some heap =>
        rw [hB] at hr
        injection hr with hr
        subst hr
        obtain ⟨e, he, rfl⟩ := List.mem_map.mp hj
        exact ⟨heap.map fun e => (e.1, e.2.1), e.1, by unfold table; rw [List.getElem?_map, hB]; rfl, List.mem_map.mpr ⟨e, he, rfl⟩⟩
  rintro (h | h)
  · exact Or.inl (key _ _ h)
  · exact Or.inr (key _ _ h)

/-- The visits of some pairs. -/
theorem visitAll_keeps {heapq : Heapq (Neighbor K Unit)} {IsHeap : List (Neighbor K Unit) → Prop} (hq : HeapLaws heapq IsHeap)
    {V : List α} {similarity : α → α → K} : ∀ (pairs : List (Nat × Nat)) (st : List (List (Neighbor K Unit)) × Nat),
    (∀ p ∈ pairs, p.1 < V.length ∧ p.2 < V.length) → st.1.length = V.length → Heaps IsHeap st.1 →
    ∃ st', pairs.foldlM (visit heapq V similarity) st = .ok st' ∧
      Keeps IsHeap (fun i e => (i, e.2.1) ∈ pairs ∧ i ≠ e.2.1 ∧ ∃ x y, V[i]? = some x ∧ V[e.2.1]? = some y ∧ e.1 = similarity x y) st.1 st'.1 ∧
      ∀ u v x y, (u, v) ∈ pairs → u ≠ v → V[u]? = some x → V[v]? = some y → ∀ l, st'.1[u]? = some l → Kept (l.map core) (similarity x y) v := by
  intro pairs
  induction pairs with
  | nil => intro st _ _ _; exact ⟨st, rfl, .refl _, by simp⟩
  | cons p pairs ih =>
      obtain ⟨u, v⟩ := p
      intro st hp hlen hst
      obtain ⟨hu, hv⟩ := hp (u, v) (by simp)
      simp only at hu hv
      by_cases huv : u = v
      · obtain ⟨st3, c1, c2, c3⟩ := ih st (fun q hq => hp q (by simp [hq])) hlen hst
        refine ⟨st3, ?_, c2.mono ?_, ?_⟩
        · rw [List.foldlM_cons]
          have : visit heapq V similarity st (u, v) = .ok st := if_pos huv
          rw [this]
          exact c1
        · rintro i z ⟨h1, h2⟩; exact ⟨by simp [h1], h2⟩
        · intro u' v' x' y' hm hne hx hy l hl
          rcases List.mem_cons.mp hm with he | hm
          · injection he with h1 h2; exact absurd (h1.trans (huv.trans h2.symm)) hne
          · exact c3 u' v' x' y' hm hne hx hy l hl
      · have e1 := List.getElem?_eq_getElem hu
        have e2 := List.getElem?_eq_getElem hv
        generalize V[u] = x at e1
        generalize V[v] = y at e2
        obtain ⟨st1, a1, a2, a3⟩ := replaceIf_keeps hq hst (u := u) (by omega) (similarity x y, v, ())
        have l1 : st1.1.length = V.length := a2.length.trans hlen
        obtain ⟨st3, c1, c2, c3⟩ := ih st1 (fun q hq => hp q (by simp [hq])) l1 (hst.keeps a2)
        refine ⟨st3, ?_, (a2.mono ?_).trans (c2.mono ?_), ?_⟩
        · rw [List.foldlM_cons]
          have : visit heapq V similarity st (u, v) = .ok st1 := by
            unfold visit
            rw [if_neg huv]
            simp only [bind, Except.bind, sim_ok similarity e1 e2]
            exact a1
          rw [this]
          exact c1
        · rintro i z ⟨rfl, rfl⟩
          exact ⟨by simp, huv, x, y, e1, e2, rfl⟩
        · rintro i z ⟨h1, h2⟩; exact ⟨by simp [h1], h2⟩
        · intro u' v' x' y' hm hne hx hy l hl
          rcases List.mem_cons.mp hm with he | hm
          · injection he with h1 h2
            subst h1 h2
            rw [e1] at hx
            rw [e2] at hy
            injection hx with hx
            injection hy with hy
            subst hx hy
            have g1 := List.getElem?_eq_getElem (l := st1.1) (i := u') (by omega)
            obtain ⟨m', m3, _, _, m4, _⟩ := (c2.heap u' _ g1)
            rw [hl] at m3
            injection m3 with m3
            subst m3
            exact m4 _ _ (a3 _ g1)
          · exact c3 u' v' x' y' hm hne hx hy l hl

/-- **C103**: with heaps of neighbors which are items, a turn of `nn_descent` does not raise. Every list keeps its length; each neighbor it had is
still there, or all of the list is at least as similar, and so it is of each other item near an item which is near, as they were before the turn;
and nothing else comes in. -/
theorem turn_exact {heapq : Heapq (Neighbor K Unit)} {IsHeap : List (Neighbor K Unit) → Prop} (hq : HeapLaws heapq IsHeap)
    {setOrd : List Nat → List Nat} (hset : ∀ l, (setOrd l).Perm l) (V : List α) (similarity : α → α → K)
    (B : List (List (Neighbor K Unit))) (hlen : B.length = V.length)
    (hB : ∀ l ∈ B, l ≠ [] ∧ IsHeap l ∧ ∀ e ∈ l, e.2.1 < V.length) :
    ∃ B' c, turn heapq setOrd V similarity B = .ok (B', c) ∧ B'.length = B.length ∧
      ∀ (i : Nat) (l l' : List (Neighbor K Unit)), B[i]? = some l → B'[i]? = some l' → IsHeap l' ∧ l'.length = l.length ∧
        (∀ e ∈ l, Kept (l'.map fun e => (e.1, e.2.1)) e.1 e.2.1) ∧
        (∀ j m x y, Near (table B) i j → Near (table B) j m → i ≠ m → V[i]? = some x → V[m]? = some y →
          Kept (l'.map fun e => (e.1, e.2.1)) (similarity x y) m) ∧
        ∀ s m, (s, m, ()) ∈ l' → (s, m, ()) ∈ l ∨
          ∃ j x y, Near (table B) i j ∧ Near (table B) j m ∧ i ≠ m ∧ V[i]? = some x ∧ V[m]? = some y ∧ s = similarity x y := by
  have bound : ∀ {i j}, At (B.map fun heap => heap.map fun e => e.2.1) i j → i < V.length ∧ j < V.length := by
    rintro i j ⟨r, hr, hj⟩
    rw [List.getElem?_map] at hr
    cases hi : B[i]? with
    | none => rw [hi] at hr; cases hr
    | some heap =>
        rw [hi] at hr
        injection hr with hr
        subst hr
        obtain ⟨e, he, rfl⟩ := List.mem_map.mp hj
        exact ⟨by rw [← hlen]; exact (List.getElem?_eq_some_iff.mp hi).1, (hB _ (List.mem_of_getElem? hi)).2.2 e he⟩
  have bound' : ∀ {i j}, Adjacent B i j → i < V.length ∧ j < V.length := by
    rintro i j (h | h)
    · exact bound h
    · exact (bound h).symm
  obtain ⟨R, hR, hRl, hRm⟩ := reverse_spec (B := B.map fun heap => heap.map fun e => e.2.1) (by
    intro l hl j hj
    obtain ⟨i, hi⟩ := List.getElem?_of_mem hl
    rw [List.length_map, hlen]
    exact (bound ⟨l, hi, hj⟩).2)
  obtain ⟨C, hC, hCl, hCm⟩ := candidates_spec hset (by simpa using hRl) hRm
  obtain ⟨pairs, hp, hpm⟩ := visits_spec (C := C) (by
    intro i j hij
    rw [hCl, hlen]
    exact (bound' ((hCm i j).mp hij)).2)
  obtain ⟨⟨B', c⟩, h1, h2, h3⟩ := visitAll_keeps hq (V := V) (similarity := similarity) pairs (B, 0) (by
    rintro ⟨i, jj⟩ hp
    obtain ⟨j, hij, hjj⟩ := (hpm i jj).mp hp
    exact ⟨(bound' ((hCm _ _).mp hij)).1, (bound' ((hCm _ _).mp hjj)).2⟩) hlen
    (fun i l hl => ⟨(hB l (List.mem_of_getElem? hl)).1, (hB l (List.mem_of_getElem? hl)).2.1⟩)
  have near : ∀ i m, (i, m) ∈ pairs ↔ ∃ j, Near (table B) i j ∧ Near (table B) j m := by
    intro i m
    rw [hpm]
    simp only [hCm, near_iff_adjacent]
  refine ⟨B', c, ?_, h2.length, ?_⟩
  · unfold turn
    rw [hR]
    change (do let C ← candidates setOrd B R; _) = _
    rw [hC]
    change (do let pairs ← visits C; _) = _
    rw [hp]
    exact h1
  · intro i l l' hl hl'
    obtain ⟨l'', a1, a2, a3, a4, a5⟩ := h2.heap i l hl
    simp only at a1
    rw [hl'] at a1
    injection a1 with a1
    subst a1
    refine ⟨a2 (hB l (List.mem_of_getElem? hl)).2.1, a3, ?_, ?_, ?_⟩
    · intro e he
      exact a4 _ _ (Or.inl (List.mem_map.mpr ⟨e, he, rfl⟩))
    · intro j m x y hij hjm hne hx hy
      exact h3 i m x y ((near i m).mpr ⟨j, hij, hjm⟩) hne hx hy l' hl'
    · intro s m hm
      rcases a5 _ hm with h | ⟨h, hne, x, y, hx, hy, e⟩
      · exact Or.inl h
      · obtain ⟨j, hij, hjm⟩ := (near i m).mp h
        exact Or.inr ⟨j, x, y, hij, hjm, hne, hx, hy, e⟩

-- Four items: after a turn, 1 knows 2, which knew its neighbor 3, and 2 knows 1.
example : turn (sortedHeapq Int Unit) (fun l => l) [1, 2, 4, 9] close [[(-1, 1, ())], [(-7, 3, ())], [(-5, 3, ())], [(-5, 2, ())]] =
    .ok ([[(-1, 1, ())], [(-2, 2, ())], [(-2, 1, ())], [(-5, 2, ())]], 2) := by rfl

-- The theorem applies to them.
example : ∃ B' c, turn (sortedHeapq Int Unit) (fun l => l) [1, 2, 4, 9] close [[(-1, 1, ())], [(-7, 3, ())], [(-5, 3, ())], [(-5, 2, ())]] =
    .ok (B', c) ∧ B'.length = 4 := by
  obtain ⟨B', c, h, h', _⟩ := turn_exact (sortedHeapq_laws Int Unit) (setOrd := fun l => l) (fun _ => .refl _) [1, 2, 4, 9] close
    [[(-1, 1, ())], [(-7, 3, ())], [(-5, 3, ())], [(-5, 2, ())]] rfl (by simp)
  exact ⟨B', c, h, h'⟩

end Fog.Props
