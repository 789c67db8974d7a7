import Verif.Props.NnDescent

/-!
# C97: the helpers of `nn_descent_full`
-/

namespace Fog.Props

open NnDescent Spec

/-! ### In-neighbors -/

/-- Who has `j` among their neighbors: in increasing order, repeated as many times as `j` is. -/
def inNeighbors (B : List (List Nat)) (j : Nat) : List Nat := B.zipIdx.flatMap fun x => List.replicate (x.1.count j) x.2

theorem appends_exact (i : Nat) : ∀ (l : List Nat) (R : List (List Nat)),
    ((∀ j ∈ l, j < R.length) → ∃ R', l.foldlM (fun R j => append R j i) R = .ok R' ∧ R'.length = R.length ∧
      ∀ a r, R[a]? = some r → R'[a]? = some (r ++ List.replicate (l.count a) i)) ∧
    ((∃ j ∈ l, R.length ≤ j) → l.foldlM (fun R j => append R j i) R = .error .indexError) := by
  intro l
  induction l with
  | nil => intro R; exact ⟨fun _ => ⟨R, rfl, rfl, by simp⟩, by simp⟩
  | cons j l ih =>
      intro R
      constructor
      · intro h
        have hj := h j (by simp)
        obtain ⟨R', h1, h2, h3⟩ := (ih (R.modify j (· ++ [i]))).1 (fun x hx => by rw [List.length_modify]; exact h x (by simp [hx]))
        refine ⟨R', ?_, by rw [h2, List.length_modify], ?_⟩
        · rw [List.foldlM_cons, append, if_pos hj]; exact h1
        · intro a r hr
          by_cases ha : j = a
          · subst ha
            rw [h3 j (r ++ [i]) (by simp [List.getElem?_modify, hr]), List.count_cons_self, List.append_assoc]
            rfl
          · rw [h3 a r (by simp [List.getElem?_modify, ha, hr]), List.count_cons_of_ne ha]
      · rintro ⟨x, hx, hl⟩
        rw [List.foldlM_cons, append]
        by_cases hj : j < R.length
        · rw [if_pos hj]
          refine (ih (R.modify j (· ++ [i]))).2 ⟨x, ?_, by rw [List.length_modify]; exact hl⟩
          rcases List.mem_cons.mp hx with rfl | hx
          · omega
          · exact hx
        · rw [if_neg hj]; rfl

/-- **C97**: the in-neighbors of the item `j` are the items which have `j` among their neighbors, and an `IndexError` is raised exactly when a
neighbor is not an item. -/
theorem reverse_exact (B : List (List Nat)) :
    ((∀ l ∈ B, ∀ j ∈ l, j < B.length) → NnDescent.reverse B = .ok ((List.range B.length).map (inNeighbors B))) ∧
    ((∃ l ∈ B, ∃ j ∈ l, B.length ≤ j) → NnDescent.reverse B = .error .indexError) := by
  have key : ∀ (l : List (List Nat)) (n : Nat) (R : List (List Nat)),
      ((∀ x ∈ l, ∀ j ∈ x, j < R.length) →
        ∃ R', (l.zipIdx n).foldlM (fun R x => x.1.foldlM (fun R j => append R j x.2) R) R = .ok R' ∧ R'.length = R.length ∧
          ∀ a r, R[a]? = some r → R'[a]? = some (r ++ (l.zipIdx n).flatMap fun x => List.replicate (x.1.count a) x.2)) ∧
      ((∃ x ∈ l, ∃ j ∈ x, R.length ≤ j) →
        (l.zipIdx n).foldlM (fun R x => x.1.foldlM (fun R j => append R j x.2) R) R = .error .indexError) := by
    intro l
    induction l with
    | nil => intro n R; exact ⟨fun _ => ⟨R, rfl, rfl, by simp⟩, by simp⟩
    | cons b l ih =>
        intro n R
        rw [List.zipIdx_cons, List.foldlM_cons]
        simp only [List.flatMap_cons]
        constructor
        · intro h
          obtain ⟨R', h1, h2, h3⟩ := (appends_exact n b R).1 (h b (by simp))
          obtain ⟨R'', h4, h5, h6⟩ := (ih (n + 1) R').1 (fun x hx => by rw [h2]; exact h x (by simp [hx]))
          refine ⟨R'', ?_, h5.trans h2, ?_⟩
          · rw [h1]; exact h4
          · intro a r hr
            rw [h6 a _ (h3 a r hr), List.append_assoc]
        · rintro ⟨x, hx, j, hj, hl⟩
          by_cases hb : ∃ j ∈ b, R.length ≤ j
          · rw [(appends_exact n b R).2 hb]; rfl
          · obtain ⟨R', h1, h2, _⟩ := (appends_exact n b R).1 (by
              intro j hj
              by_contra hc
              exact hb ⟨j, hj, by omega⟩)
            rw [h1]
            refine (ih (n + 1) R').2 ?_
            rw [h2]
            rcases List.mem_cons.mp hx with rfl | hx
            · exact absurd ⟨j, hj, hl⟩ hb
            · exact ⟨x, hx, j, hj, hl⟩
  have hl : (B.map fun _ => ([] : List Nat)).length = B.length := by simp
  constructor
  · intro h
    obtain ⟨R, h1, h2, h3⟩ := (key B 0 (B.map fun _ => [])).1 (by rw [hl]; exact h)
    unfold NnDescent.reverse
    rw [h1]
    congr 1
    apply List.ext_getElem?
    intro a
    rw [List.getElem?_map]
    by_cases ha : a < B.length
    · rw [h3 a [] (by rw [List.getElem?_map, List.getElem?_eq_getElem ha]; rfl), List.getElem?_range ha]
      rfl
    · rw [List.getElem?_eq_none (by omega), List.getElem?_eq_none (by simp; omega)]; rfl
  · intro h
    exact (key B 0 (B.map fun _ => [])).2 (by rw [hl]; exact h)

example : NnDescent.reverse [[1, 2], [2], [0, 0]] = .ok [[2, 2], [0], [0, 1]] ∧ NnDescent.reverse [[3], [0]] = .error .indexError := by decide +kernel

/-! ### Samples -/

/-- **C97**: the initial sample of an item has `k` different other items. -/
theorem sample_exact {draws : Nat → Nat} {N k i fuel t : Nat} {S : List Nat} {t' : Nat} (hN : 0 < N)
    (h : sample draws N k i fuel t [] = some (S, t')) : S.Nodup ∧ S.length = k ∧ ∀ j ∈ S, j < N ∧ j ≠ i := by
  obtain ⟨h1, h2⟩ := sample_spec hN ⟨List.nodup_nil, by simp⟩ (by simp) h
  exact ⟨h1.nodup, h2, h1.mem⟩

/-- **C97**: `sample_full` never raises, reorders its list, and gives its `k` first items, or all of them if there are less. -/
theorem sample_full_exact {β : Type} (draws : Nat → Nat) (L : List β) (k t : Nat) :
    ∃ L' s t', sampleFull draws L k t = .ok (L', s, t') ∧ L'.Perm L ∧ s = L'.take k ∧ s.length = min k L.length := by
  unfold sampleFull
  by_cases h : L.length ≤ k
  · rw [if_pos h]
    exact ⟨L, L, t, rfl, .refl _, (List.take_of_length_le h).symm, by omega⟩
  · rw [if_neg h]
    obtain ⟨L', t', h1, h2⟩ := shuffle_spec draws k 0 L t (by omega)
    refine ⟨L', L'.take k, t', ?_, h2, rfl, ?_⟩
    · rw [h1]; rfl
    · rw [List.length_take, h2.length_eq]

example : sampleFull (fun t => t + 1) [10, 20, 30, 40] 2 0 = .ok ([20, 40, 30, 10], [20, 40], 2) := by decide +kernel

/-! ### Old and new neighbors -/

variable {K : Type} [LinearOrder K]

/-- **C97**, partial: the old neighbors are those without a flag; the new ones are a sample of `rho * k` places with a flag; then the places
which were *not* sampled lose their flag, and no other. Missing because false: that the sampled ones lose it. -/
theorem old_new_exact_partial (draws : Nat → Nat) (rhoK : Nat) (neighbors : List (Neighbor K Bool)) (t : Nat) :
    ∃ o n neighbors' t', ∃ places : List Nat, oldNew draws rhoK neighbors t = .ok (o, n, neighbors', t') ∧
      o.Nodup ∧ (∀ j, j ∈ o ↔ ∃ s, (s, j, false) ∈ neighbors) ∧
      places.Nodup ∧ places.length = min rhoK (neighbors.countP fun e => e.2.2) ∧
      (∀ p ∈ places, ∃ s j, neighbors[p]? = some (s, j, true)) ∧
      n.Nodup ∧ (∀ j, j ∈ n ↔ ∃ p ∈ places, ∃ s, neighbors[p]? = some (s, j, true)) ∧
      neighbors'.length = neighbors.length ∧
      ∀ p s j flag, neighbors[p]? = some (s, j, flag) → neighbors'[p]? = some (s, j, flag && decide (p ∈ places)) := by
  generalize hflag : (neighbors.zipIdx.filter fun x => x.1.2.2).map (fun x => (x.2, x.1.2.1)) = flagged
  obtain ⟨L, s, t', h1, h2, h3, h4⟩ := sample_full_exact draws flagged rhoK t
  have hmem : ∀ p j, (p, j) ∈ flagged ↔ ∃ s, neighbors[p]? = some (s, j, true) := by
    intro p j
    rw [← hflag, List.mem_map]
    constructor
    · rintro ⟨⟨⟨s, j', f⟩, p'⟩, hx, he⟩
      obtain ⟨hx, hf⟩ := List.mem_filter.mp hx
      injection he with e1 e2
      simp only at hf e1 e2
      subst e1 e2 hf
      exact ⟨s, List.mem_zipIdx_iff_getElem?.mp hx⟩
    · rintro ⟨s, hs⟩
      exact ⟨((s, j, true), p), List.mem_filter.mpr ⟨List.mem_zipIdx_iff_getElem?.mpr hs, rfl⟩, rfl⟩
  have hnodup : (flagged.map Prod.fst).Nodup := by
    rw [← hflag, List.map_map]
    have : ((neighbors.zipIdx.filter fun x => x.1.2.2).map (Prod.fst ∘ fun x => (x.2, x.1.2.1))).Sublist (neighbors.zipIdx.map Prod.snd) :=
      (List.filter_sublist (p := fun x : Neighbor K Bool × Nat => x.1.2.2) (l := neighbors.zipIdx)).map Prod.snd
    refine this.nodup ?_
    rw [List.zipIdx_map_snd]
    exact List.nodup_range'
  have hcount : flagged.length = neighbors.countP fun e => e.2.2 := by
    rw [← hflag, List.length_map, ← List.countP_eq_length_filter]
    have : neighbors.countP (fun e => e.2.2) = (neighbors.zipIdx.map Prod.fst).countP (fun e => e.2.2) := by rw [List.zipIdx_map_fst]
    rw [this, List.countP_map]
    rfl
  have hsL : ∀ x ∈ s, x ∈ flagged := fun x hx => h2.mem_iff.mp (List.mem_of_mem_take (h3 ▸ hx))
  have hsn : (s.map Prod.fst).Nodup := by
    have : (L.map Prod.fst).Nodup := (h2.map Prod.fst).nodup_iff.mpr hnodup
    rw [h3, List.map_take]
    exact (List.take_sublist _ _).nodup this
  have hinj : ∀ {p j j'}, (p, j) ∈ flagged → (p, j') ∈ flagged → j = j' := by
    intro p j j' h h'
    obtain ⟨a, ha⟩ := (hmem p j).mp h
    obtain ⟨b, hb⟩ := (hmem p j').mp h'
    rw [ha] at hb
    injection hb with hb
    injection hb with _ hb
    injection hb
  have fold : ∀ (xs : List (Nat × Nat)) (l : List (Neighbor K Bool)), (∀ x ∈ xs, x.1 < l.length) →
      ∃ l', xs.foldlM (fun l x =>
        if x ∈ s then (.ok l : Py (List (Neighbor K Bool)))
        else if x.1 < l.length then .ok (l.modify x.1 fun e => (e.1, e.2.1, false)) else .error .indexError) l = .ok l' ∧
        l'.length = l.length ∧ ∀ p a j f, l[p]? = some (a, j, f) → l'[p]? = some (a, j, f && !decide (∃ x ∈ xs, x ∉ s ∧ x.1 = p)) := by
    intro xs
    induction xs with
    | nil => intro l _; exact ⟨l, rfl, rfl, by simp⟩
    | cons x xs ih =>
        intro l hl
        by_cases hx : x ∈ s
        · obtain ⟨l', g1, g2, g3⟩ := ih l (fun y hy => hl y (by simp [hy]))
          refine ⟨l', ?_, g2, ?_⟩
          · rw [List.foldlM_cons, if_pos hx]; exact g1
          · intro p a j f hp
            have e : (∃ y ∈ x :: xs, y ∉ s ∧ y.1 = p) ↔ ∃ y ∈ xs, y ∉ s ∧ y.1 = p := by grind
            rw [g3 p a j f hp, decide_eq_decide.mpr e]
        · obtain ⟨l', g1, g2, g3⟩ := ih (l.modify x.1 fun e => (e.1, e.2.1, false)) (fun y hy => by rw [List.length_modify]; exact hl y (by simp [hy]))
          refine ⟨l', ?_, by rw [g2, List.length_modify], ?_⟩
          · rw [List.foldlM_cons, if_neg hx, if_pos (hl x (by simp))]; exact g1
          · intro p a j f hp
            by_cases he : x.1 = p
            · have e : ∃ y ∈ x :: xs, y ∉ s ∧ y.1 = p := ⟨x, by simp, hx, he⟩
              rw [g3 p a j false (by simp [List.getElem?_modify, he, hp]), decide_eq_true e]
              simp
            · have e : (∃ y ∈ x :: xs, y ∉ s ∧ y.1 = p) ↔ ∃ y ∈ xs, y ∉ s ∧ y.1 = p := by grind
              rw [g3 p a j f (by simp [List.getElem?_modify, he, hp]), decide_eq_decide.mpr e]
  obtain ⟨neighbors', g1, g2, g3⟩ := fold L neighbors (by
    intro x hx
    obtain ⟨a, ha⟩ := (hmem x.1 x.2).mp (h2.mem_iff.mp hx)
    exact (List.getElem?_eq_some_iff.mp ha).1)
  refine ⟨dedup ((neighbors.filter fun e => !e.2.2).map fun e => e.2.1), dedup (s.map Prod.snd), neighbors', t', s.map Prod.fst, ?_, nodup_dedup _,
    ?_, hsn, ?_, ?_, nodup_dedup _, ?_, g2, ?_⟩
  · unfold oldNew
    simp only [hflag, bind, Except.bind, h1]
    rw [g1]
    rfl
  · intro j
    rw [mem_dedup, List.mem_map]
    constructor
    · rintro ⟨⟨a, j', f⟩, he, rfl⟩
      obtain ⟨he, hf⟩ := List.mem_filter.mp he
      simp only [Bool.not_eq_true'] at hf
      subst hf
      exact ⟨a, he⟩
    · rintro ⟨a, ha⟩
      exact ⟨_, List.mem_filter.mpr ⟨ha, rfl⟩, rfl⟩
  · rw [List.length_map, h4, hcount]
  · intro p hp
    obtain ⟨x, hx, rfl⟩ := List.mem_map.mp hp
    obtain ⟨a, ha⟩ := (hmem x.1 x.2).mp (hsL x hx)
    exact ⟨a, x.2, ha⟩
  · intro j
    rw [mem_dedup, List.mem_map]
    constructor
    · rintro ⟨x, hx, rfl⟩
      exact ⟨x.1, List.mem_map.mpr ⟨x, hx, rfl⟩, (hmem x.1 x.2).mp (hsL x hx)⟩
    · rintro ⟨p, hp, a, ha⟩
      obtain ⟨x, hx, rfl⟩ := List.mem_map.mp hp
      exact ⟨x, hx, hinj (hsL x hx) ((hmem _ _).mpr ⟨a, ha⟩)⟩
  · intro p a j f hp
    rw [g3 p a j f hp]
    cases f with
    | false => simp
    | true =>
        have hf := (hmem p j).mpr ⟨a, hp⟩
        congr 3
        rw [Bool.true_and, Bool.true_and]
        by_cases hs : p ∈ s.map Prod.fst
        · have : ¬ ∃ x ∈ L, x ∉ s ∧ x.1 = p := by
            rintro ⟨x, hx, hxs, rfl⟩
            obtain ⟨y, hy, he⟩ := List.mem_map.mp hs
            have : x = y := by
              obtain ⟨x1, x2⟩ := x
              obtain ⟨y1, y2⟩ := y
              simp only at he
              subst he
              rw [hinj (h2.mem_iff.mp hx) (hsL _ hy)]
            exact hxs (this ▸ hy)
          rw [decide_eq_false this, decide_eq_true hs]; rfl
        · have : ∃ x ∈ L, x ∉ s ∧ x.1 = p := ⟨(p, j), h2.mem_iff.mpr hf, fun h => hs (List.mem_map.mpr ⟨_, h, rfl⟩), rfl⟩
          rw [decide_eq_true this, decide_eq_false hs]; rfl

/-- **C97** is false: it is not so that the new neighbors which were sampled are then marked as old. With two new neighbors and one place to
sample, the sampled one keeps its flag, and the one which was not sampled loses it. -/
theorem old_new_flags : ¬ ∀ (draws : Nat → Nat) (rhoK : Nat) (neighbors : List (Neighbor Int Bool)) (t : Nat) (o n : List Nat)
    (neighbors' : List (Neighbor Int Bool)) (t' : Nat), oldNew draws rhoK neighbors t = .ok (o, n, neighbors', t') →
      ∀ s j flag, (s, j, flag) ∈ neighbors' → j ∈ n → flag = false := by
  intro h
  have h := h (fun _ => 0) 1 [((5 : Int), 1, true), (7, 2, true)] 0 [] [1] [(5, 1, true), (7, 2, false)] 1 rfl 5 1 true
    (List.mem_cons_self ..) (List.mem_cons_self ..)
  exact Bool.noConfusion h

variable {α : Type}

theorem sampleFull_zero {β : Type} (draws : Nat → Nat) (L : List β) (t : Nat) : sampleFull draws L 0 t = .ok (L, [], t) := by
  unfold sampleFull
  cases L with
  | nil => rfl
  | cons x L => rfl

theorem oldNews_zero (draws : Nat → Nat) : ∀ (B : List (List (Neighbor K Bool))) (t : Nat) {old new : List (List Nat)}
    {B' : List (List (Neighbor K Bool))} {t' : Nat}, oldNews draws 0 B t = .ok (old, new, B', t') → ∀ l ∈ new, l = [] := by
  intro B
  induction B with
  | nil =>
      intro t old new B' t' h
      simp only [oldNews] at h
      injection h with h
      injection h with _ h
      injection h with h _
      subst h
      simp
  | cons neighbors B ih =>
      intro t old new B' t' h
      obtain ⟨o, n, neighbors', t1, places, h1, _, _, _, h2, _, _, h3, _⟩ := old_new_exact_partial draws 0 neighbors t
      obtain ⟨old1, new1, B1, t2, h4, _⟩ := oldNews_spec draws 0 B t1
      rw [oldNews] at h
      simp only [bind, Except.bind, h1, h4, pure, Except.pure] at h
      injection h with h
      injection h with _ h
      injection h with h _
      subst h
      intro l hl
      rcases List.mem_cons.mp hl with rfl | hl
      · rw [Nat.zero_min, List.length_eq_zero_iff] at h2
        rw [List.eq_nil_iff_forall_not_mem]
        intro j hj
        obtain ⟨p, hp, _⟩ := (h3 j).mp hj
        rw [h2] at hp
        simp at hp
      · exact ih t1 h4 l hl

theorem allJoins_zero (draws : Nat → Nat) {setOrd : List Nat → List Nat} (hset : ∀ l, (setOrd l).Perm l)
    {old new old_prime new_prime : List (List Nat)} (hn : ∀ l ∈ new, l = []) : ∀ (is : List Nat) (t : Nat) {pairs : List (Nat × Nat)} {t' : Nat},
    allJoins draws setOrd 0 old new old_prime new_prime is t = .ok (pairs, t') → pairs = [] := by
  intro is
  induction is with
  | nil =>
      intro t pairs t' h
      simp only [allJoins] at h
      injection h with h
      injection h with h _
      exact h.symm
  | cons i is ih =>
      intro t pairs t' h
      rw [allJoins] at h
      unfold item at h
      cases h1 : old[i]? with
      | none => simp [h1, bind, Except.bind] at h
      | some o =>
          cases h2 : new[i]? with
          | none => simp [h1, h2, bind, Except.bind] at h
          | some n =>
              cases h3 : old_prime[i]? with
              | none => simp [h1, h2, h3, bind, Except.bind] at h
              | some op =>
                  cases h4 : new_prime[i]? with
                  | none => simp [h1, h2, h3, h4, bind, Except.bind, sampleFull_zero] at h
                  | some np =>
                      simp only [h1, h2, h3, h4, bind, Except.bind, sampleFull_zero] at h
                      cases h5 : allJoins draws setOrd 0 old new old_prime new_prime is t with
                      | error e => simp [h5] at h
                      | ok x =>
                          simp only [h5, pure, Except.pure] at h
                          injection h with h
                          injection h with h _
                          rw [← h, ih t (pairs := x.1) (t' := x.2) h5, hn n (List.mem_of_getElem? h2), List.append_nil]
                          unfold joins
                          rw [show setOrd (dedup ([] ++ [])) = [] from List.perm_nil.mp (hset _)]
                          rfl

theorem turnFull_zero {heapq : Heapq (Neighbor K Bool)} {setOrd : List Nat → List Nat} (hset : ∀ l, (setOrd l).Perm l) (draws : Nat → Nat)
    (V : List α) (similarity : α → α → K) (B : List (List (Neighbor K Bool))) (t : Nat) {B' : List (List (Neighbor K Bool))} {c t' : Nat}
    (h : turnFull heapq setOrd draws V similarity 0 B t = .ok (B', c, t')) : c = 0 ∧ B'.map (List.map core) = B.map (List.map core) := by
  obtain ⟨old, new, B1, t1, h1, h2, _⟩ := oldNews_spec draws 0 B t
  have hn := oldNews_zero draws B t h1
  unfold turnFull at h
  simp only [bind, Except.bind, h1] at h
  cases h3 : NnDescent.reverse (old.map setOrd) with
  | error e => simp [h3] at h
  | ok op =>
      cases h4 : NnDescent.reverse (new.map setOrd) with
      | error e => simp [h3, h4] at h
      | ok np =>
          simp only [h3, h4] at h
          cases h5 : allJoins draws setOrd 0 old new op np (List.range V.length) t1 with
          | error e => simp [h5] at h
          | ok x =>
              obtain ⟨pairs, t2⟩ := x
              have := allJoins_zero draws hset hn _ _ h5
              subst this
              simp only [h5, List.foldlM_nil, pure, Except.pure] at h
              injection h with h
              injection h with e1 h
              injection h with e2 _
              exact ⟨e2.symm, e1 ▸ h2⟩

theorem links_core {radius : K} {B B' : List (List (Neighbor K Bool))} (h : B'.map (List.map core) = B.map (List.map core)) :
    links radius B' = links radius B := by
  have e : ∀ B : List (List (Neighbor K Bool)), links radius B = (B.map (List.map core)).zipIdx.flatMap fun x =>
      (x.1.filter fun e => decide (e.1 ≥ radius)).map fun e => (x.2, e.2) := by
    intro B
    unfold links
    rw [List.zipIdx_map, List.flatMap_map]
    congr 1
    funext x
    simp only [Prod.map, id]
    rw [List.filter_map, List.map_map]
    rfl
  rw [e, e, h]

/-- **C97**: when `rho * k` is less than one, as with the default `rho` and one neighbor, nothing is ever compared after the initial samples:
the clusters are those of the random neighbors. -/
theorem nn_descent_full_random {heapq : Heapq (Neighbor K Bool)} (hq : NnDescent.Lawful heapq) {setOrd : List Nat → List Nat}
    (hset : ∀ l, (setOrd l).Perm l) (ord : Nat → List Nat → List Nat) (draws : Nat → Nat) (V : List α)
    (hV : V ≠ []) (radius : K) (similarity : α → α → K) (k : Option Nat) (min_size : Nat) (max_size : Option Nat) (mode : ClusteringUtils.Mode)
    (rho delta : Rat) (hrho : rho * neighborsOf V.length k < 1) (fuel : Nat) (result : List (List α))
    (h : nnDescentFull heapq setOrd ord draws V radius similarity k min_size max_size mode rho delta fuel = .ok (some result)) :
    ∃ B t, initial heapq setOrd draws V similarity true (neighborsOf V.length k) fuel (List.range V.length) 0 = .ok (some (B, t)) ∧
      finish ord V radius min_size max_size mode B = .ok result := by
  have hr : (rho * neighborsOf V.length k).floor.toNat = 0 := by
    have : (rho * neighborsOf V.length k).floor < 1 := by
      rw [Rat.floor_lt_iff]
      exact_mod_cast hrho
    omega
  unfold nnDescentFull at h
  rw [chooseK_ok (List.length_pos_iff.mpr hV)] at h
  simp only [bind, Except.bind, hr] at h
  rcases initial_spec hq hset (V := V) (P := fun _ => True) (fun _ => trivial) (draws := draws) (similarity := similarity) (flag := true)
    (k := neighborsOf V.length k) (fuel := fuel) (t := 0) (is := List.range V.length) (by simp) with h' | ⟨B, t, h', hB⟩
  · rw [h'] at h; simp [pure, Except.pure] at h
  · refine ⟨B, t, h', ?_⟩
    rw [h'] at h
    simp only at h
    have key : ∀ (go : Nat → Bool) (fuel c : Nat) (C : List (List (Neighbor K Bool))) (t : Nat), C.map (List.map core) = B.map (List.map core) →
        ∀ B', descendFull heapq setOrd draws V similarity 0 go fuel c C t = .ok (some B') → B'.map (List.map core) = B.map (List.map core) := by
      intro go fuel
      induction fuel with
      | zero => intro c C t _ B' h; simp [descendFull] at h
      | succ fuel ih =>
          intro c C t hC B' h
          rw [descendFull] at h
          by_cases hc : go c = true
          · rw [if_pos hc] at h
            cases ht : turnFull heapq setOrd draws V similarity 0 C t with
            | error e => simp [ht, bind, Except.bind] at h
            | ok x =>
                obtain ⟨C', c', t'⟩ := x
                simp only [ht, bind, Except.bind] at h
                exact ih c' C' t' ((turnFull_zero hset draws V similarity C t ht).2.trans hC) B' h
          · rw [if_neg hc] at h
            injection h with h
            injection h with h
            rw [← h, hC]
    cases hd : descendFull heapq setOrd draws V similarity 0
        (fun c => decide ((c : Rat) ≥ delta * ((V.length * neighborsOf V.length k : Nat) : Rat))) fuel (V.length * neighborsOf V.length k) B t with
    | error e => rw [hd] at h; simp at h
    | ok x =>
        cases x with
        | none => rw [hd] at h; simp [pure, Except.pure] at h
        | some B' =>
            rw [hd] at h
            simp only at h
            have hc := key _ _ _ _ _ rfl B' hd
            cases hf : finish ord V radius min_size max_size mode B' with
            | error e => rw [hf] at h; simp at h
            | ok r =>
                rw [hf] at h
                simp only [pure, Except.pure] at h
                injection h with h
                injection h with h
                subst h
                rw [← hf]
                unfold finish
                rw [links_core hc]

-- Two or three items have one neighbor by default, and half of it is less than one.
example : neighborsOf 3 none = 1 ∧ (1 / 2 : Rat) * (neighborsOf 3 none : Nat) < 1 := by
  constructor
  · decide +kernel
  · norm_num [neighborsOf, show Nat.log2 3 = 1 by decide +kernel]

-- It does return on three items, so that the clusters are those of the random neighbors.
example : ∃ result B t fuel, nnDescentFull (sortedHeapq Int Bool) (fun l => l) (fun _ l => l) (fun t => t) [1, 2, 10]
    (-3) close (some 1) 2 none .connectedComponents (1 / 2) (1 / 1000) fuel = .ok (some result) ∧
    initial (sortedHeapq Int Bool) (fun l => l) (fun t => t) [1, 2, 10] close true 1 fuel [0, 1, 2] 0 = .ok (some (B, t)) := by
  obtain ⟨result, fuel, h⟩ := nn_descent_full_terminates_partial (sortedHeapq_laws Int Bool).lawful (fun l => l) (fun _ => .refl _)
    (fun _ l => l) (fun _ _ => .refl _) (fun t => t) [1, 2, 10] (fair_id _) (-3) close (some 1) (by decide) (by decide) 2 none (1 / 2)
    (1 / 1000) (by norm_num)
  obtain ⟨B, t, h', _⟩ := nn_descent_full_random (sortedHeapq_laws Int Bool).lawful (fun _ => .refl _) _ _ _ (by decide) _ _ _ _ _ _ _ _
    (by norm_num [neighborsOf]) _ _ (h fuel (Nat.le_refl _))
  exact ⟨result, B, t, fuel, h fuel (Nat.le_refl _), h'⟩

end Fog.Props
