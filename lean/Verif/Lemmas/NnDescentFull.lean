import Verif.Lemmas.NnDescent

/-!
# NN-Descent, with samples of neighbors
-/

namespace Fog.NnDescent

variable {α K : Type} [LinearOrder K]

theorem shuffle_spec {β : Type} (draws : Nat → Nat) : ∀ (n i : Nat) (L : List β) (t : Nat), i + n ≤ L.length →
    ∃ L' t', shuffle draws n i L t = .ok (L', t') ∧ L'.Perm L := by
  intro n
  induction n with
  | zero => intro i L t _; exact ⟨L, t, rfl, .refl _⟩
  | succ n ih =>
      intro i L t h
      have hi : i < L.length := by omega
      have hr : randint draws t i (L.length - 1) < L.length := by
        unfold randint
        have := Nat.mod_lt (draws t) (y := L.length - 1 + 1 - i) (by omega)
        omega
      obtain ⟨L', t', h1, h2⟩ := ih (i + 1) ((L.set (randint draws t i (L.length - 1)) L[i]).set i L[randint draws t i (L.length - 1)]) (t + 1)
        (by simp; omega)
      refine ⟨L', t', ?_, h2.trans (List.set_set_perm hr hi)⟩
      rw [shuffle]
      simp only [bind, Except.bind, item_ok (List.getElem?_eq_getElem hr), item_ok (List.getElem?_eq_getElem hi)]
      exact h1

theorem sampleFull_spec {β : Type} (draws : Nat → Nat) (L : List β) (k t : Nat) :
    ∃ L' s t', sampleFull draws L k t = .ok (L', s, t') ∧ L'.Perm L ∧ ∀ x ∈ s, x ∈ L := by
  unfold sampleFull
  by_cases h : L.length ≤ k
  · rw [if_pos h]
    exact ⟨L, L, t, rfl, .refl _, fun _ h => h⟩
  · rw [if_neg h]
    obtain ⟨L', t', h1, h2⟩ := shuffle_spec draws k 0 L t (by omega)
    refine ⟨L', L'.take k, t', ?_, h2, fun x hx => h2.mem_iff.mp (List.mem_of_mem_take hx)⟩
    rw [h1]; rfl

/-- A neighbor without its flag. -/
def core {F : Type} (e : Neighbor K F) : K × Nat := (e.1, e.2.1)

theorem oldNew_spec (draws : Nat → Nat) (rhoK : Nat) (neighbors : List (Neighbor K Bool)) (t : Nat) :
    ∃ o n neighbors' t', oldNew draws rhoK neighbors t = .ok (o, n, neighbors', t') ∧ neighbors'.map core = neighbors.map core ∧
      (∀ j ∈ o, j ∈ neighbors.map fun e => e.2.1) ∧ (∀ j ∈ n, j ∈ neighbors.map fun e => e.2.1) := by
  obtain ⟨L, s, t', h1, h2, h3⟩ := sampleFull_spec draws ((neighbors.zipIdx.filter fun x => x.1.2.2).map fun x => (x.2, x.1.2.1)) rhoK t
  have hmem : ∀ x ∈ (neighbors.zipIdx.filter fun x => x.1.2.2).map fun x => (x.2, x.1.2.1),
      x.1 < neighbors.length ∧ x.2 ∈ neighbors.map fun e => e.2.1 := by
    intro x hx
    obtain ⟨⟨e, i⟩, hy, rfl⟩ := List.mem_map.mp hx
    have := List.mem_zipIdx_iff_getElem?.mp (List.mem_of_mem_filter hy)
    exact ⟨(List.getElem?_eq_some_iff.mp this).1, List.mem_map.mpr ⟨e, List.mem_of_getElem? this, rfl⟩⟩
  obtain ⟨neighbors', h4, h5⟩ := foldlM_inv (I := fun l : List (Neighbor K Bool) => l.map core = neighbors.map core) (fun l x =>
    if x ∈ s then .ok l
    else if x.1 < l.length then .ok (l.modify x.1 fun e => (e.1, e.2.1, false)) else .error .indexError) L (by
      intro l hl x hx
      have hlen : l.length = neighbors.length := by have := congrArg List.length hl; simpa using this
      by_cases hs : x ∈ s
      · exact ⟨l, if_pos hs, hl⟩
      · refine ⟨_, by rw [if_neg hs, if_pos]; rw [hlen]; exact (hmem x (h2.mem_iff.mp hx)).1, ?_⟩
        rw [← hl]
        apply List.ext_getElem?
        intro n
        rw [List.getElem?_map, List.getElem?_map, List.getElem?_modify]
        split
        · cases l[n]? <;> rfl
        · cases l[n]? <;> rfl) (b := neighbors) rfl
  refine ⟨dedup ((neighbors.filter fun e => !e.2.2).map fun e => e.2.1), dedup (s.map Prod.snd), neighbors', t', ?_, h5, ?_, ?_⟩
  · unfold oldNew
    simp only [bind, Except.bind, h1]
    rw [h4]
    rfl
  · intro j hj
    rw [mem_dedup] at hj
    obtain ⟨e, he, rfl⟩ := List.mem_map.mp hj
    exact List.mem_map.mpr ⟨e, List.mem_of_mem_filter he, rfl⟩
  · intro j hj
    rw [mem_dedup] at hj
    obtain ⟨x, hx, rfl⟩ := List.mem_map.mp hj
    exact (hmem x (h3 x hx)).2

theorem oldNews_spec (draws : Nat → Nat) (rhoK : Nat) : ∀ (B : List (List (Neighbor K Bool))) (t : Nat),
    ∃ old new B' t', oldNews draws rhoK B t = .ok (old, new, B', t') ∧ B'.map (List.map core) = B.map (List.map core) ∧
      old.length = B.length ∧ new.length = B.length ∧
      (∀ i j, At old i j → At (B.map fun heap => heap.map fun e => e.2.1) i j) ∧
      (∀ i j, At new i j → At (B.map fun heap => heap.map fun e => e.2.1) i j) := by
  intro B
  induction B with
  | nil => intro t; exact ⟨[], [], [], t, rfl, rfl, rfl, rfl, by simp [At], by simp [At]⟩
  | cons neighbors B ih =>
      intro t
      obtain ⟨o, n, neighbors', t1, h1, h2, h3, h4⟩ := oldNew_spec draws rhoK neighbors t
      obtain ⟨old, new, B', t2, h5, h6, h7, h8, h9, h10⟩ := ih t1
      refine ⟨o :: old, n :: new, neighbors' :: B', t2, ?_, by simp [h2, h6], by simp [h7], by simp [h8], ?_, ?_⟩
      · rw [oldNews]
        simp only [bind, Except.bind, h1, h5]
        rfl
      · intro i j hij
        cases i with
        | zero => simpa [At] using h3 j (by simpa [At] using hij)
        | succ i => simpa [At] using h9 i j (by simpa [At] using hij)
      · intro i j hij
        cases i with
        | zero => simpa [At] using h4 j (by simpa [At] using hij)
        | succ i => simpa [At] using h10 i j (by simpa [At] using hij)

theorem mem_joins {setOrd : List Nat → List Nat} (hset : ∀ l, (setOrd l).Perm l) {o n : List Nat} {p : Nat × Nat} (h : p ∈ joins setOrd o n) :
    p.1 ∈ n ∧ (p.2 ∈ n ∨ p.2 ∈ o) ∧ p.1 ≠ p.2 := by
  unfold joins at h
  obtain ⟨u1, hu, h⟩ := List.mem_flatMap.mp h
  rcases List.mem_append.mp h with h | h <;> obtain ⟨u2, h2, rfl⟩ := List.mem_map.mp h <;>
    obtain ⟨h3, h4⟩ := List.mem_filter.mp h2 <;> simp only [decide_eq_true_eq] at h4
  · exact ⟨(hset n).mem_iff.mp hu, Or.inl ((hset n).mem_iff.mp h3), by simp only; omega⟩
  · exact ⟨(hset n).mem_iff.mp hu, Or.inr ((hset o).mem_iff.mp h3), h4⟩

theorem allJoins_spec (draws : Nat → Nat) {setOrd : List Nat → List Nat} (hset : ∀ l, (setOrd l).Perm l) (rhoK : Nat)
    {old new old_prime new_prime : List (List Nat)} {N : Nat} {p : Prop} (h1 : old.length = N) (h2 : new.length = N) (h3 : old_prime.length = N)
    (h4 : new_prime.length = N) (g1 : ∀ i j, At old i j → j < N ∧ p) (g2 : ∀ i j, At new i j → j < N ∧ p)
    (g3 : ∀ i j, At old_prime i j → j < N ∧ p) (g4 : ∀ i j, At new_prime i j → j < N ∧ p) : ∀ (is : List Nat) (t : Nat), (∀ i ∈ is, i < N) →
    ∃ pairs t', allJoins draws setOrd rhoK old new old_prime new_prime is t = .ok (pairs, t') ∧
      ∀ x ∈ pairs, x.1 < N ∧ x.2 < N ∧ x.1 ≠ x.2 ∧ p := by
  intro is
  induction is with
  | nil => intro t _; exact ⟨[], t, rfl, by simp⟩
  | cons i is ih =>
      intro t his
      have hi := his i (by simp)
      have e1 := List.getElem?_eq_getElem (l := old) (i := i) (by omega)
      have e2 := List.getElem?_eq_getElem (l := new) (i := i) (by omega)
      have e3 := List.getElem?_eq_getElem (l := old_prime) (i := i) (by omega)
      have e4 := List.getElem?_eq_getElem (l := new_prime) (i := i) (by omega)
      generalize old[i] = o at e1
      generalize new[i] = n at e2
      generalize old_prime[i] = op at e3
      generalize new_prime[i] = np at e4
      obtain ⟨L1, so, t1, s1, _, m1⟩ := sampleFull_spec draws op rhoK t
      obtain ⟨L2, sn, t2, s2, _, m2⟩ := sampleFull_spec draws np rhoK t1
      obtain ⟨rest, t3, hrest, hm⟩ := ih t2 (fun j hj => his j (by simp [hj]))
      refine ⟨joins setOrd (dedup (o ++ so)) (dedup (n ++ sn)) ++ rest, t3, ?_, ?_⟩
      · rw [allJoins]
        simp only [bind, Except.bind, item_ok e1, item_ok e2, item_ok e3, item_ok e4, s1, s2, hrest]
        rfl
      · intro x hx
        rcases List.mem_append.mp hx with hx | hx
        · obtain ⟨a, b, c⟩ := mem_joins hset hx
          rw [mem_dedup, List.mem_append] at a b
          rw [mem_dedup, List.mem_append] at b
          have ha : x.1 < N ∧ p := by
            rcases a with a | a
            · exact g2 i _ ⟨n, e2, a⟩
            · exact g4 i _ ⟨np, e4, m2 _ a⟩
          have hb : x.2 < N := by
            rcases b with (b | b) | (b | b)
            · exact (g2 i _ ⟨n, e2, b⟩).1
            · exact (g4 i _ ⟨np, e4, m2 _ b⟩).1
            · exact (g1 i _ ⟨o, e1, b⟩).1
            · exact (g3 i _ ⟨op, e3, m1 _ b⟩).1
          exact ⟨ha.1, hb, c, ha.2⟩
        · exact hm x hx

theorem total_core {V : List α} {similarity : α → α → K} {B B' : List (List (Neighbor K Bool))}
    (h : B'.map (List.map core) = B.map (List.map core)) : total V similarity B' = total V similarity B := by
  have key : ∀ B : List (List (Neighbor K Bool)),
      total V similarity B = ((B.map (List.map core)).map fun l => (l.map fun e => rank V similarity e.1).sum).sum := by
    intro B
    unfold total
    simp [core, Function.comp_def]
  rw [key, key, h]

omit [LinearOrder K] in
theorem good_core {V : List α} {Ok : α → α → K → Prop} {k : Nat} {B B' : List (List (Neighbor K Bool))}
    (h : B'.map (List.map core) = B.map (List.map core)) (hB : Good V Ok (fun _ => True) k B) : Good V Ok (fun _ => True) k B' := by
  have get : ∀ {i : Nat} {heap : List (Neighbor K Bool)}, B'[i]? = some heap → ∃ heap', B[i]? = some heap' ∧ heap.map core = heap'.map core := by
    intro i heap hi
    have := congrArg (·[i]?) h
    simp only [List.getElem?_map, hi, Option.map_some] at this
    cases hb : B[i]? with
    | none => rw [hb] at this; simp at this
    | some heap' => rw [hb] at this; exact ⟨heap', rfl, by simpa using this⟩
  refine ⟨?_, ?_, fun _ _ _ => trivial, ?_⟩
  · have := congrArg List.length h
    rw [List.length_map, List.length_map] at this
    rw [this, hB.length]
  · intro i heap hi
    obtain ⟨heap', h1, h2⟩ := get hi
    have := congrArg List.length h2
    rw [List.length_map, List.length_map] at this
    rw [this, hB.size i heap' h1]
  · intro i heap hi e he
    obtain ⟨heap', h1, h2⟩ := get hi
    have : core e ∈ heap'.map core := by rw [← h2]; exact List.mem_map.mpr ⟨e, he, rfl⟩
    obtain ⟨e', he', hc⟩ := List.mem_map.mp this
    have c1 : e'.1 = e.1 := congrArg (fun p : K × Nat => p.1) hc
    have c2 : e'.2.1 = e.2.1 := congrArg (fun p : K × Nat => p.2) hc
    have := hB.entry i heap' h1 e' he'
    rwa [c1, c2] at this

/-- The similarities which `nn_descent_full` attaches to neighbors: the items may be in either order. -/
def Either (similarity : α → α → K) (x y : α) (s : K) : Prop := s = similarity x y ∨ s = similarity y x

theorem turnFull_spec {heapq : Heapq (Neighbor K Bool)} (hq : Lawful heapq) {setOrd : List Nat → List Nat} (hset : ∀ l, (setOrd l).Perm l)
    (draws : Nat → Nat) {V : List α} {similarity : α → α → K} (rhoK : Nat) {k : Nat} {B : List (List (Neighbor K Bool))}
    (hB : Good V (Either similarity) (fun _ => True) k B) (t : Nat) :
    ∃ B' c t', turnFull heapq setOrd draws V similarity rhoK B t = .ok (B', c, t') ∧ Good V (Either similarity) (fun _ => True) k B' ∧
      total V similarity B + c ≤ total V similarity B' := by
  obtain ⟨old, new, B1, t1, h1, h2, h3, h4, h5, h6⟩ := oldNews_spec draws rhoK B t
  have hB1 := good_core h2 hB
  have bound : ∀ l : List (List Nat), l.length = B.length → (∀ i j, At l i j → At (B.map fun heap => heap.map fun e => e.2.1) i j) →
      ∃ R, reverse (l.map setOrd) = .ok R ∧ R.length = V.length ∧ ∀ i j, At R i j → j < V.length ∧ 0 < k := by
    intro l hl hm
    have hat : ∀ i j, At (l.map setOrd) i j ↔ At l i j := by
      intro i j
      unfold At
      rw [List.getElem?_map]
      cases l[i]? with
      | none => simp
      | some x => simp [(hset x).mem_iff]
    obtain ⟨R, hR, hRl, hRm⟩ := reverse_spec (B := l.map setOrd) (by
      intro x hx j hj
      obtain ⟨i, hi⟩ := List.getElem?_of_mem hx
      rw [List.length_map, hl, hB.length]
      exact (hB.bound (hm i j ((hat i j).mp ⟨x, hi, hj⟩))).2.1)
    refine ⟨R, hR, by rw [hRl, List.length_map, hl, hB.length], ?_⟩
    intro i j hij
    have := hB.bound (hm j i ((hat j i).mp ((hRm i j).mp hij)))
    exact ⟨this.1, this.2.2.2⟩
  obtain ⟨old', o1, o2, o3⟩ := bound old h3 h5
  obtain ⟨new', n1, n2, n3⟩ := bound new h4 h6
  obtain ⟨pairs, t2, p1, p2⟩ := allJoins_spec draws hset rhoK (h3.trans hB.length) (h4.trans hB.length) o2 n2
    (fun i j hij => ⟨(hB.bound (h5 i j hij)).2.1, (hB.bound (h5 i j hij)).2.2.2⟩)
    (fun i j hij => ⟨(hB.bound (h6 i j hij)).2.1, (hB.bound (h6 i j hij)).2.2.2⟩) o3 n3 (List.range V.length) t1 (by simp)
  obtain ⟨⟨B', c⟩, f1, f2, f3, _⟩ := fold_grows (V := V) (similarity := similarity) (I := Good V (Either similarity) (fun _ => True) k)
      (f := join heapq V similarity) (Q := fun _ _ => True) pairs (by
    rintro st hst ⟨u1, u2⟩ hp
    obtain ⟨b1, b2, hne, hk⟩ := p2 _ hp
    have e1 := List.getElem?_eq_getElem b1
    have e2 := List.getElem?_eq_getElem b2
    simp only at e1 e2 hne
    obtain ⟨st1, a1, a2, a3, _⟩ := replaceIf_spec hq (similarity := similarity) (Ok := Either similarity) (P := fun _ => True)
      (fun _ _ _ h => h) (fun _ _ _ _ => trivial) hk hst (e := (similarity V[u1] V[u2], u2, true)) e1 e2 (fun h => hne h.symm) (Or.inl rfl)
    obtain ⟨st2, c1, c2, c3, _⟩ := replaceIf_spec hq (similarity := similarity) (Ok := Either similarity) (P := fun _ => True)
      (fun _ _ _ h => h) (fun _ _ _ _ => trivial) hk a2 (e := (similarity V[u1] V[u2], u1, true)) e2 e1 hne (Or.inr rfl)
    refine ⟨st2, ?_, c2, a3.trans c3, fun _ => trivial⟩
    unfold join
    simp only [bind, Except.bind, sim_ok similarity e1 e2, a1]
    exact c1) (B1, 0) hB1
  refine ⟨B', c, t2, ?_, f2, ?_⟩
  · unfold turnFull
    simp only [bind, Except.bind, h1, o1, n1, p1]
    simp only [f1]
    rfl
  · have := f3.2.1
    simp only [total_core h2] at this
    simpa using this

theorem descendFull_none {heapq : Heapq (Neighbor K Bool)} (hq : Lawful heapq) {setOrd : List Nat → List Nat} (hset : ∀ l, (setOrd l).Perm l)
    (draws : Nat → Nat) {V : List α} {similarity : α → α → K} (rhoK : Nat) {k : Nat} {go : Nat → Bool} (hgo : ∀ c, go c = true) :
    ∀ (fuel c : Nat) {B : List (List (Neighbor K Bool))} (t : Nat), Good V (Either similarity) (fun _ => True) k B →
    descendFull heapq setOrd draws V similarity rhoK go fuel c B t = .ok none := by
  intro fuel
  induction fuel with
  | zero => intro c B t _; rfl
  | succ fuel ih =>
      intro c B t hB
      obtain ⟨B', c', t', h1, h2, _⟩ := turnFull_spec hq hset draws rhoK hB t
      rw [descendFull, if_pos (hgo c)]
      simp only [bind, Except.bind, h1]
      exact ih c' t' h2

theorem descendFull_spec {heapq : Heapq (Neighbor K Bool)} (hq : Lawful heapq) {setOrd : List Nat → List Nat} (hset : ∀ l, (setOrd l).Perm l)
    (draws : Nat → Nat) {V : List α} {similarity : α → α → K} (rhoK : Nat) {k : Nat} {go : Nat → Bool} (hgo : go 0 = false) :
    ∀ (n c : Nat) {B : List (List (Neighbor K Bool))} (t : Nat), Good V (Either similarity) (fun _ => True) k B →
    V.length * (k * (V.length * V.length)) ≤ total V similarity B + n →
    ∃ B', Good V (Either similarity) (fun _ => True) k B' ∧
      ∀ fuel, n + 1 < fuel → descendFull heapq setOrd draws V similarity rhoK go fuel c B t = .ok (some B') := by
  intro n
  induction n with
  | zero =>
      intro c B t hB hn
      by_cases hc : go c = true
      · obtain ⟨B', c', t', h1, h2, h3⟩ := turnFull_spec hq hset draws rhoK hB t
        have := total_le (similarity := similarity) h2
        obtain rfl : c' = 0 := by omega
        refine ⟨B', h2, ?_⟩
        intro fuel hf
        obtain ⟨fuel, rfl⟩ : ∃ m, fuel = m + 2 := ⟨fuel - 2, by omega⟩
        rw [descendFull, if_pos hc]
        simp only [bind, Except.bind, h1]
        rw [descendFull, if_neg (by rw [hgo]; simp)]
        rfl
      · refine ⟨B, hB, ?_⟩
        intro fuel hf
        obtain ⟨fuel, rfl⟩ : ∃ m, fuel = m + 1 := ⟨fuel - 1, by omega⟩
        rw [descendFull, if_neg hc]
        rfl
  | succ n ih =>
      intro c B t hB hn
      by_cases hc : go c = true
      · obtain ⟨B', c', t', h1, h2, h3⟩ := turnFull_spec hq hset draws rhoK hB t
        by_cases hc' : c' = 0
        · subst hc'
          refine ⟨B', h2, ?_⟩
          intro fuel hf
          obtain ⟨fuel, rfl⟩ : ∃ m, fuel = m + 2 := ⟨fuel - 2, by omega⟩
          rw [descendFull, if_pos hc]
          simp only [bind, Except.bind, h1]
          rw [descendFull, if_neg (by rw [hgo]; simp)]
          rfl
        · obtain ⟨B'', h4, h5⟩ := ih c' t' h2 (by omega)
          refine ⟨B'', h4, ?_⟩
          intro fuel hf
          obtain ⟨fuel, rfl⟩ : ∃ m, fuel = m + 1 := ⟨fuel - 1, by omega⟩
          rw [descendFull, if_pos hc]
          simp only [bind, Except.bind, h1]
          exact h5 fuel (by omega)
      · refine ⟨B, hB, ?_⟩
        intro fuel hf
        obtain ⟨fuel, rfl⟩ : ∃ m, fuel = m + 1 := ⟨fuel - 1, by omega⟩
        rw [descendFull, if_neg hc]
        rfl

end Fog.NnDescent
