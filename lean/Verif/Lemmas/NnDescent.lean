import Verif.Model.NnDescent
import Verif.Lemmas.PyMonad
import Verif.Lemmas.Dedup
import Mathlib.Data.List.Nodup
import Mathlib.Data.List.Perm.Subperm
import Mathlib.Algebra.Order.BigOperators.Group.List

/-!
# NN-Descent: samples, neighbors, replacements
-/

namespace Fog.NnDescent

open Fog.ClusteringUtils

/-! ### Samples -/

/-- Different indices of the range, other than `i`. -/
structure Drawn (N i : Nat) (S : List Nat) : Prop where
  nodup : S.Nodup
  mem : ∀ j ∈ S, j < N ∧ j ≠ i

theorem Drawn.length_lt {N i : Nat} {S : List Nat} (h : Drawn N i S) (hi : i < N) : S.length < N := by
  have hn : (i :: S).Nodup := List.nodup_cons.mpr ⟨fun hm => (h.mem i hm).2 rfl, h.nodup⟩
  have hs : (i :: S) ⊆ List.range N := by
    intro x hx
    rw [List.mem_range]
    rcases List.mem_cons.mp hx with rfl | hx
    · exact hi
    · exact (h.mem x hx).1
  have := (hn.subperm hs).length_le
  simp only [List.length_cons, List.length_range] at this
  omega

theorem Drawn.add {N i j : Nat} {S : List Nat} (h : Drawn N i S) (hj : j < N) (hi : j ≠ i) :
    Drawn N i (if j ∈ S then S else S ++ [j]) := by
  split
  · exact h
  · next hm =>
      constructor
      · rw [List.nodup_append]
        refine ⟨h.nodup, by simp, ?_⟩
        intro a ha b hb
        rw [List.mem_singleton] at hb
        rintro rfl
        exact hm (hb ▸ ha)
      · intro x hx
        rcases List.mem_append.mp hx with hx | hx
        · exact h.mem x hx
        · rw [List.mem_singleton.mp hx]; exact ⟨hj, hi⟩

theorem randint_zero (draws : Nat → Nat) (t : Nat) {N : Nat} (hN : 0 < N) : randint draws t 0 (N - 1) = draws t % N := by
  unfold randint
  rw [show N - 1 + 1 - 0 = N by omega, Nat.zero_add]

theorem sample_spec {draws : Nat → Nat} {N k i : Nat} (hN : 0 < N) : ∀ {fuel t : Nat} {S S' : List Nat} {t' : Nat}, Drawn N i S →
    S.length ≤ k → sample draws N k i fuel t S = some (S', t') → Drawn N i S' ∧ S'.length = k := by
  intro fuel
  induction fuel with
  | zero => intro t S S' t' _ _ h; simp [sample] at h
  | succ fuel ih =>
      intro t S S' t' hS hk h
      rw [sample] at h
      by_cases hl : S.length < k
      · rw [if_pos hl] at h
        simp only at h
        by_cases hr : randint draws t 0 (N - 1) = i
        · rw [if_pos hr] at h
          exact ih hS hk h
        · rw [if_neg hr] at h
          refine ih (hS.add ?_ hr) ?_ h
          · rw [randint_zero draws t hN]; exact Nat.mod_lt _ hN
          · split
            · exact hk
            · rw [List.length_append, List.length_singleton]; omega
      · rw [if_neg hl] at h
        injection h with h
        injection h with h1 h2
        subst h1
        exact ⟨hS, by omega⟩

theorem sample_none {draws : Nat → Nat} {N k i : Nat} (hi : i < N) (hk : N ≤ k) (fuel t : Nat) : sample draws N k i fuel t [] = none := by
  cases h : sample draws N k i fuel t [] with
  | none => rfl
  | some x =>
      have := sample_spec (i := i) (Nat.zero_lt_of_lt hi) ⟨List.nodup_nil, by simp⟩ (Nat.zero_le _) (h : _ = some (x.1, x.2))
      have := this.1.length_lt hi
      omega

theorem sample_mono {draws : Nat → Nat} {N k i : Nat} : ∀ {fuel fuel' t : Nat} {S : List Nat} {x : List Nat × Nat},
    sample draws N k i fuel t S = some x → fuel ≤ fuel' → sample draws N k i fuel' t S = some x := by
  intro fuel
  induction fuel with
  | zero => intro fuel' t S x h; simp [sample] at h
  | succ fuel ih =>
      intro fuel' t S x h hle
      obtain ⟨m, rfl⟩ : ∃ m, fuel' = m + 1 := ⟨fuel' - 1, by omega⟩
      rw [sample] at h ⊢
      by_cases hl : S.length < k
      · rw [if_pos hl] at h ⊢
        simp only at h ⊢
        by_cases hr : randint draws t 0 (N - 1) = i
        · rw [if_pos hr] at h ⊢
          exact ih h (by omega)
        · rw [if_neg hr] at h ⊢
          exact ih h (by omega)
      · rw [if_neg hl] at h ⊢
        exact h

/-- Every index is drawn again and again. -/
def Fair (draws : Nat → Nat) (N : Nat) : Prop := ∀ j < N, ∀ t, ∃ n, draws (t + n) % N = j

theorem sample_ends {draws : Nat → Nat} {N k i : Nat} (hi : i < N) (hk : k < N) (hf : Fair draws N) : ∀ (d : Nat) (t : Nat) (S : List Nat),
    Drawn N i S → k - S.length ≤ d → ∃ fuel x, sample draws N k i fuel t S = some x := by
  have hN : 0 < N := Nat.zero_lt_of_lt hi
  intro d
  induction d with
  | zero =>
      intro t S _ hd
      exact ⟨1, (S, t), by rw [sample, if_neg (by omega)]⟩
  | succ d ih =>
      intro t S hS hd
      by_cases hl : S.length < k
      · obtain ⟨j, hj, hji, hjS⟩ : ∃ j, j < N ∧ j ≠ i ∧ j ∉ S := by
          by_contra hno
          push Not at hno
          have hs : List.range N ⊆ i :: S := by
            intro x hx
            rw [List.mem_range] at hx
            by_cases hxi : x = i
            · simp [hxi]
            · exact List.mem_cons_of_mem _ (hno x hx hxi)
          have := (List.nodup_range.subperm hs).length_le
          simp only [List.length_range, List.length_cons] at this
          omega
        obtain ⟨n, hn⟩ := hf j hj t
        induction n generalizing t with
        | zero =>
            rw [Nat.add_zero] at hn
            obtain ⟨fuel, x, hx⟩ := ih (t + 1) (S ++ [j]) (by have := hS.add hj hji; rwa [if_neg hjS] at this) (by
              rw [List.length_append, List.length_singleton]
              omega)
            refine ⟨fuel + 1, x, ?_⟩
            rw [sample, if_pos hl]
            simp only
            rw [randint_zero draws t hN, hn, if_neg hji, if_neg hjS]
            exact hx
        | succ n ihn =>
            rw [show t + (n + 1) = (t + 1) + n by omega] at hn
            obtain ⟨fuel, x, hx⟩ := ihn (t + 1) hn
            by_cases hr : draws t % N = i
            · refine ⟨fuel + 1, x, ?_⟩
              rw [sample, if_pos hl]
              simp only
              rw [randint_zero draws t hN, if_pos hr]
              exact hx
            · by_cases hm : draws t % N ∈ S
              · refine ⟨fuel + 1, x, ?_⟩
                rw [sample, if_pos hl]
                simp only
                rw [randint_zero draws t hN, if_neg hr, if_pos hm]
                exact hx
              · obtain ⟨fuel', x', hx'⟩ := ih (t + 1) (S ++ [draws t % N])
                  (by have := hS.add (Nat.mod_lt _ hN) hr; rwa [if_neg hm] at this) (by
                    rw [List.length_append, List.length_singleton]
                    omega)
                refine ⟨fuel' + 1, x', ?_⟩
                rw [sample, if_pos hl]
                simp only
                rw [randint_zero draws t hN, if_neg hr, if_neg hm]
                exact hx'
      · exact ⟨1, (S, t), by rw [sample, if_neg hl]⟩

/-! ### Neighbors -/

variable {α K F : Type} [LinearOrder K]

/-- The neighbors of every item are `k` other items, with a similarity accepted by `Ok`; `P` is an invariant of heaps. -/
structure Good (V : List α) (Ok : α → α → K → Prop) (P : List (Neighbor K F) → Prop) (k : Nat) (B : List (List (Neighbor K F))) : Prop where
  length : B.length = V.length
  size : ∀ (i : Nat) (heap : List (Neighbor K F)), B[i]? = some heap → heap.length = k
  inv : ∀ (i : Nat) (heap : List (Neighbor K F)), B[i]? = some heap → P heap
  entry : ∀ (i : Nat) (heap : List (Neighbor K F)), B[i]? = some heap → ∀ e ∈ heap, e.2.1 ≠ i ∧
    ∃ x y, V[i]? = some x ∧ V[e.2.1]? = some y ∧ Ok x y e.1

/-- `heapify` reorders, and `heapreplace` takes the first element out and puts another one in. -/
structure Lawful {E : Type} (heapq : Heapq E) : Prop where
  heapify : ∀ l, (heapq.heapify l).Perm l
  heapreplace : ∀ l x, l ≠ [] → (heapq.heapreplace l x).Perm (x :: l.tail)

omit [LinearOrder K] in
theorem sim_ok {V : List α} (similarity : α → α → K) {i j : Nat} {x y : α} (hi : V[i]? = some x) (hj : V[j]? = some y) :
    sim V similarity i j = .ok (similarity x y) := by
  unfold sim item
  rw [hi, hj]
  rfl

theorem item_ok {β : Type} {l : List β} {i : Nat} {x : β} (h : l[i]? = some x) : item l i = .ok x := by
  unfold item; rw [h]

omit [LinearOrder K] in
theorem initial_none {heapq : Heapq (Neighbor K F)} {setOrd : List Nat → List Nat} {draws : Nat → Nat} {V : List α}
    {similarity : α → α → K} {flag : F} {k fuel : Nat} {i : Nat} {is : List Nat} {t : Nat} (hi : i < V.length) (hk : V.length ≤ k) :
    initial heapq setOrd draws V similarity flag k fuel (i :: is) t = .ok none := by
  rw [initial, sample_none hi hk]

/-- What is initially drawn. -/
theorem initial_spec {heapq : Heapq (Neighbor K F)} (hq : Lawful heapq) {setOrd : List Nat → List Nat} (hset : ∀ l, (setOrd l).Perm l)
    {draws : Nat → Nat} {V : List α} {similarity : α → α → K} {flag : F} {k : Nat} {P : List (Neighbor K F) → Prop}
    (hP : ∀ l, P (heapq.heapify l)) {fuel : Nat} : ∀ {is : List Nat} {t : Nat}, (∀ i ∈ is, i < V.length) →
    initial heapq setOrd draws V similarity flag k fuel is t = .ok none ∨
    ∃ B t', initial heapq setOrd draws V similarity flag k fuel is t = .ok (some (B, t')) ∧
      List.Forall₂ (fun i heap => heap.length = k ∧ P heap ∧
        ∀ e ∈ heap, e.2.1 ≠ i ∧ ∃ x y, V[i]? = some x ∧ V[e.2.1]? = some y ∧ e.1 = similarity x y) is B := by
  intro is
  induction is with
  | nil => intro t _; exact Or.inr ⟨[], t, rfl, .nil⟩
  | cons i is ih =>
      intro t his
      have hi : i < V.length := his i (by simp)
      rw [initial]
      cases hs : sample draws V.length k i fuel t [] with
      | none => exact Or.inl rfl
      | some st =>
          obtain ⟨S, t1⟩ := st
          have hS := sample_spec (Nat.zero_lt_of_lt hi) ⟨List.nodup_nil, by simp⟩ (Nat.zero_le _) hs
          obtain ⟨neighbors, hn, hf⟩ := mapM_forall₂ (R := fun j (e : Neighbor K F) => e.2.1 = j ∧ ∃ x y, V[i]? = some x ∧ V[j]? = some y ∧
              e.1 = similarity x y) (fun j => do let s ← sim V similarity i j; pure ((s, j, flag) : Neighbor K F)) (setOrd S) (by
            intro j hj
            have hj := (hS.1.mem j ((hset S).mem_iff.mp hj)).1
            refine ⟨(similarity V[i] V[j], j, flag), ?_, rfl, V[i], V[j], List.getElem?_eq_getElem hi, List.getElem?_eq_getElem hj, rfl⟩
            rw [sim_ok similarity (List.getElem?_eq_getElem hi) (List.getElem?_eq_getElem hj)]
            rfl)
          simp only
          rw [hn]
          rcases ih (t := t1) (fun j hj => his j (by simp [hj])) with h | ⟨B, t', h, hB⟩
          · left
            change (do let r ← initial heapq setOrd draws V similarity flag k fuel is t1; _) = _
            rw [h]; rfl
          · right
            refine ⟨heapq.heapify neighbors :: B, t', ?_, .cons ⟨?_, hP _, ?_⟩ hB⟩
            · change (do let r ← initial heapq setOrd draws V similarity flag k fuel is t1; _) = _
              rw [h]; rfl
            · rw [(hq.heapify neighbors).length_eq, ← hf.length_eq, (hset S).length_eq, hS.2]
            · intro e he
              have he := (hq.heapify neighbors).mem_iff.mp he
              obtain ⟨n, hlt, hen⟩ := List.getElem_of_mem he
              obtain ⟨j, hj, hej, x, y, hx, hy, hs⟩ := forall₂_getElem? hf (i := n) (b := e) (by rw [List.getElem?_eq_getElem hlt, hen])
              have hjS := hS.1.mem j ((hset S).mem_iff.mp (List.mem_of_getElem? hj))
              rw [hej]
              exact ⟨hjS.2, x, y, hx, hy, hs⟩

omit [LinearOrder K] in
theorem initial_mono {heapq : Heapq (Neighbor K F)} {setOrd : List Nat → List Nat} {draws : Nat → Nat} {V : List α}
    {similarity : α → α → K} {flag : F} {k fuel fuel' : Nat} (hle : fuel ≤ fuel') : ∀ {is : List Nat} {t : Nat}
    {x : List (List (Neighbor K F)) × Nat}, initial heapq setOrd draws V similarity flag k fuel is t = .ok (some x) →
    initial heapq setOrd draws V similarity flag k fuel' is t = .ok (some x) := by
  intro is
  induction is with
  | nil => intro t x h; exact h
  | cons i is ih =>
      intro t x h
      rw [initial] at h ⊢
      cases hs : sample draws V.length k i fuel t [] with
      | none => rw [hs] at h; simp at h
      | some st =>
          obtain ⟨S, t1⟩ := st
          rw [hs] at h
          rw [sample_mono hs hle]
          simp only at h ⊢
          cases hm : (setOrd S).mapM (fun j => do let s ← sim V similarity i j; pure ((s, j, flag) : Neighbor K F)) with
          | error e => rw [hm] at h; simp [bind, Except.bind] at h
          | ok neighbors =>
              rw [hm] at h
              simp only [bind, Except.bind] at h ⊢
              cases hi : initial heapq setOrd draws V similarity flag k fuel is t1 with
              | error e => rw [hi] at h; simp at h
              | ok r =>
                  rw [hi] at h
                  cases r with
                  | none => simp [pure, Except.pure] at h
                  | some r =>
                      rw [ih hi]
                      exact h

theorem initial_ends {heapq : Heapq (Neighbor K F)} (hq : Lawful heapq) {setOrd : List Nat → List Nat} (hset : ∀ l, (setOrd l).Perm l)
    {draws : Nat → Nat} {V : List α} (similarity : α → α → K) (flag : F) {k : Nat} (hk : k < V.length) (hf : Fair draws V.length) :
    ∀ (is : List Nat) (t : Nat), (∀ i ∈ is, i < V.length) →
    ∃ fuel x, initial heapq setOrd draws V similarity flag k fuel is t = .ok (some x) := by
  intro is
  induction is with
  | nil => intro t _; exact ⟨0, ([], t), rfl⟩
  | cons i is ih =>
      intro t his
      obtain ⟨fuel, ⟨S, t1⟩, hs⟩ := sample_ends (his i (by simp)) hk hf k t [] ⟨List.nodup_nil, by simp⟩ (by simp)
      obtain ⟨fuel', x, hx⟩ := ih t1 (fun j hj => his j (by simp [hj]))
      have hx := initial_mono (Nat.le_max_right fuel fuel') hx
      have hs := sample_mono hs (Nat.le_max_left fuel fuel')
      have := initial_spec hq hset (P := fun _ => True) (fun _ => trivial) (draws := draws) (similarity := similarity) (flag := flag) (k := k)
        (fuel := max fuel fuel') (t := t) his
      rcases this with h | ⟨B, t', h, _⟩
      · exfalso
        rw [initial, hs] at h
        simp only [bind, Except.bind, hx] at h
        split at h
        · simp at h
        · simp [pure, Except.pure] at h
      · exact ⟨_, _, h⟩

/-! ### Replacing -/

/-- How many similarities of items are below. -/
def rank (V : List α) (similarity : α → α → K) (s : K) : Nat :=
  (V.map fun x => V.countP fun y => decide (similarity x y < s)).sum

/-- The sum of the ranks of all neighbors. -/
def total (V : List α) (similarity : α → α → K) (B : List (List (Neighbor K F))) : Nat :=
  (B.map fun heap => (heap.map fun e => rank V similarity e.1).sum).sum

theorem sum_le_of_forall_le {l : List Nat} {m : Nat} (h : ∀ x ∈ l, x ≤ m) : l.sum ≤ l.length * m := by
  induction l with
  | nil => simp
  | cons a l ih =>
      have h1 := h a (by simp)
      have h2 := ih (fun x hx => h x (by simp [hx]))
      rw [List.sum_cons, List.length_cons, Nat.succ_mul]
      omega

theorem rank_le (V : List α) (similarity : α → α → K) (s : K) : rank V similarity s ≤ V.length * V.length := by
  unfold rank
  have := sum_le_of_forall_le (l := V.map fun x => V.countP fun y => decide (similarity x y < s)) (m := V.length) (by
    intro n hn
    obtain ⟨x, _, rfl⟩ := List.mem_map.mp hn
    exact List.countP_le_length)
  simpa using this

theorem rank_lt {V : List α} {similarity : α → α → K} {s s' : K} (hlt : s < s') {x y : α} (hx : x ∈ V) (hy : y ∈ V)
    (hs : s = similarity x y) : rank V similarity s < rank V similarity s' := by
  unfold rank
  have hle : ∀ a ∈ V, (V.countP fun y => decide (similarity a y < s)) ≤ (V.countP fun y => decide (similarity a y < s')) := by
    intro a _
    apply List.countP_mono_left
    intro b _ hb
    simp only [decide_eq_true_eq] at hb ⊢
    exact lt_trans hb hlt
  refine List.sum_lt_sum _ _ hle ⟨x, hx, ?_⟩
  have key : ∀ l : List α, y ∈ l → (l.countP fun y => decide (similarity x y < s)) < (l.countP fun y => decide (similarity x y < s')) := by
    intro l hy
    have mono : ∀ l : List α, (l.countP fun y => decide (similarity x y < s)) ≤ (l.countP fun y => decide (similarity x y < s')) := by
      intro l
      apply List.countP_mono_left
      intro b _ hb
      simp only [decide_eq_true_eq] at hb ⊢
      exact lt_trans hb hlt
    induction l with
    | nil => simp at hy
    | cons b l ih =>
        rw [List.countP_cons, List.countP_cons]
        rcases List.mem_cons.mp hy with rfl | hy
        · have h1 : ¬ similarity x y < s := by rw [hs]; exact lt_irrefl _
          have h2 : similarity x y < s' := by rw [← hs]; exact hlt
          have := mono l
          simp only [h1, h2, decide_false, decide_true, Bool.false_eq_true, if_false, if_true]
          omega
        · have h1 := ih hy
          have h2 : (if decide (similarity x b < s) = true then 1 else 0) ≤ if decide (similarity x b < s') = true then 1 else 0 := by
            by_cases h : similarity x b < s
            · simp [h, lt_trans h hlt]
            · simp [h]
          omega
  exact key V hy

theorem total_le {V : List α} {similarity : α → α → K} {Ok : α → α → K → Prop} {P : List (Neighbor K F) → Prop} {k : Nat}
    {B : List (List (Neighbor K F))} (h : Good V Ok P k B) : total V similarity B ≤ V.length * (k * (V.length * V.length)) := by
  unfold total
  have := sum_le_of_forall_le (l := B.map fun heap => (heap.map fun e => rank V similarity e.1).sum) (m := k * (V.length * V.length)) (by
    intro n hn
    obtain ⟨heap, hm, rfl⟩ := List.mem_map.mp hn
    obtain ⟨i, hi⟩ := List.getElem?_of_mem hm
    have := sum_le_of_forall_le (l := heap.map fun e => rank V similarity e.1) (m := V.length * V.length) (by
      intro n hn
      obtain ⟨e, _, rfl⟩ := List.mem_map.mp hn
      exact rank_le ..)
    rw [List.length_map, h.size i heap hi] at this
    exact this)
  rw [List.length_map, h.length] at this
  exact this

theorem total_set {V : List α} {similarity : α → α → K} {B : List (List (Neighbor K F))} {u : Nat} {heap heap' : List (Neighbor K F)}
    (hu : B[u]? = some heap) :
    total V similarity (B.set u heap') + (heap.map fun e => rank V similarity e.1).sum =
      total V similarity B + (heap'.map fun e => rank V similarity e.1).sum := by
  unfold total
  induction B generalizing u with
  | nil => simp at hu
  | cons h B ih =>
      cases u with
      | zero =>
          simp only [List.getElem?_cons_zero, Option.some.injEq] at hu
          subst hu
          simp only [List.set_cons_zero, List.map_cons, List.sum_cons]
          omega
      | succ u =>
          have := ih (u := u) (by simpa using hu)
          simp only [List.set_cons_succ, List.map_cons, List.sum_cons]
          omega

/-- The similarities accepted are some of those between items. -/
def Accepts (Ok : α → α → K → Prop) (similarity : α → α → K) : Prop := ∀ x y s, Ok x y s → s = similarity x y ∨ s = similarity y x

/-- The total increases as much as the counter, and when the counter does not change, nothing does. -/
def Grows (V : List α) (similarity : α → α → K) (st st' : List (List (Neighbor K F)) × Nat) : Prop :=
  st.2 ≤ st'.2 ∧ total V similarity st.1 + st'.2 ≤ total V similarity st'.1 + st.2 ∧ (st'.2 = st.2 → st' = st)

theorem Grows.refl (V : List α) (similarity : α → α → K) (st : List (List (Neighbor K F)) × Nat) : Grows V similarity st st :=
  ⟨Nat.le_refl _, Nat.le_refl _, fun _ => rfl⟩

theorem Grows.trans {V : List α} {similarity : α → α → K} {st st' st'' : List (List (Neighbor K F)) × Nat} (h : Grows V similarity st st')
    (h' : Grows V similarity st' st'') : Grows V similarity st st'' := by
  refine ⟨Nat.le_trans h.1 h'.1, ?_, fun e => ?_⟩
  · have := h.2.1; have := h'.2.1; omega
  · have := h.1; have := h'.1
    rw [h'.2.2 (by omega), h.2.2 (by omega)]

/-- `s` is not above the similarity of the first neighbor of `u`. -/
def NotAbove (B : List (List (Neighbor K F))) (u : Nat) (s : K) : Prop :=
  ∀ heap first, B[u]? = some heap → heap.head? = some first → s ≤ first.1

/-- What a replacement does: it keeps the invariant, it increases the total as much as the counter, and when the counter does not change,
nothing does and the similarity is not more than the one of the first neighbor. -/
theorem replaceIf_spec {heapq : Heapq (Neighbor K F)} (hq : Lawful heapq) {V : List α} {similarity : α → α → K} {Ok : α → α → K → Prop}
    (hOk : Accepts Ok similarity) {P : List (Neighbor K F) → Prop} (hP : ∀ l x, l ≠ [] → P l → P (heapq.heapreplace l x)) {k : Nat} (hk : 0 < k)
    {st : List (List (Neighbor K F)) × Nat} (hB : Good V Ok P k st.1) {u : Nat} {x y : α} {e : Neighbor K F} (hu : V[u]? = some x)
    (hv : V[e.2.1]? = some y) (hne : e.2.1 ≠ u) (he : Ok x y e.1) :
    ∃ st', replaceIf heapq st u e = .ok st' ∧ Good V Ok P k st'.1 ∧ Grows V similarity st st' ∧
      (st'.2 = st.2 → NotAbove st.1 u e.1) := by
  have hlt : u < st.1.length := by rw [hB.length]; exact (List.getElem?_eq_some_iff.mp hu).1
  have hheap : st.1[u]? = some st.1[u] := List.getElem?_eq_getElem hlt
  generalize st.1[u] = heap at hheap
  have hsize := hB.size u heap hheap
  cases heap with
  | nil => simp at hsize; omega
  | cons first rest =>
      unfold replaceIf
      rw [item_ok hheap]
      simp only [bind, Except.bind, item_ok (show (first :: rest)[0]? = some first from rfl)]
      by_cases hgt : e.1 > first.1
      · rw [if_pos hgt]
        have hperm := hq.heapreplace (first :: rest) e (by simp)
        refine ⟨_, rfl, ⟨?_, ?_, ?_, ?_⟩, ⟨by simp, ?_, by simp⟩, by simp⟩
        · rw [List.length_set, hB.length]
        · intro i heap hi
          rw [List.getElem?_set] at hi
          split at hi
          · injection hi with hi
            rw [← hi, hperm.length_eq]
            simpa using hsize
          · exact hB.size i heap hi
        · intro i heap hi
          rw [List.getElem?_set] at hi
          split at hi
          · injection hi with hi
            rw [← hi]
            exact hP _ _ (by simp) (hB.inv u _ hheap)
          · exact hB.inv i heap hi
        · intro i heap hi e' he'
          rw [List.getElem?_set] at hi
          split at hi
          · next hui =>
              subst hui
              injection hi with hi
              rw [← hi, hperm.mem_iff] at he'
              rcases List.mem_cons.mp he' with rfl | he'
              · exact ⟨hne, x, y, hu, hv, he⟩
              · exact hB.entry u _ hheap e' (List.mem_cons_of_mem _ he')
          · exact hB.entry i heap hi e' he'
        · have h1 := total_set (V := V) (similarity := similarity) (heap' := heapq.heapreplace (first :: rest) e) hheap
          have h2 : ((heapq.heapreplace (first :: rest) e).map fun e => rank V similarity e.1).sum =
              rank V similarity e.1 + (rest.map fun e => rank V similarity e.1).sum := by
            rw [(hperm.map _).sum_eq]
            simp
          have h3 : rank V similarity first.1 < rank V similarity e.1 := by
            obtain ⟨_, a, b, ha, hb, hab⟩ := hB.entry u _ hheap first (by simp)
            rcases hOk a b _ hab with h | h
            · exact rank_lt hgt (List.mem_of_getElem? ha) (List.mem_of_getElem? hb) h
            · exact rank_lt hgt (List.mem_of_getElem? hb) (List.mem_of_getElem? ha) h
          rw [h2] at h1
          simp only [List.map_cons, List.sum_cons] at h1
          simp only
          omega
      · rw [if_neg hgt]
        refine ⟨st, rfl, hB, .refl .., fun _ => ?_⟩
        intro heap first' hh hf
        rw [hheap] at hh
        injection hh with hh
        rw [← hh] at hf
        simp only [List.head?_cons, Option.some.injEq] at hf
        rw [← hf]
        exact not_lt.mp hgt

/-! ### Reverse -/

/-- `x` is in the list at `j`. -/
def At (R : List (List Nat)) (j x : Nat) : Prop := ∃ r, R[j]? = some r ∧ x ∈ r

theorem append_spec {R : List (List Nat)} {j : Nat} (i : Nat) (hj : j < R.length) : ∃ R', append R j i = .ok R' ∧ R'.length = R.length ∧
    ∀ a x, At R' a x ↔ At R a x ∨ (a = j ∧ x = i) := by
  refine ⟨_, if_pos hj, by simp, ?_⟩
  intro a x
  unfold At
  rw [List.getElem?_modify]
  by_cases ha : j = a
  · subst ha
    simp only [if_true, List.getElem?_eq_getElem hj, Option.map_eq_map, Option.map_some, Option.some.injEq, exists_eq_left', List.mem_append, List.mem_singleton,
      true_and]
  · have : ¬ a = j := fun h => ha h.symm
    simp only [if_neg ha, this, false_and, or_false]
    simp

theorem appends_spec (i : Nat) : ∀ (l : List Nat) {R : List (List Nat)}, (∀ j ∈ l, j < R.length) →
    ∃ R', l.foldlM (fun R j => append R j i) R = .ok R' ∧ R'.length = R.length ∧ ∀ a x, At R' a x ↔ At R a x ∨ (a ∈ l ∧ x = i) := by
  intro l
  induction l with
  | nil => intro R _; exact ⟨R, rfl, rfl, by simp⟩
  | cons j l ih =>
      intro R h
      obtain ⟨R', h1, h2, h3⟩ := append_spec i (h j (by simp))
      obtain ⟨R'', h4, h5, h6⟩ := ih (R := R') (fun x hx => by rw [h2]; exact h x (by simp [hx]))
      refine ⟨R'', ?_, h5.trans h2, ?_⟩
      · rw [List.foldlM_cons, h1]; exact h4
      · intro a x
        rw [h6, h3, List.mem_cons]
        grind

theorem reverse_spec {B : List (List Nat)} (h : ∀ l ∈ B, ∀ j ∈ l, j < B.length) : ∃ R, reverse B = .ok R ∧ R.length = B.length ∧
    ∀ j i, At R j i ↔ At B i j := by
  have key : ∀ (l : List (List Nat)) (n : Nat) (R : List (List Nat)), (∀ x ∈ l, ∀ j ∈ x, j < R.length) →
      ∃ R', (l.zipIdx n).foldlM (fun R x => x.1.foldlM (fun R j => append R j x.2) R) R = .ok R' ∧ R'.length = R.length ∧
        ∀ a x, At R' a x ↔ At R a x ∨ (n ≤ x ∧ At l (x - n) a) := by
    intro l
    induction l with
    | nil => intro n R _; exact ⟨R, rfl, rfl, by simp [At]⟩
    | cons b l ih =>
        intro n R hR
        obtain ⟨R', h1, h2, h3⟩ := appends_spec n b (R := R) (hR b (by simp))
        obtain ⟨R'', h4, h5, h6⟩ := ih (n + 1) R' (fun x hx => by rw [h2]; exact hR x (by simp [hx]))
        refine ⟨R'', ?_, h5.trans h2, ?_⟩
        · rw [List.zipIdx_cons, List.foldlM_cons]
          simp only
          rw [h1]; exact h4
        · intro a x
          rw [h6, h3, or_assoc]
          refine or_congr Iff.rfl ?_
          rcases Nat.lt_trichotomy x n with hx | hx | hx
          · constructor
            · rintro (⟨_, h⟩ | ⟨h, _⟩) <;> omega
            · rintro ⟨h, _⟩; omega
          · subst hx
            simp only [Nat.sub_self, At, List.getElem?_cons_zero, Option.some.injEq, exists_eq_left', Nat.le_refl, true_and, and_true]
            constructor
            · rintro (h | ⟨h, _⟩)
              · exact h
              · omega
            · exact Or.inl
          · have e : x - n = (x - (n + 1)) + 1 := by omega
            rw [e]
            simp only [At, List.getElem?_cons_succ]
            constructor
            · rintro (⟨_, h⟩ | ⟨_, h⟩)
              · omega
              · exact ⟨by omega, h⟩
            · rintro ⟨_, h⟩
              exact Or.inr ⟨by omega, h⟩
  obtain ⟨R, h1, h2, h3⟩ := key B 0 (B.map fun _ => []) (by simpa using h)
  refine ⟨R, h1, by simpa using h2, ?_⟩
  intro j i
  rw [h3]
  simp only [Nat.zero_le, true_and, Nat.sub_zero]
  constructor
  · rintro (⟨r, hr, hi⟩ | h)
    · simp only [List.getElem?_map, Option.map_eq_some_iff] at hr
      obtain ⟨_, _, rfl⟩ := hr
      simp at hi
    · exact h
  · exact Or.inr

/-! ### A turn -/

/-- One is a neighbor of the other. -/
def Adjacent (B : List (List (Neighbor K F))) (i j : Nat) : Prop :=
  At (B.map fun heap => heap.map fun e => e.2.1) i j ∨ At (B.map fun heap => heap.map fun e => e.2.1) j i

theorem Good.bound {V : List α} {Ok : α → α → K → Prop} {P : List (Neighbor K F) → Prop} {k : Nat} {B : List (List (Neighbor K F))}
    (h : Good V Ok P k B) {i j : Nat} (hij : At (B.map fun heap => heap.map fun e => e.2.1) i j) :
    i < V.length ∧ j < V.length ∧ i ≠ j ∧ 0 < k := by
  obtain ⟨l, hl, hj⟩ := hij
  rw [List.getElem?_map, Option.map_eq_some_iff] at hl
  obtain ⟨heap, hheap, rfl⟩ := hl
  obtain ⟨e, he, rfl⟩ := List.mem_map.mp hj
  obtain ⟨hne, x, y, hx, hy, _⟩ := h.entry i heap hheap e he
  refine ⟨(List.getElem?_eq_some_iff.mp hx).1, (List.getElem?_eq_some_iff.mp hy).1, fun h => hne h.symm, ?_⟩
  rw [← h.size i heap hheap]
  exact List.length_pos_of_mem he

theorem Good.bound' {V : List α} {Ok : α → α → K → Prop} {P : List (Neighbor K F) → Prop} {k : Nat} {B : List (List (Neighbor K F))}
    (h : Good V Ok P k B) {i j : Nat} (hij : Adjacent B i j) : i < V.length ∧ j < V.length ∧ i ≠ j ∧ 0 < k := by
  rcases hij with hij | hij
  · exact h.bound hij
  · have := h.bound hij
    exact ⟨this.2.1, this.1, fun h => this.2.2.1 h.symm, this.2.2.2⟩

theorem candidates_spec {setOrd : List Nat → List Nat} (hset : ∀ l, (setOrd l).Perm l) {B : List (List (Neighbor K F))} {R : List (List Nat)}
    (hR : R.length = B.length) (h : ∀ j i, At R j i ↔ At (B.map fun heap => heap.map fun e => e.2.1) i j) :
    ∃ C, candidates setOrd B R = .ok C ∧ C.length = B.length ∧ ∀ i j, At C i j ↔ Adjacent B i j := by
  obtain ⟨C, hC, hf⟩ := mapM_forall₂ (R := fun i (l : List Nat) => ∀ j, j ∈ l ↔ Adjacent B i j) (fun i => do
      let neighbors ← item B i
      let r ← item R i
      pure (setOrd (dedup (neighbors.map (fun e => e.2.1) ++ r)))) (List.range B.length) (by
    intro i hi
    rw [List.mem_range] at hi
    have hb := List.getElem?_eq_getElem hi
    have hr := List.getElem?_eq_getElem (l := R) (i := i) (by omega)
    refine ⟨setOrd (dedup (B[i].map (fun e => e.2.1) ++ R[i])), ?_, ?_⟩
    · rw [item_ok hb, item_ok hr]; rfl
    · intro j
      rw [(hset _).mem_iff, mem_dedup, List.mem_append]
      unfold Adjacent
      rw [← h i j]
      refine or_congr ?_ ?_
      · unfold At; rw [List.getElem?_map, hb]; simp
      · unfold At; rw [hr]; simp)
  have hlen : C.length = B.length := by rw [← hf.length_eq, List.length_range]
  refine ⟨C, hC, hlen, ?_⟩
  intro i j
  constructor
  · rintro ⟨l, hl, hj⟩
    obtain ⟨i', hi', hx⟩ := forall₂_getElem? hf hl
    obtain ⟨_, rfl⟩ := List.getElem?_eq_some_iff.mp hi'
    rw [List.getElem_range] at hx
    exact (hx j).mp hj
  · intro hij
    have hi : i < B.length := by
      rcases hij with ⟨l, hl, _⟩ | hij
      · simpa using (List.getElem?_eq_some_iff.mp hl).1
      · obtain ⟨l, hl, _⟩ := (h i j).mpr hij
        rw [← hR]
        exact (List.getElem?_eq_some_iff.mp hl).1
    have hc := List.getElem?_eq_getElem (l := C) (i := i) (by omega)
    obtain ⟨i', hi', hx⟩ := forall₂_getElem? hf hc
    obtain ⟨_, rfl⟩ := List.getElem?_eq_some_iff.mp hi'
    rw [List.getElem_range] at hx
    exact ⟨_, hc, (hx j).mpr hij⟩

theorem visits_spec {C : List (List Nat)} (h : ∀ i j, At C i j → j < C.length) : ∃ pairs, visits C = .ok pairs ∧
    ∀ i jj, (i, jj) ∈ pairs ↔ ∃ j, At C i j ∧ At C j jj := by
  obtain ⟨l, hl, hf⟩ := mapM_forall₂ (R := fun (x : List Nat × Nat) (l : List (Nat × Nat)) => ∀ i jj, (i, jj) ∈ l ↔
      i = x.2 ∧ ∃ j ∈ x.1, At C j jj) (fun x : List Nat × Nat => do
      let bs ← x.1.mapM fun ii => item C ii
      pure (bs.flatten.map fun jj => (x.2, jj))) C.zipIdx (by
    rintro ⟨c, i⟩ hx
    have hc : C[i]? = some c := List.mem_zipIdx_iff_getElem?.mp hx
    obtain ⟨bs, hbs, hf⟩ := mapM_forall₂ (R := fun ii b => C[ii]? = some b) (fun ii => item C ii) c (by
      intro ii hii
      have := List.getElem?_eq_getElem (h i ii ⟨c, hc, hii⟩)
      exact ⟨_, item_ok this, this⟩)
    refine ⟨bs.flatten.map fun jj => (i, jj), ?_, ?_⟩
    · simp only
      rw [hbs]; rfl
    · intro i' jj
      simp only [List.mem_map, Prod.mk.injEq, List.mem_flatten]
      constructor
      · rintro ⟨_, ⟨b, hb, hjj⟩, rfl, rfl⟩
        obtain ⟨n, hn⟩ := List.getElem?_of_mem hb
        obtain ⟨ii, hii, hC⟩ := forall₂_getElem? hf hn
        exact ⟨rfl, ii, List.mem_of_getElem? hii, b, hC, hjj⟩
      · rintro ⟨rfl, ii, hii, b, hb, hjj⟩
        obtain ⟨n, hn⟩ := List.getElem?_of_mem hii
        have hlt : n < bs.length := by rw [← hf.length_eq]; exact (List.getElem?_eq_some_iff.mp hn).1
        have hbn := List.getElem?_eq_getElem hlt
        obtain ⟨ii', hii', hC⟩ := forall₂_getElem? hf hbn
        rw [hn] at hii'
        injection hii' with e
        subst e
        rw [hb] at hC
        injection hC with e
        exact ⟨jj, ⟨b, e ▸ List.mem_of_getElem? hbn, hjj⟩, rfl, rfl⟩)
  refine ⟨l.flatten, ?_, ?_⟩
  · unfold visits
    rw [hl]; rfl
  · intro i jj
    rw [List.mem_flatten]
    constructor
    · rintro ⟨a, ha, hm⟩
      obtain ⟨n, hn⟩ := List.getElem?_of_mem ha
      obtain ⟨⟨c, m⟩, hx, hC⟩ := forall₂_getElem? hf hn
      obtain ⟨rfl, j, hj, hjj⟩ := (hC i jj).mp hm
      exact ⟨j, ⟨c, List.mem_zipIdx_iff_getElem?.mp (List.mem_of_getElem? hx), hj⟩, hjj⟩
    · rintro ⟨j, ⟨c, hc, hj⟩, hjj⟩
      have hx : (c, i) ∈ C.zipIdx := List.mem_zipIdx_iff_getElem?.mpr hc
      obtain ⟨n, hn⟩ := List.getElem?_of_mem hx
      have hlt : n < l.length := by rw [← hf.length_eq]; exact (List.getElem?_eq_some_iff.mp hn).1
      have hbn := List.getElem?_eq_getElem hlt
      obtain ⟨x', hx', hC⟩ := forall₂_getElem? hf hbn
      rw [hn] at hx'
      injection hx' with e
      subst e
      exact ⟨_, List.mem_of_getElem? hbn, (hC i jj).mpr ⟨rfl, j, hj, hjj⟩⟩

theorem fold_grows {V : List α} {similarity : α → α → K} {β : Type} {I : List (List (Neighbor K F)) → Prop}
    {f : List (List (Neighbor K F)) × Nat → β → Py (List (List (Neighbor K F)) × Nat)} {Q : List (List (Neighbor K F)) → β → Prop} :
    ∀ (ps : List β), (∀ st, I st.1 → ∀ p ∈ ps, ∃ st', f st p = .ok st' ∧ I st'.1 ∧ Grows V similarity st st' ∧ (st'.2 = st.2 → Q st.1 p)) →
    ∀ st, I st.1 → ∃ st', ps.foldlM f st = .ok st' ∧ I st'.1 ∧ Grows V similarity st st' ∧ (st'.2 = st.2 → ∀ p ∈ ps, Q st.1 p) := by
  intro ps
  induction ps with
  | nil => intro _ st hst; exact ⟨st, rfl, hst, .refl .., by simp⟩
  | cons p ps ih =>
      intro hf st hst
      obtain ⟨st1, h1, hI1, hG1, hQ1⟩ := hf st hst p (by simp)
      obtain ⟨st2, h2, hI2, hG2, hQ2⟩ := ih (fun st hst q hq => hf st hst q (by simp [hq])) st1 hI1
      refine ⟨st2, ?_, hI2, hG1.trans hG2, ?_⟩
      · rw [List.foldlM_cons, h1]; exact h2
      · intro e q hq
        have l1 := hG1.1
        have l2 := hG2.1
        rcases List.mem_cons.mp hq with rfl | hq
        · exact hQ1 (by omega)
        · have := hQ2 (by omega) q hq
          rwa [hG1.2.2 (by omega)] at this

/-- The neighbors of neighbors are not more similar than the first neighbor. -/
def Optimal (V : List α) (similarity : α → α → K) (B : List (List (Neighbor K F))) : Prop :=
  ∀ i j jj x y, Adjacent B i j → Adjacent B j jj → i ≠ jj → V[i]? = some x → V[jj]? = some y → NotAbove B i (similarity x y)

theorem turn_spec {heapq : Heapq (Neighbor K Unit)} (hq : Lawful heapq) {setOrd : List Nat → List Nat} (hset : ∀ l, (setOrd l).Perm l)
    {V : List α} {similarity : α → α → K} {P : List (Neighbor K Unit) → Prop} (hP : ∀ l x, l ≠ [] → P l → P (heapq.heapreplace l x)) {k : Nat}
    {B : List (List (Neighbor K Unit))} (hB : Good V (fun x y s => s = similarity x y) P k B) :
    ∃ B' c, turn heapq setOrd V similarity B = .ok (B', c) ∧ Good V (fun x y s => s = similarity x y) P k B' ∧
      total V similarity B + c ≤ total V similarity B' ∧ (c = 0 → B' = B ∧ Optimal V similarity B) := by
  obtain ⟨R, hR, hRl, hRm⟩ := reverse_spec (B := B.map fun heap => heap.map fun e => e.2.1) (by
    intro l hl j hj
    obtain ⟨i, hi⟩ := List.getElem?_of_mem hl
    rw [List.length_map, hB.length]
    exact (hB.bound ⟨l, hi, hj⟩).2.1)
  obtain ⟨C, hC, hCl, hCm⟩ := candidates_spec hset (by simpa using hRl) hRm
  obtain ⟨pairs, hp, hpm⟩ := visits_spec (C := C) (by
    intro i j hij
    rw [hCl, hB.length]
    exact (hB.bound' ((hCm i j).mp hij)).2.1)
  obtain ⟨⟨B', c⟩, h1, h2, h3, h4⟩ := fold_grows (V := V) (similarity := similarity) (I := Good V (fun x y s => s = similarity x y) P k)
      (f := visit heapq V similarity) (Q := fun B p => p.1 ≠ p.2 → ∀ x y, V[p.1]? = some x → V[p.2]? = some y → NotAbove B p.1 (similarity x y))
      pairs (by
    rintro st hst ⟨i, jj⟩ hp
    obtain ⟨j, hij, hjj⟩ := (hpm i jj).mp hp
    have h1 := hB.bound' ((hCm _ _).mp hij)
    have h2 := hB.bound' ((hCm _ _).mp hjj)
    by_cases hne : i = jj
    · exact ⟨st, if_pos hne, hst, .refl .., fun _ h => absurd hne h⟩
    · have hi := List.getElem?_eq_getElem h1.1
      have hj := List.getElem?_eq_getElem h2.2.1
      obtain ⟨st', e1, e2, e3, e4⟩ := replaceIf_spec hq (similarity := similarity) (Ok := fun x y s => s = similarity x y)
        (fun _ _ _ h => Or.inl h) hP h1.2.2.2 hst
        (e := (similarity V[i] V[jj], jj, ())) hi hj (fun h => hne h.symm) rfl
      refine ⟨st', ?_, e2, e3, ?_⟩
      · unfold visit
        rw [if_neg hne]
        simp only
        rw [sim_ok similarity hi hj]
        exact e1
      · intro e _ x y hx hy
        simp only at hx hy
        rw [hi] at hx
        rw [hj] at hy
        injection hx with hx
        injection hy with hy
        rw [← hx, ← hy]
        exact e4 e) (B, 0) hB
  refine ⟨B', c, ?_, h2, by have := h3.2.1; simpa using this, ?_⟩
  · unfold turn
    rw [hR]
    change (do let C ← candidates setOrd B R; _) = _
    rw [hC]
    change (do let pairs ← visits C; _) = _
    rw [hp]
    exact h1
  · intro e
    have := h3.2.2 e
    injection this with this
    refine ⟨this, ?_⟩
    intro i j jj x y hij hjj hne hx hy
    exact h4 e (i, jj) ((hpm i jj).mpr ⟨j, (hCm _ _).mpr hij, (hCm _ _).mpr hjj⟩) hne x y hx hy

theorem descend_spec {heapq : Heapq (Neighbor K Unit)} (hq : Lawful heapq) {setOrd : List Nat → List Nat} (hset : ∀ l, (setOrd l).Perm l)
    {V : List α} {similarity : α → α → K} {P : List (Neighbor K Unit) → Prop} (hP : ∀ l x, l ≠ [] → P l → P (heapq.heapreplace l x)) {k : Nat} :
    ∀ (n : Nat) {B : List (List (Neighbor K Unit))}, Good V (fun x y s => s = similarity x y) P k B →
    V.length * (k * (V.length * V.length)) ≤ total V similarity B + n →
    ∃ B', Good V (fun x y s => s = similarity x y) P k B' ∧ Optimal V similarity B' ∧
      ∀ fuel, n < fuel → descend heapq setOrd V similarity fuel B = .ok (some B') := by
  intro n
  induction n with
  | zero =>
      intro B hB hn
      obtain ⟨B', c, h1, h2, h3, h4⟩ := turn_spec hq hset hP hB
      have := total_le (similarity := similarity) h2
      obtain ⟨rfl, ho⟩ := h4 (by omega)
      refine ⟨B', hB, ho, ?_⟩
      intro fuel hf
      obtain ⟨fuel, rfl⟩ : ∃ m, fuel = m + 1 := ⟨fuel - 1, by omega⟩
      rw [descend, h1]
      have : c = 0 := by omega
      subst this
      rfl
  | succ n ih =>
      intro B hB hn
      obtain ⟨B', c, h1, h2, h3, h4⟩ := turn_spec hq hset hP hB
      by_cases hc : c = 0
      · obtain ⟨rfl, ho⟩ := h4 hc
        refine ⟨B', hB, ho, ?_⟩
        intro fuel hf
        obtain ⟨fuel, rfl⟩ : ∃ m, fuel = m + 1 := ⟨fuel - 1, by omega⟩
        rw [descend, h1]
        subst hc
        rfl
      · obtain ⟨B'', h5, h6, h7⟩ := ih h2 (by omega)
        refine ⟨B'', h5, h6, ?_⟩
        intro fuel hf
        obtain ⟨fuel, rfl⟩ : ∃ m, fuel = m + 1 := ⟨fuel - 1, by omega⟩
        rw [descend, h1]
        simp only [bind, Except.bind]
        rw [if_pos hc]
        exact h7 fuel (by omega)

end Fog.NnDescent
