import Verif.Model.Laesa
import Verif.Spec.Greedy
import Verif.Spec.Metric
import Verif.Lemmas.Components
import Mathlib.Algebra.Order.Field.Basic
import Mathlib.Tactic.Linarith

/-!
# Lemmas on the model of `laesa.py`
-/

namespace Fog.Laesa

open Fog.ClusteringUtils Fog.Spec

variable {α K : Type _} [Field K] [LinearOrder K]

/-! ### The choice of pivots -/

theorem selTurn_spec (distance : α → α → K) (p : List Nat) (pivot : α) (data : List α) :
    ∀ (j : Nat) (A : List K) (best : Nat × K), A.length = data.length →
      (selTurn distance p pivot j data A best).1.length = data.length ∧
      (∀ (i : Nat) (x : α), data[i]? = some x → (selTurn distance p pivot j data A best).1.getD i 0 =
        if j + i ∈ p then A.getD i 0 else A.getD i 0 + distance pivot x) ∧
      (((selTurn distance p pivot j data A best).2 = best ∧ ∀ i : Nat, i < data.length → j + i ∉ p →
          (selTurn distance p pivot j data A best).1.getD i 0 ≤ best.2) ∨
        ∃ i : Nat, i < data.length ∧ j + i ∉ p ∧
          (selTurn distance p pivot j data A best).2 = (j + i, (selTurn distance p pivot j data A best).1.getD i 0) ∧
          best.2 < (selTurn distance p pivot j data A best).1.getD i 0 ∧
          ∀ k : Nat, k < data.length → j + k ∉ p → (selTurn distance p pivot j data A best).1.getD k 0 ≤
            (selTurn distance p pivot j data A best).1.getD i 0) := by
  induction data with
  | nil =>
      intro j A best hA
      have : A = [] := List.eq_nil_of_length_eq_zero hA
      subst this
      simp [selTurn]
  | cons item data ih =>
      intro j A best hA
      match A, hA with
      | a :: A, hA =>
        have hA' : A.length = data.length := by simpa using hA
        by_cases hj : j ∈ p
        · obtain ⟨h1, h2, h3⟩ := ih (j + 1) A best hA'
          have e : selTurn distance p pivot j (item :: data) (a :: A) best =
              (a :: (selTurn distance p pivot (j + 1) data A best).1, (selTurn distance p pivot (j + 1) data A best).2) := by
            simp [selTurn, hj]
          rw [e]
          refine ⟨by simp [h1], ?_, ?_⟩
          · intro i x hx
            match i, hx with
            | 0, _ => simp [hj]
            | i + 1, hx =>
                have := h2 i x (by simpa using hx)
                rw [show j + (i + 1) = j + 1 + i by omega]
                simpa using this
          · rcases h3 with ⟨h3, h4⟩ | ⟨i, hi, h3, h4, h5, h6⟩
            · refine Or.inl ⟨h3, ?_⟩
              intro i hi hni
              match i, hi, hni with
              | 0, _, hni => exact absurd hj (by simpa using hni)
              | i + 1, hi, hni =>
                  have := h4 i (by simpa using hi) (by rwa [show j + 1 + i = j + (i + 1) by omega])
                  simpa using this
            · refine Or.inr ⟨i + 1, by simpa using hi, by rwa [show j + (i + 1) = j + 1 + i by omega], ?_, by simpa using h5, ?_⟩
              · rw [h4]; simp; omega
              · intro k hk hnk
                match k, hk, hnk with
                | 0, _, hnk => exact absurd hj (by simpa using hnk)
                | k + 1, hk, hnk =>
                    have := h6 k (by simpa using hk) (by rwa [show j + 1 + k = j + (k + 1) by omega])
                    simpa using this
        · obtain ⟨h1, h2, h3⟩ := ih (j + 1) A (if best.2 < a + distance pivot item then (j, a + distance pivot item) else best) hA'
          have e : selTurn distance p pivot j (item :: data) (a :: A) best =
              ((a + distance pivot item) :: (selTurn distance p pivot (j + 1) data A
                (if best.2 < a + distance pivot item then (j, a + distance pivot item) else best)).1,
              (selTurn distance p pivot (j + 1) data A
                (if best.2 < a + distance pivot item then (j, a + distance pivot item) else best)).2) := by
            simp [selTurn, hj]
          rw [e]
          generalize selTurn distance p pivot (j + 1) data A
            (if best.2 < a + distance pivot item then (j, a + distance pivot item) else best) = r at *
          refine ⟨by simp [h1], ?_, ?_⟩
          · intro i x hx
            match i, hx with
            | 0, hx => simp at hx; subst hx; simp [hj]
            | i + 1, hx =>
                have := h2 i x (by simpa using hx)
                rw [show j + (i + 1) = j + 1 + i by omega]
                simpa using this
          · rcases h3 with ⟨h3, h4⟩ | ⟨i, hi, h3, h4, h5, h6⟩
            · by_cases hb : best.2 < a + distance pivot item
              · rw [if_pos hb] at h3 h4
                refine Or.inr ⟨0, by simp, by simpa using hj, by simpa using h3, by simpa using hb, ?_⟩
                intro k hk hnk
                match k, hk, hnk with
                | 0, _, _ => simp
                | k + 1, hk, hnk =>
                    have := h4 k (by simpa using hk) (by rwa [show j + 1 + k = j + (k + 1) by omega])
                    simpa using this
              · rw [if_neg hb] at h3 h4
                refine Or.inl ⟨h3, ?_⟩
                intro k hk hnk
                match k, hk, hnk with
                | 0, _, _ => simpa using hb
                | k + 1, hk, hnk =>
                    have := h4 k (by simpa using hk) (by rwa [show j + 1 + k = j + (k + 1) by omega])
                    simpa using this
            · have h7 : best.2 < r.1.getD i 0 ∧ a + distance pivot item ≤ r.1.getD i 0 := by
                by_cases hb : best.2 < a + distance pivot item
                · rw [if_pos hb] at h5
                  exact ⟨hb.trans h5, h5.le⟩
                · rw [if_neg hb] at h5
                  exact ⟨h5, (not_lt.1 hb).trans h5.le⟩
              refine Or.inr ⟨i + 1, by simpa using hi, by rwa [show j + (i + 1) = j + 1 + i by omega], ?_,
                by simpa using h7.1, ?_⟩
              · rw [h4]; simp; omega
              · intro k hk hnk
                match k, hk, hnk with
                | 0, _, hnk => simpa using h7.2
                | k + 1, hk, hnk =>
                    have := h6 k (by simpa using hk) (by rwa [show j + 1 + k = j + (k + 1) by omega])
                    simpa using this

theorem sum_nonneg_map [IsStrictOrderedRing K] (l : List Nat) (f : Nat → K) (h : ∀ u ∈ l, 0 ≤ f u) : 0 ≤ (l.map f).sum := by
  induction l with
  | nil => simp
  | cons a l ih =>
      simp only [List.map_cons, List.sum_cons]
      have h1 := h a (by simp)
      have h2 := ih fun u hu => h u (by simp [hu])
      linarith

theorem sum_pos_map [IsStrictOrderedRing K] (l : List Nat) (f : Nat → K) (h : ∀ u ∈ l, 0 ≤ f u) (h' : ∃ u ∈ l, 0 < f u) :
    0 < (l.map f).sum := by
  induction l with
  | nil => simp at h'
  | cons a l ih =>
      simp only [List.map_cons, List.sum_cons]
      have h1 := h a (by simp)
      have h2 := sum_nonneg_map l f fun u hu => h u (by simp [hu])
      obtain ⟨u, hu, hp⟩ := h'
      rcases List.mem_cons.1 hu with rfl | hu
      · linarith
      · have := ih (fun u hu => h u (by simp [hu])) ⟨u, hu, hp⟩
        linarith

theorem findPivots_greedy [IsStrictOrderedRing K] {distance : α → α → K} (hd : IsMetric distance) {data : List α}
    (hdiff : ∃ x ∈ data, ∃ y ∈ data, x ≠ y) (w : Nat → Nat → K)
    (hw : ∀ (u j : Nat) (x y : α), data[u]? = some x → data[j]? = some y → w u j = distance x y) (turns : Nat) :
    ∀ (used taken : List Nat) (A : List K) (b : Nat), A.length = data.length → b < data.length → taken.Nodup →
      (∀ t ∈ taken, t < data.length) → (∀ t ∈ used, t < data.length) → taken.length + turns ≤ data.length →
      ((taken = [] ∧ used = []) ∨ ∃ u ∈ used ++ [b], ∃ v ∈ used ++ [b], data[u]? ≠ data[v]?) →
      (∀ j : Nat, j < data.length → j ∉ taken → A.getD j 0 = (used.map fun u => w u j).sum) →
      ∃ bs, findPivots distance data turns taken A b = .ok (taken ++ bs) ∧ bs.length = turns ∧ (taken ++ bs).Nodup ∧
        Greedy w data.length (used ++ [b]) taken bs := by
  have hnonneg : ∀ x y, 0 ≤ distance x y := by
    intro x y
    by_cases h : x = y
    · rw [h, hd.self]
    · exact (hd.pos x y h).le
  induction turns with
  | zero => intro used taken A b _ _ ht _ _ _ _ _; exact ⟨[], by simp [findPivots], rfl, by simpa using ht, trivial⟩
  | succ turns ih =>
      intro used taken A b hA hb ht htn hun hlen hbt hsum
      obtain ⟨h1, h2, h3⟩ := selTurn_spec distance taken data[b] data 0 A (b, 0) hA
      have e : findPivots distance data (turns + 1) taken A b =
          findPivots distance data turns (setAdd taken (selTurn distance taken data[b] 0 data A (b, 0)).2.1)
            (selTurn distance taken data[b] 0 data A (b, 0)).1 (selTurn distance taken data[b] 0 data A (b, 0)).2.1 := by
        rw [findPivots, List.getElem?_eq_getElem hb]
      rw [e]
      generalize selTurn distance taken data[b] 0 data A (b, 0) = r at *
      have hval : ∀ j : Nat, j < data.length → j ∉ taken → r.1.getD j 0 = ((used ++ [b]).map fun u => w u j).sum := by
        intro j hj hjt
        have := h2 j data[j] (List.getElem?_eq_getElem hj)
        rw [this, if_neg (by simpa using hjt), hsum j hj hjt]
        rw [List.map_append, List.sum_append]
        simp [hw b j _ _ (List.getElem?_eq_getElem hb) (List.getElem?_eq_getElem hj)]
      have hunb : ∀ u ∈ used ++ [b], u < data.length := by
        intro u hu
        rcases List.mem_append.1 hu with hu | hu
        · exact hun u hu
        · rw [List.mem_singleton.1 hu]; exact hb
      have hwn : ∀ j : Nat, j < data.length → ∀ u ∈ used ++ [b], 0 ≤ w u j := by
        intro j hj u hu
        rw [hw u j _ _ (List.getElem?_eq_getElem (hunb u hu)) (List.getElem?_eq_getElem hj)]
        exact hnonneg _ _
      have hex : ∃ j : Nat, j < data.length ∧ j ∉ taken ∧ ∃ u ∈ used ++ [b], data[u]? ≠ data[j]? := by
        rcases hbt with ⟨rfl, rfl⟩ | ⟨u, hu, v, hv, huv⟩
        · obtain ⟨x, hx, y, hy, hxy⟩ := hdiff
          obtain ⟨i, hi, rfl⟩ := List.getElem_of_mem hx
          obtain ⟨j, hj, rfl⟩ := List.getElem_of_mem hy
          by_cases hbi : data[b] = data[i]
          · refine ⟨j, hj, by simp, b, by simp, ?_⟩
            rw [List.getElem?_eq_getElem hb, List.getElem?_eq_getElem hj, hbi]
            exact fun h => hxy (Option.some.inj h)
          · refine ⟨i, hi, by simp, b, by simp, ?_⟩
            rw [List.getElem?_eq_getElem hb, List.getElem?_eq_getElem hi]
            exact fun h => hbi (Option.some.inj h)
        · have : ∃ j : Nat, j < data.length ∧ j ∉ taken := by
            by_contra hno
            have hsub : List.range data.length ⊆ taken := by
              intro j hj
              by_contra hjt
              exact hno ⟨j, by simpa using hj, hjt⟩
            have := (List.subperm_of_subset List.nodup_range hsub).length_le
            simp at this
            omega
          obtain ⟨j, hj, hjt⟩ := this
          by_cases h : data[u]? = data[j]?
          · exact ⟨j, hj, hjt, v, hv, fun h' => huv (h.trans h'.symm)⟩
          · exact ⟨j, hj, hjt, u, hu, h⟩
      obtain ⟨j, hj, hjt, u, hu, huj⟩ := hex
      have hpos : 0 < r.1.getD j 0 := by
        rw [hval j hj hjt]
        refine sum_pos_map _ _ (hwn j hj) ⟨u, hu, ?_⟩
        rw [hw u j _ _ (List.getElem?_eq_getElem (hunb u hu)) (List.getElem?_eq_getElem hj)]
        refine hd.pos _ _ fun h => huj ?_
        rw [List.getElem?_eq_getElem (hunb u hu), List.getElem?_eq_getElem hj, h]
      rcases h3 with ⟨_, h4⟩ | ⟨i, hi, hit, h4, h5, h6⟩
      · exact absurd (h4 j hj (by simpa using hjt)) (not_le.2 hpos)
      · rw [Nat.zero_add] at hit
        have hr2 : r.2.1 = i := by rw [h4]; simp
        rw [hr2]
        have hset : setAdd taken i = taken ++ [i] := by simp [setAdd, hit]
        rw [hset]
        have hipos : 0 < ((used ++ [b]).map fun u => w u i).sum := by
          rw [← hval i hi hit]
          exact lt_of_lt_of_le hpos (h6 j hj (by simpa using hjt))
        have hnew : ∃ u ∈ used ++ [b] ++ [i], ∃ v ∈ used ++ [b] ++ [i], data[u]? ≠ data[v]? := by
          by_contra hno
          refine absurd hipos (not_lt.2 (le_of_eq (List.sum_eq_zero ?_)))
          intro x hx
          obtain ⟨u, hu, rfl⟩ := List.mem_map.1 hx
          have : data[u]? = data[i]? := by
            by_contra hne
            exact hno ⟨u, by simp only [List.mem_append] at hu ⊢; exact Or.inl hu, i, by simp, hne⟩
          rw [List.getElem?_eq_getElem (hunb u hu), List.getElem?_eq_getElem hi] at this
          rw [hw u i _ _ (List.getElem?_eq_getElem (hunb u hu)) (List.getElem?_eq_getElem hi), Option.some.inj this, hd.self]
        obtain ⟨bs, hbs, hl, hnd', hg⟩ := ih (used ++ [b]) (taken ++ [i]) r.1 i h1 hi
          (by rw [List.nodup_append]; simp [ht]; grind)
          (by simp; grind) (by simp; grind) (by simp; omega) (Or.inr hnew)
          (fun k hk hkt => hval k hk fun h => hkt (by simp [h]))
        refine ⟨i :: bs, ?_, by simp [hl], by simpa using hnd', ⟨hi, hit, ?_⟩, hg⟩
        · rw [hbs]; simp
        · intro k hk hkt
          rw [← hval k hk hkt, ← hval i hi hit]
          exact h6 k hk (by simpa using hkt)

/-! ### What is always true of the pivots -/

theorem setAdd_length (p : List Nat) (b : Nat) : (setAdd p b).length ≤ p.length + 1 := by
  unfold setAdd; split <;> simp

theorem findPivots_length (distance : α → α → K) (data : List α) (turns : Nat) :
    ∀ (p : List Nat) (A : List K) (b : Nat) (q : List Nat), findPivots distance data turns p A b = .ok q →
      q.length ≤ p.length + turns := by
  induction turns with
  | zero => intro p A b q h; simp [findPivots] at h; simp [h]
  | succ turns ih =>
      intro p A b q h
      rw [findPivots] at h
      split at h
      · simp at h
      · have := ih _ _ _ _ h
        have h2 := setAdd_length p (selTurn distance p ‹α› 0 data A (b, 0)).2.1
        omega

theorem mapM_rows {distance : α → α → K} {data : List α} {p : List Nat} :
    ∀ (m : Nat) (D : List (List K)), p.length ≤ m →
      (List.range m).mapM (fun i => (match p[i]? with
        | none => .error .indexError
        | some b => match data[b]? with
          | none => .error .indexError
          | some pivot => .ok (data.map (distance pivot)) : Py (List K))) = .ok D →
      p.length = m ∧ List.Forall₂ (fun b row => ∃ x, data[b]? = some x ∧ row = data.map (distance x)) p D := by
  intro m D hm h
  have hforall : ∀ (l : List Nat) (D : List (List K)), l.mapM (fun i => (match p[i]? with
        | none => .error .indexError
        | some b => match data[b]? with
          | none => .error .indexError
          | some pivot => .ok (data.map (distance pivot)) : Py (List K))) = .ok D →
      List.Forall₂ (fun i row => ∃ b x, p[i]? = some b ∧ data[b]? = some x ∧ row = data.map (distance x)) l D := by
    intro l
    induction l with
    | nil => intro D h; simp [pure, Except.pure] at h; subst h; exact .nil
    | cons i l ih =>
        intro D h
        rw [List.mapM_cons] at h
        match hp : p[i]? with
        | none => simp [hp, bind, Except.bind] at h
        | some b =>
          match hx : data[b]? with
          | none => simp [hp, hx, bind, Except.bind] at h
          | some x =>
            simp only [hp, hx, bind, Except.bind] at h
            split at h
            · simp at h
            · next D' hD' =>
              simp [pure, Except.pure] at h
              subst h
              exact .cons ⟨b, x, hp, hx, rfl⟩ (ih D' hD')
  have hf := hforall _ _ h
  have hlen : p.length = m := by
    by_contra hne
    have hlt : p.length < m := by omega
    have := List.forall₂_iff_get.1 hf
    obtain ⟨hl, hget⟩ := this
    obtain ⟨b, x, hb, _⟩ := hget p.length (by simpa using hlt) (by simpa [← hl] using hlt)
    simp at hb
  refine ⟨hlen, ?_⟩
  rw [List.forall₂_iff_get] at hf ⊢
  obtain ⟨hl, hget⟩ := hf
  refine ⟨by simpa [hlen] using hl, ?_⟩
  intro i h1 h2
  obtain ⟨b, x, hb, hx, hrow⟩ := hget i (by simp; omega) h2
  simp only [List.get_eq_getElem, List.getElem_range] at hb
  rw [List.getElem?_eq_getElem h1] at hb
  simp only [Option.some.injEq] at hb
  exact ⟨x, by simpa [hb] using hx, hrow⟩

theorem pivotSelection_ok {start : Nat} {ord : List Nat → List Nat} (hord : ∀ l, (ord l).Perm l) {data : List α}
    {pivots : Nat} {distance : α → α → K} {p : List Nat} {D : List (List K)}
    (h : pivotSelection start ord data pivots distance = .ok (p, D)) :
    p.length = pivots ∧ List.Forall₂ (fun b row => ∃ x, data[b]? = some x ∧ row = data.map (distance x)) p D := by
  unfold pivotSelection at h
  split at h
  · simp at h
  · match hq : findPivots distance data pivots [] (List.replicate data.length 0) start with
    | .error e => simp [hq, bind, Except.bind] at h
    | .ok q =>
      simp only [hq, bind, Except.bind] at h
      split at h
      · simp at h
      · next D' hD' =>
        simp only [pure, Except.pure, Except.ok.injEq, Prod.mk.injEq] at h
        obtain ⟨rfl, rfl⟩ := h
        have := findPivots_length _ _ _ _ _ _ _ hq
        exact mapM_rows pivots D' (by rw [(hord q).length_eq]; simpa using this) hD'

/-! ### The reported pairs -/

theorem foldl_min (f : α → K) (l : List α) : ∀ (acc : Option K),
    (∀ s, l.foldl (fun d_star pivot => match d_star with
      | none => some (f pivot)
      | some s => if f pivot < s then some (f pivot) else some s) acc = some s →
        (∀ x ∈ l, s ≤ f x) ∧ (∀ a, acc = some a → s ≤ a) ∧ (acc = some s ∨ ∃ x ∈ l, s = f x)) ∧
    (l.foldl (fun d_star pivot => match d_star with
      | none => some (f pivot)
      | some s => if f pivot < s then some (f pivot) else some s) acc = none → l = [] ∧ acc = none) := by
  induction l with
  | nil => intro acc; simp; grind
  | cons x l ih =>
      intro acc
      simp only [List.foldl_cons]
      match acc with
      | none =>
          obtain ⟨h1, h2⟩ := ih (some (f x))
          refine ⟨?_, fun h => absurd (h2 h).2 (by simp)⟩
          intro s hs
          obtain ⟨h3, h4, h5⟩ := h1 s hs
          have := h4 (f x) rfl
          simp at h5
          grind
      | some a =>
          by_cases hlt : f x < a
          · simp only [hlt, if_true]
            obtain ⟨h1, h2⟩ := ih (some (f x))
            refine ⟨?_, fun h => absurd (h2 h).2 (by simp)⟩
            intro s hs
            obtain ⟨h3, h4, h5⟩ := h1 s hs
            have := h4 (f x) rfl
            simp at h5
            have : s ≤ a := this.trans hlt.le
            grind
          · simp only [hlt, if_false]
            obtain ⟨h1, h2⟩ := ih (some a)
            refine ⟨?_, fun h => absurd (h2 h).2 (by simp)⟩
            intro s hs
            obtain ⟨h3, h4, h5⟩ := h1 s hs
            have := h4 a rfl
            have : s ≤ f x := this.trans (not_lt.1 hlt)
            grind

theorem dStar_spec (distance : α → α → K) (data : List α) (p : List Nat) (x : α) :
    (∀ s, dStar distance data p p.length x = some s →
      (∀ y, IsPivot data p y → s ≤ distance y x) ∧ ∃ y, IsPivot data p y ∧ s = distance y x) ∧
    (dStar distance data p p.length x = none → ∀ y, ¬ IsPivot data p y) := by
  have hmem : ∀ y, y ∈ (p.filterMap fun b => data[b]?) ↔ IsPivot data p y := by
    intro y; rw [List.mem_filterMap]; rfl
  obtain ⟨h1, h2⟩ := foldl_min (fun pivot => distance pivot x) (p.filterMap fun b => data[b]?) none
  unfold dStar
  rw [List.take_length]
  constructor
  · intro s hs
    obtain ⟨h3, _, h5⟩ := h1 s hs
    refine ⟨fun y hy => h3 y ((hmem y).2 hy), ?_⟩
    rcases h5 with h5 | ⟨y, hy, h5⟩
    · simp at h5
    · exact ⟨y, (hmem y).1 hy, h5⟩
  · intro hs y hy
    have := (h2 hs).1
    rw [← hmem, this] at hy
    simp at hy

theorem compute_iff {distance : α → α → K} {data : List α} {p : List Nat} {D : List (List K)}
    (hD : List.Forall₂ (fun b row => ∃ x, data[b]? = some x ∧ row = data.map (distance x)) p D) {i k : Nat} {a b : α}
    (hi : data[i]? = some a) (hk : data[k]? = some b) :
    compute D (dStar distance data p p.length a) i k = true ↔
      ∀ x y, IsPivot data p x → IsPivot data p y → |distance x a - distance x b| ≤ distance y a := by
  have hrow : ∀ row ∈ D, ∃ x, IsPivot data p x ∧ row.getD i 0 = distance x a ∧ row.getD k 0 = distance x b := by
    intro row hr
    obtain ⟨n, hn, rfl⟩ := List.getElem_of_mem hr
    obtain ⟨hl, hget⟩ := List.forall₂_iff_get.1 hD
    obtain ⟨x, hx, hrow⟩ := hget n (by omega) hn
    refine ⟨x, ⟨_, List.getElem_mem (by omega), hx⟩, ?_⟩
    simp only [List.get_eq_getElem] at hrow
    rw [hrow]
    simp [List.getD_eq_getElem?_getD, hi, hk]
  have hrow' : ∀ x, IsPivot data p x → ∃ row ∈ D, row.getD i 0 = distance x a ∧ row.getD k 0 = distance x b := by
    rintro x ⟨u, hu, hx⟩
    obtain ⟨n, hn, rfl⟩ := List.getElem_of_mem hu
    obtain ⟨hl, hget⟩ := List.forall₂_iff_get.1 hD
    obtain ⟨x', hx', hrow⟩ := hget n hn (by omega)
    simp only [List.get_eq_getElem] at hrow hx'
    rw [hx] at hx'
    obtain rfl := Option.some.inj hx'
    refine ⟨D[n]'(by omega), List.getElem_mem _, ?_⟩
    rw [hrow]
    simp [List.getD_eq_getElem?_getD, hi, hk]
  obtain ⟨h1, h2⟩ := dStar_spec distance data p a
  unfold compute
  rw [List.all_eq_true]
  match hs : dStar distance data p p.length a with
  | none => simp only [implies_true, true_iff]; exact fun x y hx => absurd hx (h2 hs x)
  | some s =>
      obtain ⟨h3, y0, hy0, h4⟩ := h1 s hs
      simp only [not_lt, decide_eq_true_eq]
      constructor
      · intro h x y hx hy
        obtain ⟨row, hr, e1, e2⟩ := hrow' x hx
        have := h row hr
        rw [e1, e2] at this
        exact this.trans (h3 y hy)
      · intro h row hr
        obtain ⟨x, hx, e1, e2⟩ := hrow row hr
        rw [e1, e2, h4]
        exact h x y0 hx hy0

/-- The pairs which are reported. -/
theorem mem_clustering {distance : α → α → K} {radius : K} {data : List α} {p : List Nat} {D : List (List K)}
    (hD : List.Forall₂ (fun b row => ∃ x, data[b]? = some x ∧ row = data.map (distance x)) p D) {a b : α} :
    (a, b) ∈ clustering distance radius data p.length p D ↔
      ∃ i k : Nat, i < k ∧ data[i]? = some a ∧ data[k]? = some b ∧ distance a b ≤ radius ∧
        ∀ x y, IsPivot data p x → IsPivot data p y → |distance x a - distance x b| ≤ distance y a := by
  unfold clustering
  simp only [List.mem_flatMap, List.mem_filterMap, Prod.exists]
  constructor
  · rintro ⟨x, i, hx, y, k, hy, h⟩
    rw [List.mem_zipIdx_iff_getElem?] at hx
    rw [List.mem_iff_getElem?] at hy
    obtain ⟨n, hn⟩ := hy
    rw [List.getElem?_drop, List.getElem?_zipIdx, Option.map_eq_some_iff] at hn
    obtain ⟨z, hz, hzz⟩ := hn
    simp only [Prod.mk.injEq] at hzz
    obtain ⟨rfl, rfl⟩ := hzz
    split at h
    · next hc =>
      split at h
      · next hr =>
        simp only [Option.some.injEq, Prod.mk.injEq] at h
        obtain ⟨rfl, rfl⟩ := h
        refine ⟨i, i + 1 + n, by omega, hx, hz, hr, ?_⟩
        rw [show 0 + (i + 1 + n) = i + 1 + n by omega] at hc
        exact (compute_iff hD hx hz).1 hc
      · simp at h
    · simp at h
  · rintro ⟨i, k, hik, hi, hk, hr, h⟩
    refine ⟨a, i, by rw [List.mem_zipIdx_iff_getElem?]; exact hi, b, k, ?_, ?_⟩
    · rw [List.mem_iff_getElem?]
      refine ⟨k - (i + 1), ?_⟩
      rw [List.getElem?_drop, List.getElem?_zipIdx, show i + 1 + (k - (i + 1)) = k by omega, hk]
      simp
    · rw [if_pos ((compute_iff hD hi hk).2 h), if_pos hr]

end Fog.Laesa
