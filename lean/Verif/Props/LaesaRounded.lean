import Verif.Lemmas.LaesaRounded
import Verif.Props.Laesa
import Verif.Props.DefaultsFloat

/-!
# Properties of laesa in double precision (C139)
-/

namespace Fog.Props

open Fog.ClusteringUtils Fog.LaesaRounded Fog.Spec

variable {α : Type} {fl lg : ℝ → ℝ}

/-- Rounding does not take a difference above a double which it does not exceed. -/
theorem abs_rounded_le (hfl : IsRounding fl) {x s : ℝ} (hs : IsDouble s) (h : |x| ≤ s) : |fl x| ≤ s := by
  rw [abs_le] at h ⊢
  have h1 := hfl.mono h.1
  have h2 := hfl.mono h.2
  rw [hfl.of_double hs.neg] at h1
  rw [hfl.of_double hs] at h2
  exact ⟨h1, h2⟩

/-- What `laesa` does once the number of pivots is known. -/
theorem laesa_rounded_eq [DecidableEq α] (hfl : IsRounding fl) (hlg : IsLog2 lg) {start : Nat} {ord : List Nat → List Nat}
    {gord : α → List α → List α} {data : List α} (hn : data.length ≤ 2 ^ 45) (hn0 : data.length ≠ 0) {distance : α → α → ℝ}
    {radius : ℝ} {pivots : Option Nat} {min : Nat} {max : Option Nat} {mode : Mode} :
    laesa fl lg start ord gord data distance radius pivots min max mode =
      (pivotSelection fl start ord data (pivots.getD (Nat.clog 2 data.length)) distance >>= fun (p, D) =>
        clustersFromPairs gord (clustering fl distance radius data (pivots.getD (Nat.clog 2 data.length)) p D) min max mode false) := by
  unfold laesa
  cases pivots with
  | none => simp only [LaesaFloat.choosePivots, hn0, if_false, log2_ceil hfl hlg (Nat.pos_of_ne_zero hn0) hn, Int.toNat_natCast]; rfl
  | some k => rfl

theorem laesa_rounded_empty [DecidableEq α] {start : Nat} {ord : List Nat → List Nat}
    {gord : α → List α → List α} {distance : α → α → ℝ}
    {radius : ℝ} {pivots : Option Nat} {min : Nat} {max : Option Nat} {mode : Mode} :
    laesa fl lg start ord gord [] distance radius pivots min max mode = .error .valueError := by
  cases pivots <;> rfl

theorem laesa_rounded_some [DecidableEq α] (hfl : IsRounding fl) (hlg : IsLog2 lg) {start : Nat} {ord : List Nat → List Nat}
    (hord : ∀ l, (ord l).Perm l)
    {gord : α → List α → List α} {data : List α} (hn : data.length ≤ 2 ^ 45) {distance : α → α → ℝ} {radius : ℝ} {pivots : Option Nat}
    {min : Nat} {max : Option Nat} {mode : Mode} {cs : List (List α)}
    (h : laesa fl lg start ord gord data distance radius pivots min max mode = .ok cs) :
    ∃ p D, pivotSelection fl start ord data (pivots.getD (Nat.clog 2 data.length)) distance = .ok (p, D) ∧
      p.length = pivots.getD (Nat.clog 2 data.length) ∧
      clustersFromPairs gord (clustering fl distance radius data p.length p D) min max mode false = .ok cs := by
  by_cases h0 : data.length = 0
  · rw [List.eq_nil_of_length_eq_zero h0, laesa_rounded_empty] at h
    cases h
  · rw [laesa_rounded_eq hfl hlg hn h0] at h
    match hp : pivotSelection fl start ord data (pivots.getD (Nat.clog 2 data.length)) distance with
    | .error e => simp [hp, bind, Except.bind] at h
    | .ok (p, D) =>
        have hl := (pivotSelection_ok hord hp).1
        refine ⟨p, D, rfl, hl, ?_⟩
        rw [hl]
        simpa [hp, bind, Except.bind] using h

/-! ### The pairs -/

/-- **C139**: in double precision, the clusters are the components of "two items of the data, the one before the
other, at a distance of at most `radius`, which no pivot tells apart by a rounded difference of more than the distance from the first item to its
nearest pivot". -/
theorem laesa_rounded_components [DecidableEq α] (hfl : IsRounding fl) (hlg : IsLog2 lg) (start : Nat) (ord : List Nat → List Nat) (hord : ∀ l, (ord l).Perm l)
    (gord : α → List α → List α) (hgord : ∀ a l, (gord a l).Perm l) (data : List α) (hn : data.length ≤ 2 ^ 45)
    (distance : α → α → ℝ) (radius : ℝ)
    (pivots : Option Nat) (min : Nat) (max : Option Nat) (cs : List (List α))
    (h : laesa fl lg start ord gord data distance radius pivots min max .connectedComponents = .ok cs) :
    ∃ p D, pivotSelection fl start ord data (pivots.getD (Nat.clog 2 data.length)) distance = .ok (p, D) ∧
      let Found := fun a b => ∃ i k : Nat, i < k ∧ data[i]? = some a ∧ data[k]? = some b ∧ distance a b ≤ radius ∧
        ∀ x y, IsPivot data p x → IsPivot data p y → |fl (distance x a - distance x b)| ≤ distance y a
      IsComponents (fun a b => Found a b ∨ Found b a) (fun a => ∃ b, Found a b ∨ Found b a) (SizeBetween min max) cs := by
  obtain ⟨p, D, hp, _, hc⟩ := laesa_rounded_some hfl hlg hord hn h
  refine ⟨p, D, hp, ?_⟩
  have hD := (pivotSelection_ok hord hp).2
  obtain ⟨cs', h1, h2⟩ := clusters_of_relation hgord (clustering fl distance radius data p.length p D) _
    (fun a b => by unfold Linked; rw [mem_clustering hD, mem_clustering hD]) min max false
  rw [hc] at h1
  obtain rfl := Except.ok.inj h1
  exact h2

/-- **C139**: the clusters of `laesa` are never too large: their items are linked by pairs of items of the data at a distance of at
most `radius`. -/
theorem laesa_rounded_sound [DecidableEq α] (hfl : IsRounding fl) (hlg : IsLog2 lg) (start : Nat) (ord : List Nat → List Nat) (hord : ∀ l, (ord l).Perm l)
    (gord : α → List α → List α) (hgord : ∀ a l, (gord a l).Perm l) (data : List α) (hn : data.length ≤ 2 ^ 45)
    (distance : α → α → ℝ)
    (hs : ∀ a b, distance a b = distance b a) (radius : ℝ)
    (pivots : Option Nat) (min : Nat) (max : Option Nat) (cs : List (List α))
    (h : laesa fl lg start ord gord data distance radius pivots min max .connectedComponents = .ok cs) :
    ∀ c ∈ cs, SizeBetween min max c.length ∧ c.Nodup ∧ ∃ a ∈ data, ∀ x ∈ c, Connected (fun a b => a ∈ data ∧ b ∈ data ∧ distance a b ≤ radius) a x := by
  obtain ⟨p, D, _, hcs⟩ := laesa_rounded_components hfl hlg start ord hord gord hgord data hn distance radius pivots min max cs h
  intro c hc
  obtain ⟨h1, a, ⟨b, hb⟩, h2, h3⟩ := hcs.sound c hc
  have hmem : ∀ {i : Nat} {x : α}, data[i]? = some x → x ∈ data := fun h => List.mem_of_getElem? h
  refine ⟨h1, h2, a, ?_, ?_⟩
  · rcases hb with ⟨i, k, _, hi, hk, _⟩ | ⟨i, k, _, hi, hk, _⟩
    · exact hmem hi
    · exact hmem hk
  · intro x hx
    have := (h3 x).1 hx
    clear hb h3 hx
    induction this with
    | refl => exact .refl _
    | step hr _ ih =>
        refine .step ?_ ih
        rcases hr with ⟨i, k, _, hi, hk, hd, _⟩ | ⟨i, k, _, hi, hk, hd, _⟩
        · exact ⟨hmem hi, hmem hk, hd⟩
        · exact ⟨hmem hk, hmem hi, hs _ _ ▸ hd⟩

/-- **C139**: with distances which are doubles and obey the triangle inequality, two close items are in the same cluster (if it has an accepted size) as soon as the first one is at least as far from
all pivots as from the second one. -/
theorem laesa_rounded_complete [DecidableEq α] (hfl : IsRounding fl) (hlg : IsLog2 lg) (start : Nat) (ord : List Nat → List Nat)
    (hord : ∀ l, (ord l).Perm l) (gord : α → List α → List α) (hgord : ∀ a l, (gord a l).Perm l) (data : List α)
    (hn : data.length ≤ 2 ^ 45) (distance : α → α → ℝ) (hdd : ∀ a b, IsDouble (distance a b)) (hd : IsPseudoMetric distance) (radius : ℝ) (pivots : Option Nat) (min : Nat)
    (cs : List (List α)) (h : laesa fl lg start ord gord data distance radius pivots min none .connectedComponents = .ok cs)
    (hmin : min ≤ 2) (i k : Nat) (hik : i < k) (a b : α) (ha : data[i]? = some a) (hb : data[k]? = some b) (hab : a ≠ b)
    (hr : distance a b ≤ radius) :
    ∃ p D, pivotSelection fl start ord data (pivots.getD (Nat.clog 2 data.length)) distance = .ok (p, D) ∧
      ((∀ x, IsPivot data p x → distance a b ≤ distance x a) → ∃ c ∈ cs, a ∈ c ∧ b ∈ c) := by
  obtain ⟨p, D, hp, hcs⟩ := laesa_rounded_components hfl hlg start ord hord gord hgord data hn distance radius pivots min none cs h
  refine ⟨p, D, hp, fun hpiv => ?_⟩
  obtain ⟨Found, hF⟩ : ∃ Found : α → α → Prop, Found = fun a b => ∃ i k : Nat, i < k ∧ data[i]? = some a ∧
    data[k]? = some b ∧ distance a b ≤ radius ∧
    ∀ x y, IsPivot data p x → IsPivot data p y → |fl (distance x a - distance x b)| ≤ distance y a := ⟨_, rfl⟩
  replace hcs : IsComponents (fun a b => Found a b ∨ Found b a) (fun a => ∃ b, Found a b ∨ Found b a)
      (SizeBetween min none) cs := by subst hF; exact hcs
  have hin : ∀ x y, Found x y → x ∈ data ∧ y ∈ data := by
    subst hF
    rintro x y ⟨i, k, _, hi, hk, _⟩
    exact ⟨List.mem_of_getElem? hi, List.mem_of_getElem? hk⟩
  have hab' : Found a b := by
    subst hF
    refine ⟨i, k, hik, ha, hb, hr, ?_⟩
    intro x y hx hy
    refine le_trans ?_ (hpiv y hy)
    refine abs_rounded_le hfl (hdd a b) ?_
    rw [abs_le]
    have h1 := hd.triangle x a b
    have h2 := hd.triangle x b a
    have h3 := hd.symm a b
    constructor <;> linarith
  clear hF
  have hsymm : ∀ x y, Found x y ∨ Found y x → Found y x ∨ Found x y := fun x y h => h.symm
  classical
  have hl : IsComponentOf (fun a b => Found a b ∨ Found b a) a
      (data.dedup.filter fun x => Connected (fun a b => Found a b ∨ Found b a) a x) := by
    refine ⟨(List.nodup_dedup _).filter _, ?_⟩
    intro x
    rw [List.mem_filter]
    simp only [List.mem_dedup, decide_eq_true_eq, and_iff_right_iff_imp]
    intro hc
    have hain := (hin _ _ hab').1
    clear hab' ha hab hr hpiv
    induction hc with
    | refl => exact hain
    | step hr _ ih => exact ih (hr.elim (fun h => (hin _ _ h).2) fun h => (hin _ _ h).1)
  have hbl : Connected (fun a b => Found a b ∨ Found b a) a b := .step (Or.inl hab') (.refl _)
  obtain ⟨c, hc, hac⟩ := hcs.complete a ⟨b, Or.inl hab'⟩ _ hl ⟨by
    have : [a, b] ⊆ data.dedup.filter fun x => Connected (fun a b => Found a b ∨ Found b a) a x := by
      intro x hx
      simp only [List.mem_cons, List.not_mem_nil, or_false] at hx
      rcases hx with rfl | rfl
      · exact (hl.2 _).2 (.refl _)
      · exact (hl.2 _).2 hbl
    have := (List.subperm_of_subset (by simp [hab]) this).length_le
    simp only [List.length_cons, List.length_nil] at this
    omega, by simp⟩
  obtain ⟨_, a', _, _, hc'⟩ := hcs.sound c hc
  exact ⟨c, hc, hac, (hc' b).2 (((hc' a).1 hac).trans hbl)⟩

/-- **C139**: the rounded filter loses no pair: those found with exact numbers, for the same pivots, are all found. -/
theorem laesa_rounded_keeps (hfl : IsRounding fl) (start : Nat) (ord : List Nat → List Nat) (hord : ∀ l, (ord l).Perm l)
    (data : List α) (pivots : Nat) (distance : α → α → ℝ) (hdd : ∀ a b, IsDouble (distance a b)) (radius : ℝ) (p : List Nat)
    (D : List (List ℝ)) (h : pivotSelection fl start ord data pivots distance = .ok (p, D)) (a b : α)
    (hab : (a, b) ∈ Laesa.clustering distance radius data pivots p D) : (a, b) ∈ clustering fl distance radius data pivots p D := by
  obtain ⟨hl, hD⟩ := pivotSelection_ok hord h
  rw [← hl] at hab ⊢
  rw [Laesa.mem_clustering hD] at hab
  rw [mem_clustering hD]
  obtain ⟨i, k, hik, hi, hk, hr, hall⟩ := hab
  exact ⟨i, k, hik, hi, hk, hr, fun x y hx hy => abs_rounded_le hfl (hdd y a) (hall x y hx hy)⟩

/-! ### The pivots -/

/-- **C139**: in double precision, when two items differ, with at most as many pivots as items, the pivots are chosen greedily: each
maximises, among the items not yet chosen, the rounded sum of the distances to the previous pivots and to the item drawn first; no
exception is raised. -/
theorem pivot_selection_rounded_greedy (hfl : IsRounding fl) (start : Nat) (ord : List Nat → List Nat)
    (hord : ∀ l, (ord l).Perm l) (data : List α) (hdiff : ∃ x ∈ data, ∃ y ∈ data, x ≠ y) (hstart : start < data.length)
    (distance : α → α → ℝ) (hself : ∀ a, distance a a = 0)
    (hpos : ∀ a b, a ≠ b → 0 < distance a b) (hdd : ∀ a b, IsDouble (distance a b)) (pivots : Nat) (hp : pivots ≤ data.length) (w : Nat → Nat → ℝ)
    (hw : ∀ (u j : Nat) (x y : α), data[u]? = some x → data[j]? = some y → w u j = distance x y) :
    ∃ p D, pivotSelection fl start ord data pivots distance = .ok (p, D) ∧ p.Nodup ∧ p.length = pivots ∧
      (∃ bs, p.Perm bs ∧ GreedyBy (fun used j => roundedSum fl (used.map fun u => w u j)) data.length [start] [] bs) ∧
      List.Forall₂ (fun b row => ∃ x, data[b]? = some x ∧ row = data.map (distance x)) p D := by
  obtain ⟨bs, h1, h2, h3, h4⟩ := LaesaRounded.findPivots_greedy hfl hself hpos hdd hdiff w hw pivots [] [] (List.replicate data.length 0) start
    (by simp) hstart (by simp) (by simp) (by simp) (by simpa using hp) (Or.inl ⟨rfl, rfl⟩)
    (by intro j hj _; simp [List.getD_eq_getElem?_getD, hj, roundedSum])
  simp only [List.nil_append] at h1 h3 h4
  have hlt : ∀ (bs used taken : List Nat), GreedyBy (fun used j => roundedSum fl (used.map fun u => w u j)) data.length used taken bs → ∀ b ∈ bs, b < data.length := by
    intro bs
    induction bs with
    | nil => simp
    | cons b bs ih =>
        rintro used taken ⟨⟨h, _⟩, h'⟩ c hc
        rcases List.mem_cons.1 hc with rfl | hc
        · exact h
        · exact ih _ _ h' c hc
  have hperm := hord bs
  have hlen : (ord bs).length = pivots := hperm.length_eq.trans h2
  obtain ⟨D, hD⟩ : ∃ D, (List.range pivots).mapM (fun i => (match (ord bs)[i]? with
        | none => .error .indexError
        | some b => match data[b]? with
          | none => .error .indexError
          | some pivot => .ok (data.map (distance pivot)) : Py (List ℝ))) = .ok D := by
    have : ∀ l : List Nat, (∀ i ∈ l, i < pivots) → ∃ D, l.mapM (fun i => (match (ord bs)[i]? with
        | none => .error .indexError
        | some b => match data[b]? with
          | none => .error .indexError
          | some pivot => .ok (data.map (distance pivot)) : Py (List ℝ))) = .ok D := by
      intro l
      induction l with
      | nil => intro _; exact ⟨[], rfl⟩
      | cons i l ih =>
          intro hi
          obtain ⟨D, hD⟩ := ih fun j hj => hi j (by simp [hj])
          have hi' : i < (ord bs).length := by rw [hlen]; exact hi i (by simp)
          have hb : (ord bs)[i] < data.length := hlt bs _ _ h4 _ (hperm.mem_iff.1 (List.getElem_mem hi'))
          refine ⟨data.map (distance data[(ord bs)[i]]) :: D, ?_⟩
          rw [List.mapM_cons, hD]
          simp [List.getElem?_eq_getElem hi', List.getElem?_eq_getElem hb, bind, Except.bind, pure, Except.pure]
    exact this _ (by simp)
  refine ⟨ord bs, D, ?_, hperm.nodup_iff.2 h3, hlen, ⟨bs, hperm, by simpa using h4⟩, (Laesa.mapM_rows pivots D hlen.le hD).2⟩
  have e : pivotSelection fl start ord data pivots distance = ((List.range pivots).mapM (fun i => (match (ord bs)[i]? with
        | none => .error .indexError
        | some b => match data[b]? with
          | none => .error .indexError
          | some pivot => .ok (data.map (distance pivot)) : Py (List ℝ))) >>= fun D => pure (ord bs, D)) := by
    unfold pivotSelection
    rw [if_neg (by omega), h1]
    rfl
  rw [e, hD]
  rfl

/-- `pivot_selection` does not raise exactly when there are enough items, and two of them differ or one pivot is enough. -/
theorem rounded_pivotSelection_total_iff (hfl : IsRounding fl) (start : Nat) (ord : List Nat → List Nat)
    (hord : ∀ l, (ord l).Perm l) (data : List α) (hstart : start < data.length)
    (distance : α → α → ℝ) (hself : ∀ a, distance a a = 0)
    (hpos : ∀ a b, a ≠ b → 0 < distance a b) (hdd : ∀ a b, IsDouble (distance a b)) (pivots : Nat) :
    (∃ r, pivotSelection fl start ord data pivots distance = .ok r) ↔
      pivots ≤ data.length ∧ (pivots ≤ 1 ∨ ∃ x ∈ data, ∃ y ∈ data, x ≠ y) := by
  have hrep : (List.replicate data.length (0 : ℝ)).length = data.length := by simp
  obtain ⟨q, hq, hnd, hlt⟩ := LaesaRounded.findPivots_total distance data pivots [] (List.replicate data.length 0) start hrep hstart (by simp)
    (by simp)
  have hn0 : data.length ≠ 0 := by omega
  constructor
  · rintro ⟨⟨p, D⟩, h⟩
    have hl := (pivotSelection_ok hord h).1
    have hpq : p.Perm q := by
      unfold pivotSelection at h
      rw [if_neg hn0, hq] at h
      simp only [bind, Except.bind] at h
      split at h
      · simp at h
      · simp only [pure, Except.pure, Except.ok.injEq, Prod.mk.injEq] at h
        rw [← h.1]
        exact hord q
    have hle : q.length ≤ data.length := by
      have := (List.subperm_of_subset hnd (fun t ht => List.mem_range.2 (hlt t ht))).length_le
      simpa using this
    refine ⟨by rw [← hl, hpq.length_eq]; exact hle, ?_⟩
    by_cases hdiff : ∃ x ∈ data, ∃ y ∈ data, x ≠ y
    · exact Or.inr hdiff
    · left
      have heq : ∀ x ∈ data, ∀ y ∈ data, x = y := by
        intro x hx y hy
        by_contra h
        exact hdiff ⟨x, hx, y, hy, h⟩
      rw [← hl, hpq.length_eq]
      exact LaesaRounded.findPivots_equal hfl distance hself data heq pivots [] _ start hrep hstart
        (by intro j hj; simp [List.getD_eq_getElem?_getD, hj]) (Or.inl rfl) q hq
  · rintro ⟨hle, h⟩
    rcases h with h | hdiff
    · have hcases : pivots = 0 ∨ pivots = 1 := by omega
      rcases hcases with rfl | rfl
      · refine ⟨(ord q, []), ?_⟩
        unfold pivotSelection
        rw [if_neg hn0, hq]
        rfl
      · have hql : q.length = 1 := by
          rw [findPivots, List.getElem?_eq_getElem hstart] at hq
          simp only [findPivots, Laesa.setAdd] at hq
          injection hq with hq
          rw [← hq]
          simp
        have hol : (ord q).length = 1 := (hord q).length_eq.trans hql
        obtain ⟨b, hb⟩ := List.length_eq_one_iff.1 hol
        have hbl : b < data.length := hlt b ((hord q).mem_iff.1 (by rw [hb]; simp))
        refine ⟨(ord q, [data.map (distance data[b])]), ?_⟩
        unfold pivotSelection
        rw [if_neg hn0, hq]
        simp [rows, bind, Except.bind, hb, List.getElem?_eq_getElem hbl, pure, Except.pure, List.range_succ]
    · have hdef : ∃ x, x ∈ data := ⟨_, List.getElem_mem hstart⟩
      obtain ⟨x0, _⟩ := hdef
      obtain ⟨p, D, h, _⟩ := pivot_selection_rounded_greedy hfl start ord hord data hdiff hstart distance hself hpos hdd pivots hle
        (fun u j => distance (data.getD u x0) (data.getD j x0))
        (by intro u j x y hx hy; simp [List.getD_eq_getElem?_getD, hx, hy])
      exact ⟨_, h⟩

theorem rounded_pivotSelection_error {start : Nat} {ord : List Nat → List Nat} {data : List α} (hstart : start < data.length)
    {distance : α → α → ℝ} {pivots : Nat} {e : PyErr} (h : pivotSelection fl start ord data pivots distance = .error e) :
    e = .indexError := by
  obtain ⟨q, hq, _, _⟩ := LaesaRounded.findPivots_total (fl := fl) distance data pivots [] (List.replicate data.length 0) start (by simp) hstart (by simp)
    (by simp)
  unfold pivotSelection at h
  rw [if_neg (by omega), hq] at h
  simp only [bind, Except.bind] at h
  split at h
  · next e' he' =>
      injection h with h
      subst h
      obtain ⟨_, i, _, _, _, hi⟩ := (mapM_error_iff _ _ _).mp he'
      repeat' split at hi
      all_goals first
        | (injection hi with hi; exact hi.symm)
        | cases hi
  · simp [pure, Except.pure] at h

/-- **C139**: in double precision, `laesa` raises exactly when it does with exact numbers, with distances which are zero between equal items only: on no data (`ValueError`); when there are more pivots than items, or at least two
pivots and only equal items (`IndexError`); when the mode is unknown (`TypeError`). -/
theorem laesa_rounded_raises_iff [DecidableEq α] (hfl : IsRounding fl) (hlg : IsLog2 lg) (start : Nat) (ord : List Nat → List Nat)
    (hord : ∀ l, (ord l).Perm l) (gord : α → List α → List α) (hgord : ∀ a l, (gord a l).Perm l) (data : List α) (hn : data.length ≤ 2 ^ 45)
    (hstart : data ≠ [] → start < data.length) (distance : α → α → ℝ) (hself : ∀ a, distance a a = 0)
    (hpos : ∀ a b, a ≠ b → 0 < distance a b) (hdd : ∀ a b, IsDouble (distance a b)) (radius : ℝ)
    (pivots : Option Nat) (min : Nat) (max : Option Nat) (mode : Mode) (e : PyErr) :
    let m := pivots.getD (Nat.clog 2 data.length)
    let Few := data.length < m ∨ (2 ≤ m ∧ ∀ x ∈ data, ∀ y ∈ data, x = y)
    laesa fl lg start ord gord data distance radius pivots min max mode = .error e ↔
      (data = [] ∧ e = .valueError) ∨ (data ≠ [] ∧ Few ∧ e = .indexError) ∨
      (data ≠ [] ∧ ¬ Few ∧ mode = .unknown ∧ e = .typeError) := by
  intro m Few
  by_cases h0 : data = []
  · subst h0
    have hl : laesa fl lg start ord gord ([] : List α) distance radius pivots min max mode = .error .valueError := by
      cases pivots <;> rfl
    rw [hl]
    simp [eq_comm]
  · have hs := hstart h0
    have hn0 : data.length ≠ 0 := by omega
    have hl : laesa fl lg start ord gord data distance radius pivots min max mode =
        (pivotSelection fl start ord data m distance >>= fun (p, D) =>
          clustersFromPairs gord (clustering fl distance radius data m p D) min max mode false) := by
      exact laesa_rounded_eq hfl hlg hn hn0
    have hfew : Few ↔ ¬ ∃ r, pivotSelection fl start ord data m distance = .ok r := by
      rw [rounded_pivotSelection_total_iff hfl start ord hord data hs distance hself hpos hdd m]
      simp only [Few]
      constructor
      · rintro (h | ⟨h, heq⟩) ⟨h1, h2⟩
        · omega
        · rcases h2 with h2 | ⟨x, hx, y, hy, hxy⟩
          · omega
          · exact hxy (heq x hx y hy)
      · intro h
        by_cases h1 : data.length < m
        · exact Or.inl h1
        · right
          constructor
          · by_contra h2
            exact h ⟨by omega, Or.inl (by omega)⟩
          · intro x hx y hy
            by_contra hxy
            exact h ⟨by omega, Or.inr ⟨x, hx, y, hy, hxy⟩⟩
    rw [hl]
    match hp : pivotSelection fl start ord data m distance with
    | .error e' =>
        have hf : Few := hfew.2 (by rintro ⟨r, hr⟩; rw [hp] at hr; cases hr)
        have he' := rounded_pivotSelection_error hs hp
        subst he'
        simp [h0, hf, bind, Except.bind, eq_comm]
    | .ok (p, D) =>
        have hf : ¬ Few := fun h => hfew.1 h ⟨_, hp⟩
        simp only [h0, hf, bind, Except.bind, false_and, and_false, false_or, not_false_eq_true, true_and, ne_eq]
        cases mode with
        | unknown => simp [clustersFromPairs, eq_comm]
        | fuzzyClusters => simp [clustersFromPairs]
        | connectedComponents =>
            obtain ⟨cs, hcs, _⟩ := clusters_of_relation hgord (clustering fl distance radius data m p D) _ (fun _ _ => Iff.rfl) min max false
            rw [hcs]
            simp


/-! ### Distances which are integers -/

/-- A turn adds integers without rounding. -/
theorem selTurn_integers (hfl : IsRounding fl) {distance : α → α → ℝ} {M k : Nat} (hk : (k + 1) * M ≤ 2 ^ 53)
    (hM : ∀ a b, ∃ n : Nat, n ≤ M ∧ distance a b = n) (p : List Nat) (pivot : α) (data : List α) :
    ∀ (j : Nat) (A : List ℝ) (best : Nat × ℝ), (∀ a ∈ A, ∃ n : Nat, n ≤ k * M ∧ a = n) →
      selTurn fl distance p pivot j data A best = Laesa.selTurn distance p pivot j data A best ∧
      ∀ a ∈ (Laesa.selTurn distance p pivot j data A best).1, ∃ n : Nat, n ≤ (k + 1) * M ∧ a = n := by
  have hweak : ∀ {A : List ℝ}, (∀ a ∈ A, ∃ n : Nat, n ≤ k * M ∧ a = n) → ∀ a ∈ A, ∃ n : Nat, n ≤ (k + 1) * M ∧ a = n := by
    intro A hA a ha
    obtain ⟨n, h1, h2⟩ := hA a ha
    exact ⟨n, h1.trans (Nat.mul_le_mul_right _ (by omega)), h2⟩
  induction data with
  | nil =>
      intro j A best hA
      constructor
      · simp [selTurn, Laesa.selTurn]
      · simpa [Laesa.selTurn] using hweak hA
  | cons item data ih =>
      intro j A best hA
      match A, hA with
      | [], hA => simp [selTurn, Laesa.selTurn]
      | a :: A, hA =>
        obtain ⟨n, hn, rfl⟩ := hA a (by simp)
        obtain ⟨m, hm, hd⟩ := hM pivot item
        have hA' : ∀ a ∈ A, ∃ n : Nat, n ≤ k * M ∧ a = n := fun a ha => hA a (by simp [ha])
        have hle : n + m ≤ (k + 1) * M := by rw [Nat.add_mul, Nat.one_mul]; omega
        have e : fl ((n : ℝ) + distance pivot item) = (n : ℝ) + distance pivot item := by
          rw [hd, ← Nat.cast_add]
          exact hfl.nat (hle.trans hk)
        by_cases hj : j ∈ p
        · obtain ⟨h1, h2⟩ := ih (j + 1) A best hA'
          simp only [selTurn, Laesa.selTurn, hj, if_true, h1, true_and]
          intro a ha
          rcases List.mem_cons.1 ha with rfl | ha
          · exact ⟨n, by omega, rfl⟩
          · exact h2 a ha
        · obtain ⟨h1, h2⟩ := ih (j + 1) A (if best.2 < (n : ℝ) + distance pivot item then (j, (n : ℝ) + distance pivot item) else best) hA'
          simp only [selTurn, Laesa.selTurn, hj, if_false, e, h1, true_and]
          intro a ha
          rcases List.mem_cons.1 ha with rfl | ha
          · exact ⟨n + m, hle, by rw [hd]; push_cast; rfl⟩
          · exact h2 a ha

theorem findPivots_integers (hfl : IsRounding fl) {distance : α → α → ℝ} {M : Nat}
    (hM : ∀ a b, ∃ n : Nat, n ≤ M ∧ distance a b = n) (data : List α) (turns : Nat) :
    ∀ (k : Nat) (p : List Nat) (A : List ℝ) (b : Nat), (k + turns) * M ≤ 2 ^ 53 → (∀ a ∈ A, ∃ n : Nat, n ≤ k * M ∧ a = n) →
      findPivots fl distance data turns p A b = Laesa.findPivots distance data turns p A b := by
  induction turns with
  | zero => intro k p A b _ _; rfl
  | succ turns ih =>
      intro k p A b hk hA
      rw [findPivots, Laesa.findPivots]
      cases data[b]? with
      | none => rfl
      | some pivot =>
          obtain ⟨h1, h2⟩ := selTurn_integers hfl (k := k)
            (le_trans (Nat.mul_le_mul_right _ (by omega)) hk) hM p pivot data 0 A (b, 0) hA
          simp only [h1]
          exact ih (k + 1) _ _ _ (by rwa [show k + 1 + turns = k + (turns + 1) by omega]) h2

/-- **C139**: with distances which are integers, whose sums over the pivots do not exceed `2 ^ 53`, the clusters are those which are found
with exact numbers, without any hypothesis on the pivots. -/
theorem laesa_rounded_integers [DecidableEq α] (hfl : IsRounding fl) (hlg : IsLog2 lg) (start : Nat) (ord : List Nat → List Nat)
    (hord : ∀ l, (ord l).Perm l) (gord : α → List α → List α) (data : List α) (hn : data.length ≤ 2 ^ 45)
    (distance : α → α → ℝ) (M : Nat) (hM : ∀ a b, ∃ n : Nat, n ≤ M ∧ distance a b = n) (radius : ℝ) (pivots : Option Nat)
    (hp : pivots.getD (Nat.clog 2 data.length) * M ≤ 2 ^ 53) (hp1 : M ≤ 2 ^ 53) (min : Nat) (max : Option Nat) (mode : Mode) :
    laesa fl lg start ord gord data distance radius pivots min max mode =
      Laesa.laesa start ord gord data distance radius pivots min max mode := by
  by_cases h0 : data.length = 0
  · rw [List.eq_nil_of_length_eq_zero h0, laesa_rounded_empty]
    cases pivots <;> rfl
  · rw [laesa_rounded_eq hfl hlg hn h0]
    have hl : Laesa.laesa start ord gord data distance radius pivots min max mode =
        (Laesa.pivotSelection start ord data (pivots.getD (Nat.clog 2 data.length)) distance >>= fun (p, D) =>
          clustersFromPairs gord (Laesa.clustering distance radius data (pivots.getD (Nat.clog 2 data.length)) p D) min max mode false) := by
      unfold Laesa.laesa
      cases pivots with
      | none => simp only [h0, if_false]; rfl
      | some k => rfl
    rw [hl]
    generalize pivots.getD (Nat.clog 2 data.length) = m at *
    have hsel : pivotSelection fl start ord data m distance = Laesa.pivotSelection start ord data m distance := by
      unfold pivotSelection Laesa.pivotSelection
      rw [findPivots_integers hfl hM data m 0 [] _ start (by simpa using hp)
        (by intro a ha; exact ⟨0, by simp, by simpa using (List.mem_replicate.1 ha).2⟩)]
      rfl
    rw [hsel]
    match hs : Laesa.pivotSelection start ord data m distance with
    | .error e => rfl
    | .ok (p, D) =>
        have hD := (Laesa.pivotSelection_ok hord hs).2
        have hcell : ∀ row ∈ D, ∀ i : Nat, ∃ n : Nat, n ≤ M ∧ row.getD i 0 = n := by
          intro row hrow i
          obtain ⟨u, hu, rfl⟩ := List.getElem_of_mem hrow
          obtain ⟨hl', hget⟩ := List.forall₂_iff_get.1 hD
          obtain ⟨x, _, hx⟩ := hget u (by omega) hu
          simp only [List.get_eq_getElem] at hx
          rw [hx, List.getD_eq_getElem?_getD, List.getElem?_map]
          cases data[i]? with
          | none => exact ⟨0, by simp, by simp⟩
          | some y => simpa using hM x y
        have hc : ∀ (d_star : Option ℝ) (i k : Nat), compute fl D d_star i k = Laesa.compute D d_star i k := by
          intro d_star i k
          unfold compute Laesa.compute
          rw [Bool.eq_iff_iff, List.all_eq_true, List.all_eq_true]
          refine forall_congr' fun row => forall_congr' fun hrow => ?_
          obtain ⟨u, hu, eu⟩ := hcell row hrow i
          obtain ⟨v, hv, ev⟩ := hcell row hrow k
          have e : fl (row.getD i 0 - row.getD k 0) = row.getD i 0 - row.getD k 0 := by
            rw [eu, ev]
            have := hfl.int (n := (u : ℤ) - (v : ℤ)) (by rw [abs_le]; constructor <;> omega)
            push_cast at this
            exact this
          simp only [e]
          cases d_star <;> simp
        show clustersFromPairs gord (clustering fl distance radius data m p D) min max mode false =
          clustersFromPairs gord (Laesa.clustering distance radius data m p D) min max mode false
        unfold clustering Laesa.clustering
        simp only [hc]

/-! ### Examples -/

/-- The distance of two integers, as a double. -/
noncomputable def integerDistance (a b : Fin 1000) : ℝ := |(a : ℝ) - (b : ℝ)|

theorem integerDistance_nat (a b : Fin 1000) : ∃ n : Nat, n ≤ 1000 ∧ integerDistance a b = n := by
  refine ⟨((a : ℤ) - (b : ℤ)).natAbs, by omega, ?_⟩
  unfold integerDistance
  rw [Nat.cast_natAbs]
  push_cast
  rfl

theorem integerDistance_metric : IsMetric integerDistance where
  self := by simp [integerDistance]
  symm := fun a b => abs_sub_comm _ _
  triangle := fun a b c => abs_sub_le _ _ _
  pos := fun a b h => abs_pos.2 (sub_ne_zero.2 fun h' => h (Fin.ext (by exact_mod_cast h')))

theorem integerDistance_double (a b : Fin 1000) : IsDouble (integerDistance a b) := by
  obtain ⟨n, hn, h⟩ := integerDistance_nat a b
  rw [h]
  exact isDouble_nat (by omega)

-- The hypotheses of the theorems are met by the distances between integers below one thousand.
example (start : Nat) (radius : ℝ) (data : List (Fin 1000)) (hn : data.length ≤ 2 ^ 40) :
    ∃ fl lg : ℝ → ℝ, IsRounding fl ∧ IsLog2 lg ∧
      laesa fl lg start id (fun _ l => l) data integerDistance radius none 2 none .connectedComponents =
        Laesa.laesa start id (fun _ l => l) data integerDistance radius none 2 none .connectedComponents := by
  obtain ⟨fl, hfl⟩ := exists_rounding
  have hlg := rounded_log2 hfl
  refine ⟨fl, _, hfl, hlg, ?_⟩
  have hc : Nat.clog 2 data.length ≤ 40 := (Nat.clog_le_iff_le_pow (by norm_num)).2 hn
  refine laesa_rounded_integers hfl hlg start id (fun _ => .refl _) _ data (hn.trans (by norm_num)) _ 1000 integerDistance_nat radius none
    ?_ (by norm_num) 2 none _
  simp only [Option.getD_none]
  omega

-- Three pivots among four different items are found, and two among three equal items are not.
example : ∃ fl : ℝ → ℝ, IsRounding fl ∧
    (∃ r, pivotSelection fl 0 id [0, 8, 1, 9] 3 integerDistance = .ok r) ∧
    ¬ ∃ r, pivotSelection fl 0 id [7, 7, 7] 2 integerDistance = .ok r := by
  obtain ⟨fl, hfl⟩ := exists_rounding
  refine ⟨fl, hfl, ?_, ?_⟩
  · refine (rounded_pivotSelection_total_iff hfl 0 id (fun _ => .refl _) [0, 8, 1, 9] (by simp) _ integerDistance_metric.self
      integerDistance_metric.pos integerDistance_double 3).2 ⟨by simp, Or.inr ⟨0, by simp, 8, by simp, by decide⟩⟩
  · rw [rounded_pivotSelection_total_iff hfl 0 id (fun _ => .refl _) [7, 7, 7] (by simp) _ integerDistance_metric.self
      integerDistance_metric.pos integerDistance_double 2]
    rintro ⟨_, h | ⟨x, hx, y, hy, hxy⟩⟩
    · omega
    · simp at hx hy
      exact hxy (hx.trans hy.symm)

-- Five items among which some are different: clusters are returned.
example (start : Nat) (hs : start < 5) (radius : ℝ) : ∃ fl lg : ℝ → ℝ, IsRounding fl ∧ IsLog2 lg ∧
    ∃ cs, laesa fl lg start id (fun _ l => l) [0, 1, 2, 5, 6] integerDistance radius none 2 none .connectedComponents = .ok cs := by
  obtain ⟨fl, hfl⟩ := exists_rounding
  have hlg := rounded_log2 hfl
  refine ⟨fl, _, hfl, hlg, ?_⟩
  match h : laesa fl (fun x => fl (Real.logb 2 x)) start id (fun _ l => l) [0, 1, 2, 5, 6] integerDistance radius none 2 none .connectedComponents with
  | .ok cs => exact ⟨cs, rfl⟩
  | .error e =>
      have hc : Nat.clog 2 5 = 3 := by decide +kernel
      rcases (laesa_rounded_raises_iff hfl hlg start id (fun _ => .refl _) (fun _ l => l) (fun _ _ => .refl _) [0, 1, 2, 5, 6] (by simp)
        (fun _ => hs) _ integerDistance_metric.self integerDistance_metric.pos integerDistance_double radius none 2 none _ e).1 h with
        ⟨h, _⟩ | ⟨_, h | ⟨_, h⟩, _⟩ | ⟨_, _, h, _⟩
      · simp at h
      · simp [hc] at h
      · exact absurd (h 0 (by simp) 1 (by simp)) (by decide)
      · cases h

end Fog.Props
