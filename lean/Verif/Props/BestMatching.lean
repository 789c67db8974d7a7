import Verif.Model.BestMatching
import Verif.Spec.Matching
import Verif.Props.EvaluationUtils
import Verif.Lemmas.Dedup
import Mathlib.Tactic.FieldSimp
import Mathlib.Tactic.Ring
import Mathlib.Tactic.Positivity
import Mathlib.Tactic.Linarith
import Mathlib.Algebra.Order.Field.Basic
import Mathlib.Data.List.Forall2
import Mathlib.Data.Rat.Cast.Order
import Mathlib.Algebra.Order.BigOperators.Group.List
import Mathlib.Algebra.BigOperators.Group.List.Basic

/-!
# C43: best matching clusters
-/

namespace Fog.Props

open BestMatching Spec Utils

variable {α : Type _} [DecidableEq α]

/-! ### Indexing predicted clusters -/

theorem indexItems_fold {T : List α} {q : α → Bool} (hq : ∀ x, q x = true ↔ x ∈ T) (allow : Bool) (i : Nat) :
    ∀ (c : List α) (d : Dict α Nat) (l : Nat), (Dict.keys d).Nodup →
    (((allow = false → ∀ x ∈ c, q x = true) ∧ (Dict.keys d ++ c.filter q).Nodup) →
      c.foldlM (indexItem T allow i) (d, l) = .ok (d ++ (c.filter q).map fun x => (x, i), l + (c.filter q).length)) ∧
    (¬ ((allow = false → ∀ x ∈ c, q x = true) ∧ (Dict.keys d ++ c.filter q).Nodup) →
      c.foldlM (indexItem T allow i) (d, l) = .error .typeError) := by
  intro c
  induction c with
  | nil =>
      intro d l hd
      refine ⟨fun _ => ?_, fun h => absurd ⟨by simp, by simpa using hd⟩ h⟩
      simp [pure, Except.pure]
  | cons x c ih =>
      intro d l hd
      rw [List.foldlM_cons]
      by_cases hx : q x = true
      · have hxT : x ∈ T := (hq x).mp hx
        rw [List.filter_cons_of_pos hx]
        by_cases hk : x ∈ Dict.keys d
        · have hs : (Dict.get? d x).isSome = true := by
            obtain ⟨v, hv⟩ := (Dict.mem_keys_iff d x).mp hk
            rw [hv]; rfl
          refine ⟨fun h => ?_, fun _ => ?_⟩
          · exfalso
            have := (List.nodup_append.mp h.2).2.2 x hk x (by simp)
            exact this rfl
          · simp [indexItem, hxT, hs, bind, Except.bind]
        · have hs : Dict.get? d x = none := (Dict.get?_eq_none_iff d x).mpr hk
          have hstep : indexItem T allow i (d, l) x = .ok (d ++ [(x, i)], l + 1) := by
            simp [indexItem, hxT, hs, set_append d x i hk]
          have hkeys : Dict.keys (d ++ [(x, i)]) = Dict.keys d ++ [x] := by simp [Dict.keys]
          have hnd : (Dict.keys (d ++ [(x, i)])).Nodup := by
            rw [hkeys, List.nodup_append]
            refine ⟨hd, by simp, ?_⟩
            intro a ha b hb
            rw [List.mem_singleton] at hb
            rintro rfl
            exact hk (hb ▸ ha)
          obtain ⟨h1, h2⟩ := ih (d ++ [(x, i)]) (l + 1) hnd
          have hiff : ((allow = false → ∀ y ∈ x :: c, q y = true) ∧ (Dict.keys d ++ x :: c.filter q).Nodup) ↔
              ((allow = false → ∀ y ∈ c, q y = true) ∧ (Dict.keys (d ++ [(x, i)]) ++ c.filter q).Nodup) := by
            rw [hkeys, List.append_assoc, List.singleton_append]
            simp [hx]
          rw [hiff, hstep]
          refine ⟨fun h => ?_, fun h => h2 h⟩
          refine (h1 h).trans ?_
          simp only [List.map_cons, List.length_cons, List.append_assoc, List.singleton_append]
          rw [show l + 1 + (c.filter q).length = l + ((c.filter q).length + 1) by omega]
      · have hxT : x ∉ T := fun h => hx ((hq x).mpr h)
        rw [List.filter_cons_of_neg hx]
        cases allow with
        | false =>
            refine ⟨fun h => absurd (h.1 rfl x (by simp)) hx, fun _ => ?_⟩
            simp [indexItem, hxT, bind, Except.bind]
        | true =>
            have hstep : indexItem T true i (d, l) x = .ok (d, l) := by simp [indexItem, hxT]
            rw [hstep]
            obtain ⟨h1, h2⟩ := ih d l hd
            refine ⟨fun h => h1 ⟨by simp, h.2⟩, fun h => h2 fun h' => h ⟨by simp, h'.2⟩⟩

theorem indexClusters_fold {T : List α} {q : α → Bool} (hq : ∀ x, q x = true ↔ x ∈ T) (allow : Bool) :
    ∀ (predicted : List (List α)) (k : Nat) (d : Dict α Nat) (s : Dict Nat Nat), (Dict.keys d).Nodup → (∀ j ∈ Dict.keys s, j < k) →
    (((∀ c ∈ predicted, c ≠ []) ∧ (allow = false → ∀ c ∈ predicted, ∀ x ∈ c, q x = true) ∧
        (Dict.keys d ++ predicted.flatten.filter q).Nodup) →
      (predicted.zipIdx k).foldlM (indexCluster T allow) (d, s) =
        .ok (d ++ partitionLabels id (predicted.map (List.filter q)) k,
          s ++ (predicted.zipIdx k).map fun p => (p.2, (p.1.filter q).length))) ∧
    (¬ ((∀ c ∈ predicted, c ≠ []) ∧ (allow = false → ∀ c ∈ predicted, ∀ x ∈ c, q x = true) ∧
        (Dict.keys d ++ predicted.flatten.filter q).Nodup) →
      (predicted.zipIdx k).foldlM (indexCluster T allow) (d, s) = .error .typeError) := by
  intro predicted
  induction predicted with
  | nil =>
      intro k d s hd _
      refine ⟨fun _ => ?_, fun h => absurd ⟨by simp, by simp, by simpa using hd⟩ h⟩
      simp [partitionLabels, pure, Except.pure]
  | cons c predicted ih =>
      intro k d s hd hs
      rw [List.zipIdx_cons, List.foldlM_cons]
      by_cases hc : c = []
      · subst hc
        refine ⟨fun h => absurd rfl (h.1 [] (by simp)), fun _ => ?_⟩
        simp [indexCluster, bind, Except.bind]
      · obtain ⟨g1, g2⟩ := indexItems_fold hq allow k c d 0 hd
        by_cases hgood : (allow = false → ∀ x ∈ c, q x = true) ∧ (Dict.keys d ++ c.filter q).Nodup
        · have hstep : indexCluster T allow (d, s) (c, k) =
              .ok (d ++ (c.filter q).map fun x => (x, k), s ++ [(k, (c.filter q).length)]) := by
            unfold indexCluster
            simp only [hc, if_false]
            rw [g1 hgood]
            simp only [Nat.zero_add]
            rw [set_append s k _ (fun h => Nat.lt_irrefl k (hs k h))]
          have hkeys : Dict.keys (d ++ (c.filter q).map fun x => (x, k)) = Dict.keys d ++ c.filter q := by
            simp [Dict.keys, Function.comp_def]
          rw [hstep]
          obtain ⟨h1, h2⟩ := ih (k + 1) (d ++ (c.filter q).map fun x => (x, k)) (s ++ [(k, (c.filter q).length)])
            (by rw [hkeys]; exact hgood.2) (by
              intro j hj
              rw [show Dict.keys (s ++ [(k, (c.filter q).length)]) = Dict.keys s ++ [k] by simp [Dict.keys]] at hj
              rcases List.mem_append.mp hj with h | h
              · exact Nat.lt_succ_of_lt (hs j h)
              · rw [List.mem_singleton.mp h]; exact Nat.lt_succ_self k)
          have hiff : ((∀ c' ∈ c :: predicted, c' ≠ []) ∧ (allow = false → ∀ c' ∈ c :: predicted, ∀ x ∈ c', q x = true) ∧
              (Dict.keys d ++ (c :: predicted).flatten.filter q).Nodup) ↔
            ((∀ c ∈ predicted, c ≠ []) ∧ (allow = false → ∀ c ∈ predicted, ∀ x ∈ c, q x = true) ∧
              (Dict.keys (d ++ (c.filter q).map fun x => (x, k)) ++ predicted.flatten.filter q).Nodup) := by
            rw [hkeys, List.flatten_cons, List.filter_append, List.append_assoc]
            constructor
            · rintro ⟨a1, a2, a3⟩
              exact ⟨fun c' h => a1 c' (by simp [h]), fun ha c' h => a2 ha c' (by simp [h]), a3⟩
            · rintro ⟨a1, a2, a3⟩
              refine ⟨fun c' h => ?_, fun ha c' h => ?_, a3⟩
              · rcases List.mem_cons.mp h with rfl | h
                · exact hc
                · exact a1 c' h
              · rcases List.mem_cons.mp h with rfl | h
                · exact hgood.1 ha
                · exact a2 ha c' h
          rw [hiff]
          refine ⟨fun h => ?_, fun h => h2 h⟩
          refine (h1 h).trans ?_
          simp [partitionLabels, List.zipIdx_cons, List.append_assoc]
        · have hstep : indexCluster T allow (d, s) (c, k) = .error .typeError := by
            unfold indexCluster
            simp only [hc, if_false]
            rw [g2 hgood]
          rw [hstep]
          refine ⟨fun h => absurd ⟨fun ha x hx => h.2.1 ha c (by simp) x hx, ?_⟩ hgood, fun _ => rfl⟩
          have h3 := h.2.2
          rw [List.flatten_cons, List.filter_append, ← List.append_assoc] at h3
          exact (List.nodup_append.mp h3).1

/-! ### Counting candidates -/

theorem countItems_fold (index : Dict α Nat) : ∀ (t : List α) (d : Dict Nat Nat) (n : Nat),
    ((∀ x ∈ t, x ∈ Dict.keys index) → t.foldlM (countItem index) (d, n) =
      .ok ((t.filterMap index.get?).foldl (fun c k => Dict.update c k 0 (· + 1)) d, n + t.length)) ∧
    (¬ (∀ x ∈ t, x ∈ Dict.keys index) → t.foldlM (countItem index) (d, n) = .error .typeError) := by
  intro t
  induction t with
  | nil => intro d n; exact ⟨fun _ => rfl, fun h => absurd (by simp) h⟩
  | cons x t ih =>
      intro d n
      rw [List.foldlM_cons]
      by_cases hx : x ∈ Dict.keys index
      · obtain ⟨v, hv⟩ := (Dict.mem_keys_iff index x).mp hx
        have hstep : countItem index (d, n) x = .ok (Dict.update d v 0 (· + 1), n + 1) := by
          unfold countItem; rw [hv]
        rw [hstep, List.filterMap_cons_some hv, List.foldl_cons]
        obtain ⟨h1, h2⟩ := ih (Dict.update d v 0 (· + 1)) (n + 1)
        refine ⟨fun h => ?_, fun h => h2 fun h' => h fun y hy => ?_⟩
        · refine (h1 fun y hy => h y (by simp [hy])).trans ?_
          rw [List.length_cons, show n + 1 + t.length = n + (t.length + 1) by omega]
        · rcases List.mem_cons.mp hy with rfl | hy
          · exact hx
          · exact h' y hy
      · have hv := (Dict.get?_eq_none_iff index x).mpr hx
        have hstep : countItem index (d, n) x = .error .typeError := by
          unfold countItem; rw [hv]
        rw [hstep]
        exact ⟨fun h => absurd (h x (by simp)) hx, fun _ => rfl⟩

theorem nat_counter_spec (A : List Nat) :
    (Dict.keys (A.foldl (fun c k => Dict.update c k 0 (· + 1)) ([] : Dict Nat Nat))).Nodup ∧
    ∀ k v, Dict.get? (A.foldl (fun c k => Dict.update c k 0 (· + 1)) ([] : Dict Nat Nat)) k = some v ↔ k ∈ A ∧ v = A.count k := by
  have h : ∀ (l : List Nat) (d : Dict Nat Nat), (Dict.keys d).Nodup →
      (Dict.keys (l.foldl (fun c k => Dict.update c k 0 (· + 1)) d)).Nodup ∧
      ∀ k, Dict.get? (l.foldl (fun c k => Dict.update c k 0 (· + 1)) d) k =
        if k ∈ l then some ((Dict.get? d k).getD 0 + l.count k) else Dict.get? d k := by
    intro l
    induction l with
    | nil => intro d hd; exact ⟨hd, by simp⟩
    | cons a l ih =>
        intro d hd
        rw [List.foldl_cons]
        obtain ⟨h1, h2⟩ := ih (Dict.update d a 0 (· + 1)) (Dict.nodup_keys_update hd _ _ _)
        refine ⟨h1, fun k => ?_⟩
        rw [h2 k, Dict.get?_update]
        by_cases hak : a = k
        · subst hak
          by_cases hkl : a ∈ l
          · simp [hkl]; omega
          · simp [hkl, List.count_eq_zero.mpr hkl]
        · rw [if_neg hak, List.count_cons_of_ne hak]
          simp [Ne.symm hak]
  obtain ⟨h1, h2⟩ := h A [] (by simp [Dict.keys])
  refine ⟨h1, fun k v => ?_⟩
  rw [h2 k]
  by_cases hk : k ∈ A
  · simp [hk, Dict.get?, eq_comm]
  · simp [hk, Dict.get?]

theorem nat_counter_keys (A : List Nat) :
    Dict.keys (A.foldl (fun c k => Dict.update c k 0 (· + 1)) ([] : Dict Nat Nat)) = firsts A := by
  induction A using KeyCollision.snoc_ind with
  | nil => rfl
  | snoc A a ih =>
      rw [List.foldl_append, List.foldl_cons, List.foldl_nil, Dict.keys_update, ih, KeyCollision.firsts_append_singleton]
      simp only [KeyCollision.mem_firsts]

theorem firsts_split {β : Type _} [DecidableEq β] : ∀ {A l1 l2 : List β} {i : β}, firsts A = l1 ++ i :: l2 →
    ∃ pre post, A = pre ++ i :: post ∧ ∀ y ∈ pre, y ∈ l1 := by
  intro A
  induction A with
  | nil => intro l1 l2 i h; simp [firsts] at h
  | cons a A ih =>
      intro l1 l2 i h
      rw [firsts] at h
      cases l1 with
      | nil =>
          simp only [List.nil_append, List.cons.injEq] at h
          exact ⟨[], A, by rw [h.1]; rfl, by simp⟩
      | cons b l1 =>
          simp only [List.cons_append, List.cons.injEq] at h
          obtain ⟨rfl, h⟩ := h
          obtain ⟨u, v', huv, hu, hv⟩ := List.filter_eq_append_iff.mp h
          obtain ⟨w, v, hv', hw, _, _⟩ := List.filter_eq_cons_iff.mp hv
          obtain ⟨pre, post, hA, hpre⟩ := ih (l1 := u ++ w) (l2 := v) (i := i) (by rw [huv, hv', List.append_assoc])
          refine ⟨a :: pre, post, by rw [hA]; rfl, ?_⟩
          intro y hy
          rcases List.mem_cons.mp hy with rfl | hy
          · simp
          · by_cases hya : y = a
            · simp [hya]
            · rcases List.mem_append.mp (hpre y hy) with hy' | hy'
              · rw [List.mem_cons]; right
                rw [← hu]
                exact List.mem_filter.mpr ⟨hy', by simpa using hya⟩
              · exfalso
                exact hw y hy' (by simpa using hya)

/-! ### Choosing a candidate -/

theorem tryCandidate_eq {sizes : Dict Nat Nat} {n i m size : Nat} (st : Rat × Option Scores) (hs : sizes.get? i = some size)
    (hm : 0 < m) (hsize : 0 < size) (hn : 0 < n) :
    tryCandidate sizes n st (i, m) = .ok (if st.1 < 2 * m / (n + size) then
      (2 * (m : Rat) / (n + size), some ((m : Rat) / size, (m : Rat) / n, 2 * (m : Rat) / (n + size))) else st) := by
  have hm' : (0 : Rat) < m := by exact_mod_cast hm
  have hs' : (0 : Rat) < size := by exact_mod_cast hsize
  have hn' : (0 : Rat) < n := by exact_mod_cast hn
  have e1 : ((m : Rat) + ((size : Rat) - m)) = size := by ring
  have e2 : ((m : Rat) + ((n : Rat) - m)) = n := by ring
  have e3 : 2 * ((m : Rat) / size) * ((m : Rat) / n) / ((m : Rat) / size + (m : Rat) / n) = 2 * m / (n + size) := by
    field_simp
  have e4 : ((m : Rat) / size + (m : Rat) / n) ≠ 0 := by positivity
  unfold tryCandidate
  simp only [hs, e1, e2, div, if_neg hs'.ne', if_neg hn'.ne', bind, Except.bind, if_neg e4, e3]
  split <;> rfl

theorem candidates_fold {sizes : Dict Nat Nat} {n : Nat} (hn : 0 < n) (size : Nat → Nat) :
    ∀ (cands : List (Nat × Nat)), (∀ p ∈ cands, sizes.get? p.1 = some (size p.1) ∧ 0 < p.2 ∧ 0 < size p.1) →
    ∀ st : Rat × Option Scores,
    ∃ r, cands.foldlM (tryCandidate sizes n) st = .ok r ∧
      (r = st ∨ ∃ l1 p l2, cands = l1 ++ p :: l2 ∧ (∀ p' ∈ l1, 2 * (p'.2 : Rat) / (n + size p'.1) < 2 * (p.2 : Rat) / (n + size p.1)) ∧
        st.1 < 2 * (p.2 : Rat) / (n + size p.1) ∧ r = (2 * (p.2 : Rat) / (n + size p.1),
        some ((p.2 : Rat) / size p.1, (p.2 : Rat) / n, 2 * (p.2 : Rat) / (n + size p.1)))) ∧
      st.1 ≤ r.1 ∧ ∀ p ∈ cands, 2 * (p.2 : Rat) / (n + size p.1) ≤ r.1 := by
  intro cands
  induction cands with
  | nil => intro _ st; exact ⟨st, rfl, Or.inl rfl, le_refl _, by simp⟩
  | cons p cands ih =>
      obtain ⟨i, m⟩ := p
      intro h st
      obtain ⟨h1, h2, h3⟩ := h (i, m) (by simp)
      rw [List.foldlM_cons, tryCandidate_eq st h1 h2 h3 hn]
      simp only at h1 h2 h3
      obtain ⟨r, hr, hc, hle, hall⟩ := ih (fun p hp => h p (by simp [hp]))
        (if st.1 < 2 * m / (n + size i) then
          (2 * (m : Rat) / (n + size i), some ((m : Rat) / size i, (m : Rat) / n, 2 * (m : Rat) / (n + size i))) else st)
      refine ⟨r, hr, ?_, ?_, ?_⟩
      · rcases hc with hc | ⟨l1, p, l2, hp, hl1, hst, hc⟩
        · split at hc
          · next hlt => exact Or.inr ⟨[], (i, m), cands, rfl, by simp, hlt, hc⟩
          · exact Or.inl hc
        · refine Or.inr ⟨(i, m) :: l1, p, l2, by rw [hp]; rfl, ?_, ?_, hc⟩
          · intro p' hp'
            rcases List.mem_cons.mp hp' with rfl | hp'
            · split at hst
              · exact hst
              · next hlt => exact lt_of_le_of_lt (not_lt.mp hlt) hst
            · exact hl1 p' hp'
          · split at hst
            · next hlt => exact lt_trans hlt hst
            · exact hst
      · split at hle
        · next hlt => exact le_trans hlt.le hle
        · exact hle
      · intro p hp
        rcases List.mem_cons.mp hp with rfl | hp
        · split at hle
          · exact hle
          · next hlt => exact le_trans (not_lt.mp hlt) hle
        · exact hall p hp

/-! ### One truth cluster -/

/-- Whether an item is in the truth. -/
def inTruth (truth : List (List α)) (x : α) : Bool := decide (∃ t ∈ truth, x ∈ t)

/-- The index of predicted clusters. -/
def indexOf (truth predicted : List (List α)) : Dict α Nat := partitionLabels id (predicted.map (List.filter (inTruth truth))) 0

/-- The sizes of predicted clusters. -/
def sizesOf (truth predicted : List (List α)) : Dict Nat Nat :=
  predicted.zipIdx.map fun p => (p.2, (p.1.filter (inTruth truth)).length)

theorem keys_indexOf (truth predicted : List (List α)) :
    Dict.keys (indexOf truth predicted) = predicted.flatten.filter (inTruth truth) := by
  unfold indexOf
  rw [keys_partitionLabels, List.map_id, List.filter_flatten]

theorem get?_indexOf {truth predicted : List (List α)} (hn : (predicted.flatten.filter (inTruth truth)).Nodup) (x : α) (i : Nat) :
    (indexOf truth predicted).get? x = some i ↔ ∃ c, predicted[i]? = some c ∧ x ∈ c ∧ inTruth truth x = true := by
  rw [← Dict.mem_iff_get? (by rw [keys_indexOf]; exact hn)]
  unfold indexOf
  rw [mem_partitionLabels]
  simp only [Nat.zero_le, true_and, Nat.sub_zero, List.map_id, List.getElem?_map, Option.map_eq_some_iff]
  constructor
  · rintro ⟨c, ⟨c', h, rfl⟩, hx⟩
    exact ⟨c', h, (List.mem_filter.mp hx).1, (List.mem_filter.mp hx).2⟩
  · rintro ⟨c, h, hx⟩
    exact ⟨_, ⟨c, h, rfl⟩, List.mem_filter.mpr hx⟩

theorem get?_sizesOf (truth predicted : List (List α)) (i : Nat) (c : List α) (h : predicted[i]? = some c) :
    (sizesOf truth predicted).get? i = some (known truth c) := by
  have hk : Dict.keys (sizesOf truth predicted) = List.range predicted.length := by
    unfold sizesOf Dict.keys
    rw [List.map_map]
    have : (Prod.fst ∘ fun p : List α × Nat => (p.2, (p.1.filter (inTruth truth)).length)) = Prod.snd := rfl
    rw [this, List.zipIdx_map_snd, List.range_eq_range']
  apply Dict.get?_of_mem (by rw [hk]; exact List.nodup_range)
  unfold sizesOf
  refine List.mem_map.mpr ⟨(c, i), ?_, rfl⟩
  rw [List.mem_zipIdx_iff_getElem?]
  exact h

theorem matchCluster_eq {truth predicted : List (List α)} (hn : (predicted.flatten.filter (inTruth truth)).Nodup) {t : List α}
    (ht : t ∈ truth) (hne : t ≠ []) (hcov : ∀ x ∈ t, ∃ c ∈ predicted, x ∈ c) :
    ∃ c, IsFirstBest truth predicted t c ∧ matchCluster (indexOf truth predicted) (sizesOf truth predicted) t =
      .ok (precision truth t c, recall t c, f1 truth t c) := by
  have hin : ∀ x ∈ t, inTruth truth x = true := fun x hx => decide_eq_true ⟨t, ht, hx⟩
  obtain ⟨hc1, _⟩ := countItems_fold (indexOf truth predicted) t [] 0
  have hkeys : ∀ x ∈ t, x ∈ Dict.keys (indexOf truth predicted) := by
    intro x hx
    rw [keys_indexOf, List.mem_filter, List.mem_flatten]
    exact ⟨hcov x hx, hin x hx⟩
  have hc1 := hc1 hkeys
  obtain ⟨hnd, hget⟩ := nat_counter_spec (t.filterMap (indexOf truth predicted).get?)
  generalize hA : (t.filterMap (indexOf truth predicted).get?).foldl (fun c k => Dict.update c k 0 (· + 1)) ([] : Dict Nat Nat) = cands
    at hc1 hnd hget
  have hcount : ∀ i c, predicted[i]? = some c → (t.filterMap (indexOf truth predicted).get?).count i = hits t c := by
    intro i c hi
    rw [List.count_eq_countP, List.countP_filterMap, hits, ← List.countP_eq_length_filter]
    apply List.countP_congr
    intro x hx
    have hxq := hin x hx
    simp only [decide_eq_true_eq]
    have hg := get?_indexOf hn x i
    constructor
    · intro h
      cases hv : (indexOf truth predicted).get? x with
      | none => rw [hv] at h; simp at h
      | some v =>
          rw [hv] at h
          have : v = i := by simpa using h
          subst this
          obtain ⟨c', hc', hx', _⟩ := hg.mp hv
          rw [hi] at hc'
          injection hc' with hc'
          subst hc'
          exact hx'
    · intro h
      rw [hg.mpr ⟨c, hi, h, hxq⟩]
      simp
  have hmem : ∀ i, i ∈ t.filterMap (indexOf truth predicted).get? ↔ ∃ c, predicted[i]? = some c ∧ 0 < hits t c := by
    intro i
    constructor
    · intro h
      obtain ⟨x, hx, hxi⟩ := List.mem_filterMap.mp h
      obtain ⟨c, hc, hxc, _⟩ := (get?_indexOf hn x i).mp hxi
      refine ⟨c, hc, ?_⟩
      rw [hits, List.length_pos_iff_exists_mem]
      exact ⟨x, List.mem_filter.mpr ⟨hx, decide_eq_true hxc⟩⟩
    · rintro ⟨c, hc, hh⟩
      rw [hits, List.length_pos_iff_exists_mem] at hh
      obtain ⟨x, hx⟩ := hh
      obtain ⟨hx, hxc⟩ := List.mem_filter.mp hx
      exact List.mem_filterMap.mpr ⟨x, hx, (get?_indexOf hn x i).mpr ⟨c, hc, of_decide_eq_true hxc, hin x hx⟩⟩
  have hknown : ∀ c, 0 < hits t c → 0 < known truth c := by
    intro c hh
    rw [hits, List.length_pos_iff_exists_mem] at hh
    obtain ⟨x, hx⟩ := hh
    obtain ⟨hx, hxc⟩ := List.mem_filter.mp hx
    rw [known, List.length_pos_iff_exists_mem]
    exact ⟨x, List.mem_filter.mpr ⟨of_decide_eq_true hxc, hin x hx⟩⟩
  have hn0 : 0 < t.length := List.length_pos_iff.mpr hne
  have hcand : ∀ p ∈ cands, ∃ c, predicted[p.1]? = some c ∧ p.2 = hits t c ∧ 0 < hits t c := by
    intro p hp
    obtain ⟨h1, h2⟩ := (hget p.1 p.2).mp (Dict.get?_of_mem hnd hp)
    obtain ⟨c, hc, hh⟩ := (hmem p.1).mp h1
    exact ⟨c, hc, h2.trans (hcount _ c hc), hh⟩
  obtain ⟨r, hr, hcase, hge, hall⟩ := candidates_fold (sizes := sizesOf truth predicted) hn0
    (fun i => known truth (predicted.getD i [])) cands (by
      intro p hp
      obtain ⟨c, hc, h2, hh⟩ := hcand p hp
      have : predicted.getD p.1 [] = c := by rw [List.getD_eq_getElem?_getD, hc]; rfl
      rw [this]
      exact ⟨get?_sizesOf truth predicted p.1 c hc, h2 ▸ hh, hknown c hh⟩) (-1, none)
  have hf0 : ∀ c, 0 ≤ f1 truth t c := by intro c; unfold f1; positivity
  -- there is a candidate
  have hex : ∃ p, p ∈ cands := by
    obtain ⟨x, hx⟩ := List.exists_mem_of_ne_nil t hne
    obtain ⟨c, hc, hxc⟩ := hcov x hx
    obtain ⟨i, hi⟩ := List.getElem?_of_mem hc
    have : 0 < hits t c := by
      rw [hits, List.length_pos_iff_exists_mem]
      exact ⟨x, List.mem_filter.mpr ⟨hx, decide_eq_true hxc⟩⟩
    exact ⟨_, Dict.mem_of_get? ((hget i _).mpr ⟨(hmem i).mpr ⟨c, hi, this⟩, rfl⟩)⟩
  obtain ⟨l1, p, l2, hsplit, hl1, _, hrp⟩ : ∃ l1 p l2, cands = l1 ++ p :: l2 ∧
      (∀ p' ∈ l1, 2 * (p'.2 : Rat) / (t.length + known truth (predicted.getD p'.1 [])) <
        2 * (p.2 : Rat) / (t.length + known truth (predicted.getD p.1 []))) ∧
      (-1 : Rat) < 2 * (p.2 : Rat) / (t.length + known truth (predicted.getD p.1 [])) ∧ r = (2 * (p.2 : Rat) / (t.length + known truth (predicted.getD p.1 [])),
        some ((p.2 : Rat) / known truth (predicted.getD p.1 []), (p.2 : Rat) / t.length,
          2 * (p.2 : Rat) / (t.length + known truth (predicted.getD p.1 [])))) := by
    rcases hcase with h | h
    · exfalso
      obtain ⟨p, hp⟩ := hex
      have h1 := hall p hp
      rw [h] at h1
      have h2 : (0 : Rat) ≤ 2 * (p.2 : Rat) / (t.length + known truth (predicted.getD p.1 [])) := by positivity
      have := le_trans h2 h1
      norm_num at this
    · exact h
  have hp : p ∈ cands := by rw [hsplit]; simp
  obtain ⟨c, hc, h2, hh⟩ := hcand p hp
  have hgetD : predicted.getD p.1 [] = c := by rw [List.getD_eq_getElem?_getD, hc]; rfl
  rw [hgetD, h2] at hrp
  refine ⟨c, ⟨⟨List.mem_of_getElem? hc, hh, ?_⟩, ?_⟩, ?_⟩
  · intro c' hc'
    by_cases hz : hits t c' = 0
    · have : f1 truth t c' = 0 := by simp [f1, hz]
      rw [this]; exact hf0 c
    · obtain ⟨i, hi⟩ := List.getElem?_of_mem hc'
      have hp' : (i, hits t c') ∈ cands :=
        Dict.mem_of_get? ((hget i _).mpr ⟨(hmem i).mpr ⟨c', hi, Nat.pos_of_ne_zero hz⟩, (hcount i c' hi).symm⟩)
      have := hall _ hp'
      have hgetD' : predicted.getD i [] = c' := by rw [List.getD_eq_getElem?_getD, hi]; rfl
      rw [hrp, hgetD'] at this
      exact this
  · have hfirst : firsts (t.filterMap (indexOf truth predicted).get?) = l1.map Prod.fst ++ p.1 :: l2.map Prod.fst := by
      rw [← nat_counter_keys, hA, hsplit]
      simp [Dict.keys]
    obtain ⟨pre, post, hpp, hpre⟩ := firsts_split hfirst
    obtain ⟨t1, t2', ht12, ht1, ht2⟩ := List.filterMap_eq_append_iff.mp hpp
    obtain ⟨w, x, t2, ht2', hw, hx, _⟩ := List.filterMap_eq_cons_iff.mp ht2
    have hxc : x ∈ c := by
      obtain ⟨c', hc', hx', _⟩ := (get?_indexOf hn x p.1).mp hx
      rw [hc] at hc'
      injection hc' with hc'
      rw [hc']; exact hx'
    refine ⟨t1 ++ w, x, t2, by rw [ht12, ht2', List.append_assoc], hxc, ?_⟩
    intro y hy c' hc' hyc'
    obtain ⟨i, hi⟩ := List.getElem?_of_mem hc'
    have hyt : y ∈ t := by
      rw [ht12, ht2']
      rcases List.mem_append.mp hy with h | h <;> simp [h]
    have hyi := (get?_indexOf hn y i).mpr ⟨c', hi, hyc', hin y hyt⟩
    have hipre : i ∈ pre := by
      rcases List.mem_append.mp hy with h | h
      · rw [← ht1]; exact List.mem_filterMap.mpr ⟨y, h, hyi⟩
      · rw [hw y h] at hyi; simp at hyi
    obtain ⟨p', hp', hp'i⟩ := List.mem_map.mp (hpre i hipre)
    have hp'c : p' ∈ cands := by rw [hsplit]; simp [hp']
    obtain ⟨c'', hc'', h2'', _⟩ := hcand p' hp'c
    rw [hp'i, hi] at hc''
    injection hc'' with hc''
    subst hc''
    have := hl1 p' hp'
    have hgetD' : predicted.getD p'.1 [] = c' := by rw [List.getD_eq_getElem?_getD, hp'i, hi]; rfl
    rw [hgetD', hgetD, h2, h2''] at this
    exact this
  · unfold matchCluster
    rw [if_neg hne, hc1]
    simp only [Nat.zero_add]
    rw [hr, hrp]
    rfl

/-! ### The whole function -/

theorem addScores_fold {index : Dict α Nat} {sizes : Dict Nat Nat} {s : List α → Scores} :
    ∀ (truth : List (List α)), (∀ t ∈ truth, matchCluster index sizes t = .ok (s t)) →
    ∀ st : OnlineMean Rat × OnlineMean Rat × OnlineMean Rat, truth.foldlM (addScores index sizes) st = .ok
      (⟨st.1.sum + (truth.map fun t => (s t).1).sum, st.1.n + truth.length⟩,
       ⟨st.2.1.sum + (truth.map fun t => (s t).2.1).sum, st.2.1.n + truth.length⟩,
       ⟨st.2.2.sum + (truth.map fun t => (s t).2.2).sum, st.2.2.n + truth.length⟩) := by
  intro truth
  induction truth with
  | nil => intro _ st; simp [pure, Except.pure]
  | cons t truth ih =>
      intro h st
      rw [List.foldlM_cons]
      have hstep : addScores index sizes st t = .ok (st.1.add (s t).1, st.2.1.add (s t).2.1, st.2.2.add (s t).2.2) := by
        unfold addScores; rw [h t (by simp)]
      rw [hstep]
      refine (ih (fun t' ht' => h t' (by simp [ht'])) _).trans ?_
      simp only [OnlineMean.add, List.map_cons, List.sum_cons, List.length_cons]
      simp only [add_assoc, Nat.add_comm 1]

theorem addScores_error {index : Dict α Nat} {sizes : Dict Nat Nat} :
    ∀ (truth : List (List α)), (∀ t ∈ truth, matchCluster index sizes t = .error .typeError ∨ ∃ s, matchCluster index sizes t = .ok s) →
    (∃ t ∈ truth, matchCluster index sizes t = .error .typeError) →
    ∀ st : OnlineMean Rat × OnlineMean Rat × OnlineMean Rat, truth.foldlM (addScores index sizes) st = .error .typeError := by
  intro truth
  induction truth with
  | nil => rintro _ ⟨t, ht, _⟩; simp at ht
  | cons t truth ih =>
      intro h hex st
      rw [List.foldlM_cons]
      rcases h t (by simp) with he | ⟨s, hs⟩
      · have : addScores index sizes st t = .error .typeError := by unfold addScores; rw [he]
        rw [this]; rfl
      · have : addScores index sizes st t = .ok (st.1.add s.1, st.2.1.add s.2.1, st.2.2.add s.2.2) := by unfold addScores; rw [hs]
        rw [this]
        refine ih (fun t' ht' => h t' (by simp [ht'])) ?_ _
        obtain ⟨t', ht', he⟩ := hex
        rcases List.mem_cons.mp ht' with rfl | ht'
        · rw [hs] at he; simp at he
        · exact ⟨t', ht', he⟩

/-- **C43**: clusters which can be compared are matched, each truth cluster with its first predicted cluster of greatest
F1 score, and the results are the means of their scores. -/
theorem best_matching_eq {truth predicted : List (List α)} {allow : Bool} (h : Comparable truth predicted allow) :
    ∃ best : List α → List α, (∀ t ∈ truth, IsFirstBest truth predicted t (best t)) ∧ bestMatching truth predicted allow =
      .ok (mean (truth.map fun t => precision truth t (best t)), mean (truth.map fun t => recall t (best t)),
        mean (truth.map fun t => f1 truth t (best t))) := by
  have hq : ∀ x, inTruth truth x = true ↔ x ∈ truthItems truth := by
    intro x
    unfold inTruth truthItems
    rw [mem_dedup, List.mem_flatten, decide_eq_true_eq]
  have hdis : (predicted.flatten.filter (inTruth truth)).Nodup := h.disjoint
  have hidx := (indexClusters_fold hq allow predicted 0 [] [] (by simp [Dict.keys]) (by simp [Dict.keys])).1
    ⟨h.predicted_clusters, fun ha c hc x hx => decide_eq_true (h.no_additional ha c hc x hx), by simpa [Dict.keys] using hdis⟩
  have hm : ∀ t ∈ truth, ∃ c, IsFirstBest truth predicted t c ∧ matchCluster (indexOf truth predicted) (sizesOf truth predicted) t =
      .ok (precision truth t c, recall t c, f1 truth t c) := fun t ht =>
    matchCluster_eq hdis ht (h.truth_clusters t ht) (h.covered t ht)
  classical
  let best : List α → List α := fun t => if ht : t ∈ truth then (hm t ht).choose else []
  have hbest : ∀ t ∈ truth, IsFirstBest truth predicted t (best t) ∧ matchCluster (indexOf truth predicted) (sizesOf truth predicted) t =
      .ok (precision truth t (best t), recall t (best t), f1 truth t (best t)) := by
    intro t ht
    have : best t = (hm t ht).choose := dif_pos ht
    rw [this]
    exact (hm t ht).choose_spec
  refine ⟨best, fun t ht => (hbest t ht).1, ?_⟩
  have hfold := addScores_fold truth (fun t ht => (hbest t ht).2) (OnlineMean.new, OnlineMean.new, OnlineMean.new)
  unfold bestMatching
  have h0 : truth.length ≠ 0 := by simpa using h.truth_ne
  rw [if_neg h0, if_neg (by simpa using h.predicted_ne), hidx]
  simp only [List.nil_append]
  change (match truth.foldlM (addScores (indexOf truth predicted) (sizesOf truth predicted)) _ with
    | .error e => _
    | .ok (P, R, F) => _) = _
  rw [hfold]
  simp [OnlineMean.new, OnlineMean.peek, h0, mean, bind, Except.bind, pure, Except.pure]

/-- **C43**: clusters which cannot be compared raise a `TypeError`. -/
theorem best_matching_type_error {truth predicted : List (List α)} {allow : Bool} (h : ¬ Comparable truth predicted allow) :
    bestMatching truth predicted allow = .error .typeError := by
  have hq : ∀ x, inTruth truth x = true ↔ x ∈ truthItems truth := by
    intro x
    unfold inTruth truthItems
    rw [mem_dedup, List.mem_flatten, decide_eq_true_eq]
  unfold bestMatching
  by_cases h1 : truth = []
  · simp [h1]
  by_cases h2 : predicted = []
  · simp [h2]
  rw [if_neg (by simpa using h1), if_neg (by simpa using h2)]
  obtain ⟨g1, g2⟩ := indexClusters_fold hq allow predicted 0 [] [] (by simp [Dict.keys]) (by simp [Dict.keys])
  by_cases hgood : (∀ c ∈ predicted, c ≠ []) ∧ (allow = false → ∀ c ∈ predicted, ∀ x ∈ c, inTruth truth x = true) ∧
        (Dict.keys ([] : Dict α Nat) ++ predicted.flatten.filter (inTruth truth)).Nodup
  · rw [g1 hgood]
    have hdis : (predicted.flatten.filter (inTruth truth)).Nodup := by simpa [Dict.keys] using hgood.2.2
    simp only [List.nil_append]
    have herr := addScores_error (index := indexOf truth predicted) (sizes := sizesOf truth predicted) truth (by
      intro t ht
      by_cases hne : t = []
      · left; simp [matchCluster, hne]
      by_cases hcov : ∀ x ∈ t, ∃ c ∈ predicted, x ∈ c
      · right
        obtain ⟨c, _, hc⟩ := matchCluster_eq hdis ht hne hcov
        exact ⟨_, hc⟩
      · left
        unfold matchCluster
        rw [if_neg hne, (countItems_fold (indexOf truth predicted) t [] 0).2]
        intro hk
        apply hcov
        intro x hx
        have := hk x hx
        rw [keys_indexOf, List.mem_filter, List.mem_flatten] at this
        exact this.1) (by
      by_contra hno
      apply h
      have hno' : ∀ t ∈ truth, matchCluster (indexOf truth predicted) (sizesOf truth predicted) t ≠ .error .typeError :=
        fun t ht he => hno ⟨t, ht, he⟩
      have hne : ∀ t ∈ truth, t ≠ [] := by
        rintro t ht rfl
        exact hno' [] ht (by simp [matchCluster])
      refine ⟨h1, h2, hne, hgood.1, fun ha c hc x hx => of_decide_eq_true (hgood.2.1 ha c hc x hx), ?_, hdis⟩
      intro t ht x hx
      by_contra hcon
      apply hno' t ht
      unfold matchCluster
      rw [if_neg (hne t ht), (countItems_fold (indexOf truth predicted) t [] 0).2]
      intro hk
      have := hk x hx
      rw [keys_indexOf, List.mem_filter, List.mem_flatten] at this
      exact hcon this.1) (OnlineMean.new, OnlineMean.new, OnlineMean.new)
    change (match truth.foldlM (addScores (indexOf truth predicted) (sizesOf truth predicted)) _ with
      | .error e => _
      | .ok (P, R, F) => _) = _
    rw [herr]
  · rw [g2 hgood]

/-! ### Bounds -/

theorem hits_le_known {truth : List (List α)} {t : List α} (ht : t ∈ truth) (hn : t.Nodup) (c : List α) : hits t c ≤ known truth c := by
  unfold hits known
  apply (List.subperm_of_subset (hn.filter _) _).length_le
  intro x hx
  obtain ⟨h1, h2⟩ := List.mem_filter.mp hx
  exact List.mem_filter.mpr ⟨of_decide_eq_true h2, decide_eq_true ⟨t, ht, h1⟩⟩

theorem hits_le_length (t c : List α) : hits t c ≤ t.length := List.length_filter_le ..

theorem mean_bounds {l : List Rat} (hne : l ≠ []) (h : ∀ x ∈ l, 0 < x ∧ x ≤ 1) : 0 < mean l ∧ mean l ≤ 1 := by
  have hlen : (0 : Rat) < l.length := by exact_mod_cast List.length_pos_iff.mpr hne
  have hpos : 0 < l.sum := List.sum_pos l (fun x hx => (h x hx).1) hne
  have hle : l.sum ≤ l.length := by
    clear hlen hpos hne
    induction l with
    | nil => simp
    | cons x l ih =>
        rw [List.sum_cons, List.length_cons]
        push_cast
        have h1 := (h x (by simp)).2
        have h2 := ih (fun y hy => h y (by simp [hy]))
        linarith
  unfold mean
  exact ⟨div_pos hpos hlen, (div_le_one hlen).mpr hle⟩

theorem mean_one {l : List Rat} (hne : l ≠ []) (h : ∀ x ∈ l, x = 1) : mean l = 1 := by
  have hlen : (0 : Rat) < l.length := by exact_mod_cast List.length_pos_iff.mpr hne
  have hsum : l.sum = l.length := by
    clear hlen hne
    induction l with
    | nil => simp
    | cons x l ih =>
        rw [List.sum_cons, List.length_cons, h x (by simp), ih (fun y hy => h y (by simp [hy]))]
        push_cast; ring
  unfold mean
  rw [hsum, div_self hlen.ne']

/-- **C43** partial: when no truth cluster has the same item twice, the scores are in `(0, 1]`. Missing: truth clusters with
repeated items, see below. -/
theorem best_matching_bounds_partial {truth predicted : List (List α)} {allow : Bool} (h : Comparable truth predicted allow)
    (hn : ∀ t ∈ truth, t.Nodup) :
    ∃ p r f, bestMatching truth predicted allow = .ok (p, r, f) ∧ (0 < p ∧ p ≤ 1) ∧ (0 < r ∧ r ≤ 1) ∧ 0 < f ∧ f ≤ 1 := by
  obtain ⟨best, hb, he⟩ := best_matching_eq h
  have hne : ∀ g : List α → Rat, truth.map g ≠ [] := fun g => by simpa using h.truth_ne
  have hall : ∀ t ∈ truth, (0 < precision truth t (best t) ∧ precision truth t (best t) ≤ 1) ∧
      (0 < recall t (best t) ∧ recall t (best t) ≤ 1) ∧ 0 < f1 truth t (best t) ∧ f1 truth t (best t) ≤ 1 := by
    intro t ht
    have hpos : (0 : Rat) < hits t (best t) := by exact_mod_cast (hb t ht).1.2.1
    have h1 : (hits t (best t) : Rat) ≤ known truth (best t) := by exact_mod_cast hits_le_known ht (hn t ht) (best t)
    have h2 : (hits t (best t) : Rat) ≤ t.length := by exact_mod_cast hits_le_length t (best t)
    have hk := lt_of_lt_of_le hpos h1
    have hl := lt_of_lt_of_le hpos h2
    unfold precision recall f1
    refine ⟨⟨div_pos hpos hk, (div_le_one hk).mpr h1⟩, ⟨div_pos hpos hl, (div_le_one hl).mpr h2⟩, by positivity,
      (div_le_one (by positivity)).mpr (by linarith)⟩
  refine ⟨_, _, _, he, ?_, ?_, ?_⟩ <;> refine mean_bounds (hne _) ?_ <;> intro x hx <;>
    obtain ⟨t, ht, rfl⟩ := List.mem_map.mp hx
  · exact (hall t ht).1
  · exact (hall t ht).2.1
  · exact (hall t ht).2.2

/-! ### The same clusters -/

omit [DecidableEq α] in
theorem _root_.Fog.Spec.SameClusters.flatten {a b : List (List α)} (h : SameClusters a b) : a.flatten.Perm b.flatten := by
  induction h with
  | nil => exact .nil
  | cons hcd _ ih =>
      rw [List.flatten_cons, List.flatten_append, List.flatten_cons]
      rw [List.flatten_append] at ih
      refine (hcd.append ih).trans ?_
      rw [← List.append_assoc, ← List.append_assoc]
      exact List.Perm.append_right _ List.perm_append_comm

omit [DecidableEq α] in
theorem _root_.Fog.Spec.SameClusters.map_sum {a b : List (List α)} (h : SameClusters a b) {g g' : List α → Rat}
    (hg : ∀ c ∈ a, ∀ d ∈ b, c.Perm d → g c = g' d) : (a.map g).sum = (b.map g').sum := by
  induction h with
  | nil => rfl
  | cons hcd _ ih =>
      rw [List.map_cons, List.sum_cons, List.map_append, List.map_cons, List.sum_append, List.sum_cons,
        ih (fun c hc d hd => hg c (by simp [hc]) d (by
          rcases List.mem_append.mp hd with h | h <;> simp [h])), List.map_append, List.sum_append,
        hg _ (by simp) _ (by simp) hcd]
      ring

omit [DecidableEq α] in
theorem _root_.Fog.Spec.SameClusters.length {a b : List (List α)} (h : SameClusters a b) : a.length = b.length := by
  induction h with
  | nil => rfl
  | cons hcd _ ih => simp only [List.length_cons, List.length_append] at ih ⊢; omega

omit [DecidableEq α] in
theorem _root_.Fog.Spec.SameClusters.left {a b : List (List α)} (h : SameClusters a b) : ∀ c ∈ a, ∃ d ∈ b, c.Perm d := by
  induction h with
  | nil => simp
  | cons hcd _ ih =>
      intro c hc
      rcases List.mem_cons.mp hc with rfl | hc
      · exact ⟨_, by simp, hcd⟩
      · obtain ⟨d, hd, hp⟩ := ih c hc
        refine ⟨d, ?_, hp⟩
        rcases List.mem_append.mp hd with h | h <;> simp [h]

omit [DecidableEq α] in
theorem _root_.Fog.Spec.SameClusters.right {a b : List (List α)} (h : SameClusters a b) : ∀ d ∈ b, ∃ c ∈ a, c.Perm d := by
  induction h with
  | nil => simp
  | cons hcd _ ih =>
      intro d hd
      rcases List.mem_append.mp hd with hd | hd
      · obtain ⟨c, hc, hp⟩ := ih d (by simp [hd])
        exact ⟨c, by simp [hc], hp⟩
      · rcases List.mem_cons.mp hd with rfl | hd
        · exact ⟨_, by simp, hcd⟩
        · obtain ⟨c, hc, hp⟩ := ih d (by simp [hd])
          exact ⟨c, by simp [hc], hp⟩

omit [DecidableEq α] in
theorem _root_.Fog.Spec.SameClusters.mem {a b : List (List α)} (h : SameClusters a b) (x : α) : (∃ c ∈ a, x ∈ c) ↔ ∃ d ∈ b, x ∈ d := by
  rw [← List.mem_flatten, ← List.mem_flatten]
  exact h.flatten.mem_iff

theorem hits_congr {t t' c c' : List α} (ht : t.Perm t') (hc : c.Perm c') : hits t c = hits t' c' := by
  unfold hits
  rw [(ht.filter _).length_eq]
  congr 2
  funext x
  simp only [hc.mem_iff]

theorem known_congr {truth truth' : List (List α)} (h : SameClusters truth truth') {c c' : List α} (hc : c.Perm c') :
    known truth c = known truth' c' := by
  unfold known
  rw [(hc.filter _).length_eq]
  congr 2
  funext x
  simp only [h.mem x]

theorem f1_congr {truth truth' : List (List α)} (h : SameClusters truth truth') {t t' c c' : List α} (ht : t.Perm t') (hc : c.Perm c') :
    f1 truth t c = f1 truth' t' c' := by
  unfold f1
  rw [hits_congr ht hc, ht.length_eq, known_congr h hc]

theorem comparable_congr {truth truth' predicted predicted' : List (List α)} {allow : Bool} (ht : SameClusters truth truth')
    (hp : SameClusters predicted predicted') (h : Comparable truth predicted allow) : Comparable truth' predicted' allow := by
  refine ⟨?_, ?_, ?_, ?_, ?_, ?_, ?_⟩
  · rintro rfl
    exact h.truth_ne (List.length_eq_zero_iff.mp ht.length)
  · rintro rfl
    exact h.predicted_ne (List.length_eq_zero_iff.mp hp.length)
  · rintro t ht' rfl
    obtain ⟨c, hc, hperm⟩ := ht.right [] ht'
    exact h.truth_clusters c hc hperm.eq_nil
  · rintro t ht' rfl
    obtain ⟨c, hc, hperm⟩ := hp.right [] ht'
    exact h.predicted_clusters c hc hperm.eq_nil
  · intro ha c hc x hx
    obtain ⟨d, hd, hperm⟩ := hp.right c hc
    exact (ht.mem x).mp (h.no_additional ha d hd x (hperm.mem_iff.mpr hx))
  · intro t htt x hx
    obtain ⟨d, hd, hperm⟩ := ht.right t htt
    exact (hp.mem x).mp (h.covered d hd x (hperm.mem_iff.mpr hx))
  · have := h.disjoint
    rw [(hp.flatten.filter _).nodup_iff] at this
    simp only [ht.mem] at this
    exact this

/-- **C43**: the F1 score depends neither on the order of clusters nor on the order of items in clusters. -/
theorem best_matching_f1_order {truth truth' predicted predicted' : List (List α)} {allow : Bool}
    (h : Comparable truth predicted allow) (ht : SameClusters truth truth') (hp : SameClusters predicted predicted') :
    ∃ p r p' r' f, bestMatching truth predicted allow = .ok (p, r, f) ∧ bestMatching truth' predicted' allow = .ok (p', r', f) := by
  obtain ⟨best, hb, he⟩ := best_matching_eq h
  obtain ⟨best', hb', he'⟩ := best_matching_eq (comparable_congr ht hp h)
  suffices hf : mean (truth'.map fun t => f1 truth' t (best' t)) = mean (truth.map fun t => f1 truth t (best t)) by
    rw [hf] at he'
    exact ⟨_, _, _, _, _, he, he'⟩
  unfold mean
  rw [List.length_map, List.length_map, ht.length]
  congr 1
  symm
  apply ht.map_sum
  intro t htm t' htm' hperm
  obtain ⟨h1, h2, h3⟩ := (hb t htm).1
  obtain ⟨h1', h2', h3'⟩ := (hb' t' htm').1
  apply le_antisymm
  · obtain ⟨d, hd, hdp⟩ := hp.left _ h1
    rw [f1_congr ht hperm hdp]
    exact h3' d hd
  · obtain ⟨d, hd, hdp⟩ := hp.right _ h1'
    rw [← f1_congr ht hperm hdp]
    exact h3 d hd

/-- Predicted clusters with a common item of the truth are the same. -/
theorem same_cluster {truth predicted : List (List α)} {allow : Bool} (h : Comparable truth predicted allow) {c d : List α} {x : α}
    (hc : c ∈ predicted) (hd : d ∈ predicted) (hx : ∃ t ∈ truth, x ∈ t) (hxc : x ∈ c) (hxd : x ∈ d) : c = d := by
  have hn : (predicted.flatten.filter (inTruth truth)).Nodup := h.disjoint
  obtain ⟨i, hi⟩ := List.getElem?_of_mem hc
  obtain ⟨j, hj⟩ := List.getElem?_of_mem hd
  have e1 := (get?_indexOf hn x i).mpr ⟨c, hi, hxc, decide_eq_true hx⟩
  have e2 := (get?_indexOf hn x j).mpr ⟨d, hj, hxd, decide_eq_true hx⟩
  rw [e1] at e2
  injection e2 with e2
  rw [e2, hj] at hi
  injection hi with hi
  exact hi.symm

theorem firstBest_unique {truth truth' predicted predicted' : List (List α)} {allow : Bool}
    (h : Comparable truth predicted allow) (ht : SameClusters truth truth') (hp : SameClusters predicted predicted') {t c c' : List α}
    (htm : t ∈ truth) (hc : IsFirstBest truth predicted t c) (hc' : IsFirstBest truth' predicted' t c') : c.Perm c' := by
  have h' := comparable_congr ht hp h
  obtain ⟨⟨h1, h2, h3⟩, pre, x, post, hsplit, hx, hpre⟩ := hc
  obtain ⟨⟨h1', h2', h3'⟩, pre', x', post', hsplit', hx', hpre'⟩ := hc'
  obtain ⟨d, hd, hdp⟩ := hp.left _ h1
  obtain ⟨e, he, hep⟩ := hp.right _ h1'
  have hf : f1 truth t c = f1 truth' t c' := by
    apply le_antisymm
    · rw [f1_congr ht (List.Perm.refl t) hdp]; exact h3' d hd
    · rw [← f1_congr ht (List.Perm.refl t) hep]; exact h3 e he
  have hmem : ∀ l y r, t = l ++ y :: r → ∃ t ∈ truth', y ∈ t := by
    intro l y r hy
    exact (ht.mem y).mp ⟨t, htm, by rw [hy]; simp⟩
  rcases Nat.lt_trichotomy pre.length pre'.length with hlt | heq | hlt
  · exfalso
    have hxpre : x ∈ pre' := by
      have : t[pre.length]? = some x := by rw [hsplit]; simp
      rw [hsplit', List.getElem?_append_left hlt] at this
      exact List.mem_of_getElem? this
    have := hpre' x hxpre d hd (hdp.mem_iff.mp hx)
    rw [← f1_congr ht (List.Perm.refl t) hdp, hf] at this
    exact lt_irrefl _ this
  · have hxx : x = x' := by
      have h5 : t[pre.length]? = some x := by rw [hsplit]; simp
      have h6 : t[pre'.length]? = some x' := by rw [hsplit']; simp
      rw [heq, h6] at h5
      injection h5 with h5
      exact h5.symm
    have := same_cluster h' hd h1' (hmem _ _ _ hsplit') (hxx ▸ hdp.mem_iff.mp hx) hx'
    rw [← this]; exact hdp
  · exfalso
    have hxpre : x' ∈ pre := by
      have : t[pre'.length]? = some x' := by rw [hsplit']; simp
      rw [hsplit, List.getElem?_append_left hlt] at this
      exact List.mem_of_getElem? this
    have := hpre x' hxpre e he (hep.mem_iff.mpr hx')
    rw [f1_congr ht (List.Perm.refl t) hep, ← hf] at this
    exact lt_irrefl _ this

omit [DecidableEq α] in
theorem sameClusters_of_perm {a b : List (List α)} (h : a.Perm b) : SameClusters a b := by
  induction a generalizing b with
  | nil => rw [h.symm.eq_nil]; exact .nil
  | cons c a ih =>
      obtain ⟨d1, d2, rfl⟩ := List.append_of_mem (h.subset (List.mem_cons_self))
      exact .cons (.refl c) (ih (List.perm_cons c |>.mp (h.trans List.perm_middle)))

/-- **C43** partial: the scores depend neither on the order of clusters, nor on the order of items in predicted clusters. Missing: they
depend on the order of items in truth clusters, see below. -/
theorem best_matching_order_partial {truth truth' predicted predicted' : List (List α)} {allow : Bool}
    (h : Comparable truth predicted allow) (ht : truth.Perm truth') (hp : SameClusters predicted predicted') :
    bestMatching truth' predicted' allow = bestMatching truth predicted allow := by
  have ht' := sameClusters_of_perm ht
  obtain ⟨best, hb, he⟩ := best_matching_eq h
  obtain ⟨best', hb', he'⟩ := best_matching_eq (comparable_congr ht' hp h)
  rw [he, he']
  have hperm : ∀ t ∈ truth, (best t).Perm (best' t) := fun t htm =>
    firstBest_unique h ht' hp htm (hb t htm) (hb' t (ht.mem_iff.mp htm))
  have hmean : ∀ g g' : List α → Rat, (∀ t ∈ truth, g t = g' t) → mean (truth'.map g') = mean (truth.map g) := by
    intro g g' hg
    unfold mean
    rw [List.length_map, List.length_map, ht.length_eq, ((ht.map g').sum_eq).symm, List.map_congr_left hg]
  rw [hmean _ _ (fun t htm => ?_), hmean _ _ (fun t htm => ?_), hmean _ _ (fun t htm => ?_)]
  · rw [f1_congr ht' (.refl t) (hperm t htm)]
  · unfold recall
    rw [hits_congr (.refl t) (hperm t htm)]
  · unfold precision
    rw [hits_congr (.refl t) (hperm t htm), known_congr ht' (hperm t htm)]

/-- **C43**: the scores are `(1, 1, 1)` when the predicted clusters are the truth clusters, in any order. -/
theorem best_matching_identity {truth predicted : List (List α)} {allow : Bool} (hne : truth ≠ []) (hc : ∀ t ∈ truth, t ≠ [])
    (hn : truth.flatten.Nodup) (h : SameClusters truth predicted) : bestMatching truth predicted allow = .ok (1, 1, 1) := by
  have hcomp : Comparable truth predicted allow := by
    refine ⟨hne, ?_, hc, ?_, ?_, ?_, ?_⟩
    · rintro rfl
      exact hne (List.length_eq_zero_iff.mp h.length)
    · rintro t ht' rfl
      obtain ⟨c, hcm, hperm⟩ := h.right [] ht'
      exact hc c hcm hperm.eq_nil
    · intro _ c hcm x hx
      exact (h.mem x).mpr ⟨c, hcm, hx⟩
    · intro t ht x hx
      exact (h.mem x).mp ⟨t, ht, hx⟩
    · exact (h.flatten.nodup_iff.mp hn).filter _
  have hnt : ∀ t ∈ truth, t.Nodup := fun t ht => (List.nodup_flatten.mp hn).1 t ht
  obtain ⟨best, hb, he⟩ := best_matching_eq hcomp
  have hall : ∀ t ∈ truth, precision truth t (best t) = 1 ∧ recall t (best t) = 1 ∧ f1 truth t (best t) = 1 := by
    intro t ht
    obtain ⟨hb1, hb2, hb3⟩ := (hb t ht).1
    obtain ⟨d, hd, hperm⟩ := h.left t ht
    have hle := hb3 d hd
    have hself : f1 truth t d = 1 := by
      have e1 : hits t d = t.length := by
        unfold hits
        rw [List.filter_eq_self.mpr]
        intro x hx
        exact decide_eq_true (hperm.mem_iff.mp hx)
      have e2 : known truth d = t.length := by
        unfold known
        rw [List.filter_eq_self.mpr, hperm.length_eq]
        intro x hx
        exact decide_eq_true ⟨t, ht, hperm.mem_iff.mpr hx⟩
      have : (0 : Rat) < t.length := by exact_mod_cast List.length_pos_iff.mpr (hc t ht)
      unfold f1
      rw [e1, e2, div_eq_one_iff_eq (by positivity)]
      ring
    rw [hself] at hle
    have h1 := hits_le_known ht (hnt t ht) (best t)
    have h2 := hits_le_length t (best t)
    have hpos : 0 < t.length := List.length_pos_iff.mpr (hc t ht)
    have hden : (0 : Rat) < t.length + known truth (best t) := by
      have : (0 : Rat) < t.length := by exact_mod_cast hpos
      positivity
    have h3 : (t.length : Rat) + known truth (best t) ≤ 2 * hits t (best t) := by
      have := (le_div_iff₀ hden).mp hle
      linarith
    have h3' : t.length + known truth (best t) ≤ 2 * hits t (best t) := by exact_mod_cast h3
    have e1 : hits t (best t) = t.length := by omega
    have e2 : known truth (best t) = t.length := by omega
    have hpos' : (t.length : Rat) ≠ 0 := by exact_mod_cast hpos.ne'
    unfold precision recall f1
    rw [e1, e2]
    refine ⟨div_self hpos', div_self hpos', ?_⟩
    rw [div_eq_one_iff_eq (by positivity)]
    ring
  have hmap : ∀ g : List α → Rat, truth.map g ≠ [] := fun g => by simpa using hne
  rw [he]
  rw [mean_one (hmap _), mean_one (hmap _), mean_one (hmap _)] <;> intro x hx <;> obtain ⟨t, ht, rfl⟩ := List.mem_map.mp hx
  · exact (hall t ht).2.2
  · exact (hall t ht).2.1
  · exact (hall t ht).1

/-- **C43** is false: the precision and the recall depend on the order of items in truth clusters, when two predicted clusters have the
same F1 score. -/
theorem best_matching_ties :
    bestMatching [['a', 'b', 'c'], ['x'], ['y'], ['z']] [['a'], ['b', 'c', 'x', 'y', 'z']] false = .ok (2/5, 5/6, 3/8) ∧
    bestMatching [['b', 'a', 'c'], ['x'], ['y'], ['z']] [['a'], ['b', 'c', 'x', 'y', 'z']] false = .ok (1/4, 11/12, 3/8) := by
  decide +kernel

/-- **C43** is false: with an item twice in a truth cluster, scores can be greater than 1. -/
theorem best_matching_above_one : bestMatching [['a', 'a']] [['a']] false = .ok (2, 1, 4/3) := by decide +kernel

-- Three truth clusters.
example : Comparable [[1, 2, 3], [4, 5], [6]] [[2, 1], [3, 4], [5, 6, 9]] true :=
  ⟨by simp, by simp, by simp, by simp, by simp, by decide, by decide⟩

example : bestMatching [[1, 2, 3], [4, 5], [6]] [[2, 1], [3, 4], [5, 6, 9]] true = .ok (2/3, 13/18, 59/90) := by decide +kernel

example : SameClusters [[1, 2], [3]] [[3], [2, 1]] := .cons (d1 := [[3]]) (d2 := []) (by decide) (.cons (d1 := []) (d2 := []) (by decide) .nil)

end Fog.Props
