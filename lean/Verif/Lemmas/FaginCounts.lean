import Verif.Lemmas.Fagin

/-!
# The counts of `fagin_k1`
-/

namespace Fog.Fagin

open Fog.Spec

variable {κ F : Type} [DecidableEq κ] [LinearOrder F]

/-- The number of lists whose first `o` entries hold `j`. -/
def seen (L : κ → List (F × Nat)) (dims : List κ) (o j : Nat) : Nat :=
  dims.countP fun d => decide (j ∈ ((L d).take o).map Prod.snd)

omit [DecidableEq κ] [LinearOrder F] in
theorem countTurn_foldl (L : κ → List (F × Nat)) (o : Nat) (dims : List κ) (s : Dict Nat Nat × Bool) (hn : s.1.keys.Nodup) :
    (dims.foldl (countTurn L o) s).1.keys.Nodup ∧
    (∀ j, ((dims.foldl (countTurn L o) s).1.get? j).getD 0 =
      (s.1.get? j).getD 0 + dims.countP fun d => (L d)[o]?.any fun e => decide (e.2 = j)) ∧
    (∀ j, j ∈ (dims.foldl (countTurn L o) s).1.keys ↔ j ∈ s.1.keys ∨ ∃ d ∈ dims, ∃ w, (L d)[o]? = some (w, j)) ∧
    ((dims.foldl (countTurn L o) s).2 = true ↔ s.2 = true ∧ ∀ d ∈ dims, (L d)[o]? = none) := by
  induction dims generalizing s with
  | nil => simp [hn]
  | cons d dims ih =>
      rw [List.foldl_cons]
      cases hd : (L d)[o]? with
      | none =>
          have h0 : countTurn L o s d = s := by rw [countTurn, hd]
          rw [h0]
          obtain ⟨h1, h2, h3, h4⟩ := ih s hn
          refine ⟨h1, fun j => ?_, fun j => ?_, ?_⟩
          · rw [h2, List.countP_cons, hd]; simp
          · rw [h3]
            constructor
            · rintro (h | ⟨d', hd', h⟩)
              · exact Or.inl h
              · exact Or.inr ⟨d', List.mem_cons_of_mem _ hd', h⟩
            · rintro (h | ⟨d', hd', w, h⟩)
              · exact Or.inl h
              · rcases List.mem_cons.1 hd' with rfl | hd'
                · rw [hd] at h; cases h
                · exact Or.inr ⟨d', hd', w, h⟩
          · rw [h4]; simp only [List.mem_cons, forall_eq_or_imp, hd, true_and]
      | some e =>
          have h0 : countTurn L o s d = (s.1.update e.2 0 (· + 1), false) := by rw [countTurn, hd]
          rw [h0]
          obtain ⟨h1, h2, h3, h4⟩ := ih (s.1.update e.2 0 (· + 1), false) (Dict.nodup_keys_update hn _ _ _)
          refine ⟨h1, fun j => ?_, fun j => ?_, ?_⟩
          · rw [h2, List.countP_cons, hd]
            simp only [Dict.get?_update, Option.any_some, decide_eq_true_eq]
            by_cases he : e.2 = j
            · simp [he]; omega
            · simp [he]
          · rw [h3, Dict.keys_update]
            have hex : (∃ d' ∈ d :: dims, ∃ w, (L d')[o]? = some (w, j)) ↔ (∃ w, e = (w, j)) ∨ ∃ d' ∈ dims, ∃ w, (L d')[o]? = some (w, j) := by
              constructor
              · rintro ⟨d', hd', w, h⟩
                rcases List.mem_cons.1 hd' with rfl | hd'
                · rw [hd] at h; exact Or.inl ⟨w, Option.some.inj h⟩
                · exact Or.inr ⟨d', hd', w, h⟩
              · rintro (⟨w, rfl⟩ | ⟨d', hd', h⟩)
                · exact ⟨d, List.mem_cons_self, w, hd⟩
                · exact ⟨d', List.mem_cons_of_mem _ hd', h⟩
            rw [hex]
            split
            · rename_i hm
              constructor
              · rintro (h | h)
                · exact Or.inl h
                · exact Or.inr (Or.inr h)
              · rintro (h | ⟨w, rfl⟩ | h)
                · exact Or.inl h
                · exact Or.inl hm
                · exact Or.inr h
            · rw [List.mem_append, List.mem_singleton]
              constructor
              · rintro ((h | rfl) | h)
                · exact Or.inl h
                · exact Or.inr (Or.inl ⟨e.1, rfl⟩)
                · exact Or.inr (Or.inr h)
              · rintro (h | ⟨w, rfl⟩ | h)
                · exact Or.inl (Or.inl h)
                · exact Or.inl (Or.inr rfl)
                · exact Or.inr h
          · rw [h4]; simp only [List.mem_cons, forall_eq_or_imp, hd]; simp

/-- What is known of `counts` when the first `o` entries of each list have been read. -/
structure CInv (L : κ → List (F × Nat)) (dims : List κ) (o : Nat) (counts : Dict Nat Nat) : Prop where
  nodup : counts.keys.Nodup
  value : ∀ j, (counts.get? j).getD 0 = seen L dims o j
  keys : ∀ j, j ∈ counts.keys ↔ ∃ d ∈ dims, j ∈ ((L d).take o).map Prod.snd

omit [DecidableEq κ] [LinearOrder F] in
theorem mem_take_succ (l : List (F × Nat)) (o j : Nat) :
    j ∈ (l.take (o + 1)).map Prod.snd ↔ j ∈ (l.take o).map Prod.snd ∨ ∃ w, l[o]? = some (w, j) := by
  rw [List.take_add_one, List.map_append, List.mem_append]
  cases h : l[o]? with
  | none => simp
  | some e => obtain ⟨w, k⟩ := e; simp; grind

omit [DecidableEq κ] [LinearOrder F] in
theorem not_both {l : List (F × Nat)} (hl : (l.map Prod.snd).Nodup) {o j : Nat} {w : F} (h : l[o]? = some (w, j)) :
    j ∉ (l.take o).map Prod.snd := by
  intro hm
  obtain ⟨h', _⟩ := List.getElem?_eq_some_iff.1 h
  rw [← List.take_append_drop o l, List.map_append, List.nodup_append] at hl
  refine hl.2.2 j hm j ?_ rfl
  rw [List.mem_map]
  exact ⟨(w, j), List.mem_of_getElem? (i := 0) (by simpa using h), rfl⟩

omit [DecidableEq κ] [LinearOrder F] in
theorem seen_succ {L : κ → List (F × Nat)} (hL : ∀ d, ((L d).map Prod.snd).Nodup) (dims : List κ) (o j : Nat) :
    seen L dims (o + 1) j = seen L dims o j + dims.countP fun d => (L d)[o]?.any fun e => decide (e.2 = j) := by
  unfold seen
  induction dims with
  | nil => rfl
  | cons d dims ih =>
      rw [List.countP_cons, List.countP_cons, List.countP_cons, ih]
      have h : (L d)[o]?.any (fun e => decide (e.2 = j)) = true ↔ ∃ w, (L d)[o]? = some (w, j) := by
        cases h : (L d)[o]? with
        | none => simp
        | some e => obtain ⟨w, k⟩ := e; simp
      by_cases h1 : ∃ w, (L d)[o]? = some (w, j)
      · have h2 := not_both (hL d) h1.choose_spec
        rw [if_pos (decide_eq_true ((mem_take_succ _ _ _).2 (Or.inr h1))), if_neg (by simpa using h2), if_pos (h.2 h1)]
        omega
      · rw [if_neg (c := _ = true) (fun h' => h1 (h.1 h'))]
        have : (j ∈ ((L d).take (o + 1)).map Prod.snd) = (j ∈ ((L d).take o).map Prod.snd) := by
          rw [mem_take_succ]; simp only [h1, or_false]
        simp only [this]
        omega

omit [DecidableEq κ] [LinearOrder F] in
theorem counts_inv {L : κ → List (F × Nat)} (hL : ∀ d, ((L d).map Prod.snd).Nodup) {dims : List κ} {o : Nat} {counts : Dict Nat Nat}
    (h : CInv L dims o counts) (b : Bool) : CInv L dims (o + 1) (dims.foldl (countTurn L o) (counts, b)).1 := by
  obtain ⟨h1, h2, h3, _⟩ := countTurn_foldl L o dims (counts, b) h.nodup
  refine ⟨h1, fun j => ?_, fun j => ?_⟩
  · rw [h2, h.value, seen_succ hL]
  · rw [h3, h.keys]
    simp only [mem_take_succ]
    grind

/-- How the loop of `fagin_k1` ends. -/
theorem countLoop_spec {L : κ → List (F × Nat)} (hL : ∀ d, ((L d).map Prod.snd).Nodup) {dims : List κ} {n : Nat}
    (hn : ∀ d, (L d).length ≤ n) (i : Nat) (fuel o : Nat) (ho : o ≤ n) (hf : n < fuel + o) (counts : Dict Nat Nat) (h : CInv L dims o counts)
    (hlow : ¬ 2 ≤ (counts.filter fun e => decide (dims.length ≤ e.2)).length) :
    (countLoop L dims i fuel o counts = some [] ∧ ∃ o' counts', CInv L dims o' counts' ∧ (∀ d ∈ dims, (L d).length ≤ o') ∧
      ¬ 2 ≤ (counts'.filter fun e => decide (dims.length ≤ e.2)).length) ∨
    ∃ o' counts', CInv L dims o' counts' ∧ 2 ≤ (counts'.filter fun e => decide (dims.length ≤ e.2)).length ∧ dims ≠ [] ∧
      countLoop L dims i fuel o counts = some [(i, counts'.keys.filter fun j => decide (j ≠ i))] := by
  induction fuel generalizing o counts with
  | zero =>
      omega
  | succ fuel ih =>
      rw [countLoop]
      obtain ⟨_, _, _, h4⟩ := countTurn_foldl L o dims (counts, true) h.nodup
      have h' := counts_inv hL h true
      by_cases hs : (dims.foldl (countTurn L o) (counts, true)).2 = true
      · left
        refine ⟨by simp [hs], o, counts, h, fun d hd => ?_, hlow⟩
        have := (h4.1 hs).2 d hd
        simpa using this
      · simp only [hs, if_false]
        by_cases h2 : 2 ≤ ((dims.foldl (countTurn L o) (counts, true)).1.filter fun e => decide (dims.length ≤ e.2)).length
        · right
          refine ⟨o + 1, _, h', h2, ?_, by simp [h2]⟩
          rintro rfl
          simp at hs
        · rw [if_neg h2]
          refine ih (o + 1) ?_ (by omega) _ h' h2
          by_contra hc
          refine hs (h4.2 ⟨rfl, fun d _ => ?_⟩)
          have := hn d
          simp; omega

theorem two_le_filter {counts : Dict Nat Nat} (hn : counts.keys.Nodup) (D : Nat) (i : Nat) :
    2 ≤ (counts.filter fun e => decide (D ≤ e.2)).length → ∃ j, j ≠ i ∧ j ∈ counts.keys ∧ D ≤ (counts.get? j).getD 0 := by
  intro h
  have hn' : ((counts.filter fun e => decide (D ≤ e.2)).map Prod.fst).Nodup := (List.filter_sublist.map _).nodup hn
  match hf : counts.filter fun e => decide (D ≤ e.2) with
  | [] => rw [hf] at h; simp at h
  | [a] => rw [hf] at h; simp at h
  | a :: b :: l =>
      have ha : a ∈ counts ∧ D ≤ a.2 := by
        have : a ∈ counts.filter fun e => decide (D ≤ e.2) := by rw [hf]; simp
        simpa using this
      have hb : b ∈ counts ∧ D ≤ b.2 := by
        have : b ∈ counts.filter fun e => decide (D ≤ e.2) := by rw [hf]; simp
        simpa using this
      rw [hf] at hn'
      have hab : a.1 ≠ b.1 := by
        simp only [List.map_cons, List.nodup_cons, List.mem_cons] at hn'
        grind
      by_cases hi : a.1 = i
      · refine ⟨b.1, by grind, List.mem_map_of_mem hb.1, ?_⟩
        rw [Dict.get?_of_mem hn (show (b.1, b.2) ∈ counts from hb.1)]
        exact hb.2
      · refine ⟨a.1, hi, List.mem_map_of_mem ha.1, ?_⟩
        rw [Dict.get?_of_mem hn (show (a.1, a.2) ∈ counts from ha.1)]
        exact ha.2

theorem filter_two_le {counts : Dict Nat Nat} (hn : counts.keys.Nodup) {D i j : Nat} (hij : j ≠ i) (hD : 0 < D)
    (hi : D ≤ (counts.get? i).getD 0) (hj : D ≤ (counts.get? j).getD 0) :
    2 ≤ (counts.filter fun e => decide (D ≤ e.2)).length := by
  have hmem : ∀ k, D ≤ (counts.get? k).getD 0 → k ∈ (counts.filter fun e => decide (D ≤ e.2)).map Prod.fst := by
    intro k hk
    cases hg : counts.get? k with
    | none => rw [hg] at hk; simp at hk; omega
    | some v =>
        rw [hg] at hk
        exact List.mem_map.2 ⟨(k, v), by simpa using ⟨Dict.mem_of_get? hg, hk⟩, rfl⟩
  have hsub : [i, j] ⊆ (counts.filter fun e => decide (D ≤ e.2)).map Prod.fst := by
    intro k hk
    simp only [List.mem_cons, List.not_mem_nil, or_false] at hk
    rcases hk with rfl | rfl
    · exact hmem _ hi
    · exact hmem _ hj
  have h2 : [i, j].Nodup := by simp [hij.symm]
  simpa using h2.length_le_of_subset hsub

omit [DecidableEq κ] [LinearOrder F] in
theorem le_seen_iff (L : κ → List (F × Nat)) (dims : List κ) (o j : Nat) :
    dims.length ≤ seen L dims o j ↔ ∀ d ∈ dims, j ∈ ((L d).take o).map Prod.snd := by
  unfold seen
  have := List.countP_le_length (p := fun d => decide (j ∈ ((L d).take o).map Prod.snd)) (l := dims)
  rw [show (dims.length ≤ dims.countP fun d => decide (j ∈ ((L d).take o).map Prod.snd)) ↔
    (dims.countP fun d => decide (j ∈ ((L d).take o).map Prod.snd)) = dims.length by omega, List.countP_eq_length]
  simp

theorem vector_candidates {vectors : List (Dict κ F)} (hv : AreVectors vectors) {i : Nat} {v : Dict κ F} (hi : vectors[i]? = some v)
    {fuel : Nat} (hf : vectors.length < fuel) :
    (countLoop (invertedList vectors) v.keys i fuel 0 [] = some [] ∧ ¬ Covered vectors i) ∨
    ∃ js, countLoop (invertedList vectors) v.keys i fuel 0 [] = some [(i, js)] ∧ Covered vectors i ∧ Candidates vectors i js := by
  have hdim : ∀ d, Has vectors i d ↔ d ∈ v.keys := has_iff hi
  rcases countLoop_spec (nodup_invertedList hv) (dims := v.keys) (length_invertedList hv) i fuel 0 (Nat.zero_le _) (by omega) []
    ⟨by simp [Dict.keys], by simp [Dict.get?, seen], by simp [Dict.keys]⟩ (by simp) with
    ⟨hloop, o, counts, hc, hlen, hlow⟩ | ⟨o, counts, hc, hhigh, hne, hloop⟩
  · refine Or.inl ⟨hloop, ?_⟩
    rintro ⟨⟨d, hd⟩, j, hji, hall⟩
    refine hlow (filter_two_le hc.nodup hji ?_ ?_ ?_)
    · exact List.length_pos_of_mem ((hdim d).1 hd)
    · rw [hc.value, le_seen_iff]
      intro d hd
      rw [List.take_of_length_le (hlen d hd), mem_snd_invertedList, hdim]
      exact hd
    · rw [hc.value, le_seen_iff]
      intro d hd
      rw [List.take_of_length_le (hlen d hd), mem_snd_invertedList]
      rw [← hdim] at hd
      obtain ⟨w, hw⟩ := hd
      exact hall d w hw
  · right
    have hread : ∀ j, j ∈ counts.keys → ShareDimension vectors i j := by
      intro j hj
      rw [hc.keys] at hj
      obtain ⟨d, hd, hj⟩ := hj
      rw [← hdim] at hd
      obtain ⟨w, hw⟩ := hd
      have hj' : j ∈ (invertedList vectors d).map Prod.snd := (List.take_sublist _ _).map _ |>.subset hj
      rw [mem_snd_invertedList] at hj'
      obtain ⟨w', hw'⟩ := hj'
      exact ⟨d, w, w', hw, hw'⟩
    obtain ⟨s, hsi, hs, hsD⟩ := two_le_filter hc.nodup v.keys.length i hhigh
    rw [hc.value, le_seen_iff] at hsD
    have hsall : HasAllDimensions vectors i s := by
      intro d w hw
      have hd : d ∈ v.keys := (hdim d).1 ⟨w, hw⟩
      have h1 : s ∈ (invertedList vectors d).map Prod.snd := (List.take_sublist _ _).map _ |>.subset (hsD d hd)
      rwa [mem_snd_invertedList] at h1
    refine ⟨_, hloop, ⟨?_, s, hsi, hsall⟩, hc.nodup.filter _, ?_, s, by simp [hs, hsi], hsall, ?_⟩
    · obtain ⟨d, hd⟩ := List.exists_mem_of_ne_nil _ hne
      exact ⟨d, (hdim d).2 hd⟩
    · intro j hj
      simp only [List.mem_filter, decide_eq_true_eq] at hj
      exact ⟨hj.2, hread j hj.1⟩
    · intro j hji hj d w ws wj hw hws hwj
      have hd : d ∈ v.keys := (hdim d).1 ⟨w, hw⟩
      have hjk : j ∉ ((invertedList vectors d).take o).map Prod.snd := by
        intro hm
        apply hj
        simp only [List.mem_filter, decide_eq_true_eq, hc.keys]
        exact ⟨⟨d, hd, hm⟩, hji⟩
      have hs1 : (ws, s) ∈ (invertedList vectors d).take o := by
        have h1 := hsD d hd
        rw [List.mem_map] at h1
        obtain ⟨⟨w', s'⟩, hm, rfl⟩ := h1
        have h2 : HasWeight vectors s' d w' := (mem_invertedList _ _ _ _).1 ((List.take_sublist _ _).subset hm)
        obtain ⟨u, hu, hmu⟩ := h2
        obtain ⟨u', hu', hmu'⟩ := hws
        rw [hu] at hu'
        cases hu'
        have hk : (Dict.keys u).Nodup := by simpa [Dict.keys] using hv u (List.mem_of_getElem? hu)
        have := (Dict.get?_of_mem hk hmu).symm.trans (Dict.get?_of_mem hk hmu')
        cases this
        exact hm
      have hj1 : (wj, j) ∈ (invertedList vectors d).drop o := by
        have h1 : (wj, j) ∈ invertedList vectors d := (mem_invertedList _ _ _ _).2 hwj
        rw [← List.take_append_drop o (invertedList vectors d), List.mem_append] at h1
        rcases h1 with h1 | h1
        · exact absurd (List.mem_map_of_mem (f := Prod.snd) h1) hjk
        · exact h1
      have hsort := sorted_invertedList vectors d
      rw [← List.take_append_drop o (invertedList vectors d), List.pairwise_append] at hsort
      rcases hsort.2.2 _ hs1 _ hj1 with h | h
      · exact le_of_lt h
      · exact le_of_eq h.1

theorem candidates_all {vectors : List (Dict κ F)} (hv : AreVectors vectors) {fuel : Nat} (hf : vectors.length < fuel)
    (rest : List (Dict κ F)) (k : Nat) (hr : vectors.drop k = rest) :
    ∃ parts, (rest.zipIdx k).mapM (fun v => countLoop (invertedList vectors) v.1.keys v.2 fuel 0 []) = some parts ∧
      (∀ i, i ∈ parts.flatten.map Prod.fst ↔ k ≤ i ∧ Covered vectors i) ∧ (parts.flatten.map Prod.fst).Pairwise (· < ·) ∧
      ∀ e ∈ parts.flatten, Candidates vectors e.1 e.2 := by
  induction rest generalizing k with
  | nil =>
      refine ⟨[], rfl, fun i => ?_, by simp, by simp⟩
      simp only [List.flatten_nil, List.map_nil, List.not_mem_nil, false_iff, not_and]
      rintro hki ⟨⟨d, w, u, hu, _⟩, _⟩
      have := (List.getElem?_eq_some_iff.1 hu).1
      have := List.drop_eq_nil_iff.1 hr
      omega
  | cons v rest ih =>
      have hvi : vectors[k]? = some v := by
        have := congrArg (fun l => l[0]?) hr
        simpa using this
      have hr' : vectors.drop (k + 1) = rest := by
        have := congrArg List.tail hr
        simpa using this
      obtain ⟨parts, hp, h1, h2, h3⟩ := ih (k + 1) hr'
      rcases vector_candidates hv hvi hf with ⟨hl, hnot⟩ | ⟨js, hl, hcov, hcand⟩
      · refine ⟨[] :: parts, ?_, ?_, by simpa using h2, by simpa using h3⟩
        · rw [List.zipIdx_cons, List.mapM_cons, hl, hp]; rfl
        · intro i
          rw [List.flatten_cons, List.nil_append, h1]
          constructor
          · rintro ⟨h, h'⟩; exact ⟨by omega, h'⟩
          · rintro ⟨h, h'⟩
            refine ⟨?_, h'⟩
            rcases Nat.eq_or_lt_of_le h with rfl | h
            · exact absurd h' hnot
            · exact h
      · refine ⟨[(k, js)] :: parts, ?_, ?_, ?_, ?_⟩
        · rw [List.zipIdx_cons, List.mapM_cons, hl, hp]; rfl
        · intro i
          simp only [List.flatten_cons, List.cons_append, List.nil_append, List.map_cons, List.mem_cons, h1]
          constructor
          · rintro (rfl | ⟨h, h'⟩)
            · exact ⟨Nat.le_refl _, hcov⟩
            · exact ⟨by omega, h'⟩
          · rintro ⟨h, h'⟩
            rcases Nat.eq_or_lt_of_le h with rfl | h
            · exact Or.inl rfl
            · exact Or.inr ⟨h, h'⟩
        · simp only [List.flatten_cons, List.cons_append, List.nil_append, List.map_cons, List.pairwise_cons]
          refine ⟨fun a ha => ?_, h2⟩
          have := (h1 a).1 ha
          omega
        · intro e he
          simp only [List.flatten_cons, List.cons_append, List.nil_append, List.mem_cons] at he
          rcases he with rfl | he
          · exact hcand
          · exact h3 e he

end Fog.Fagin
