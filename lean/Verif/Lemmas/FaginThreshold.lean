import Verif.Lemmas.Fagin

/-!
# The loop of `threshold_algorithm_k1`
-/

namespace Fog.Fagin

open Fog.Spec

variable {κ F : Type} [DecidableEq κ] [LinearOrder F]

theorem mem_dict_set {d : Dict κ F} {k : κ} {v : F} {e : κ × F} (h : e ∈ d.set k v) : e = (k, v) ∨ e ∈ d := by
  induction d with
  | nil => simpa [Dict.set] using h
  | cons x d ih =>
      rw [Dict.set] at h
      split at h
      · rename_i hk
        rcases List.mem_cons.1 h with h | h
        · exact Or.inl (by rw [h, hk])
        · exact Or.inr (List.mem_cons_of_mem _ h)
      · rcases List.mem_cons.1 h with h | h
        · exact Or.inr (by rw [h]; exact List.mem_cons_self)
        · rcases ih h with h | h
          · exact Or.inl h
          · exact Or.inr (List.mem_cons_of_mem _ h)

/-- What is known of the state for the vector `i`, whose similarities are `cs`. -/
structure TInv (vectors : List (Dict κ F)) (i : Nat) (cs : Nat → F) (s : TState κ F) : Prop where
  visited : ∀ j ∈ s.visited, j ≠ i ∧ ShareDimension vectors i j
  none : s.best = none → s.visited = []
  some : ∀ c j, s.best = some (c, j) → j ∈ s.visited ∧ c = cs j ∧ ∀ j' ∈ s.visited, cs j' ≤ c
  t_vector : ∀ e ∈ s.t_vector, ∃ j, j ≠ i ∧ HasWeight vectors j e.1 e.2
  t_nodup : s.t_vector.keys.Nodup

/-- The entry at `o` of the list of `d` has been read, or the next one if that is the vector itself. -/
def Read (L : κ → List (F × Nat)) (i o : Nat) (d : κ) (visited : List Nat) : Prop :=
  ∀ e, (L d)[o]? = some e → (e.2 ≠ i → e.2 ∈ visited) ∧ (e.2 = i → ∀ e', (L d)[o + 1]? = some e' → e'.2 ∈ visited)

omit [DecidableEq κ] [LinearOrder F] in
theorem Read.mono {L : κ → List (F × Nat)} {i o : Nat} {d : κ} {v v' : List Nat} (h : Read L i o d v) (hv : v ⊆ v') : Read L i o d v' :=
  fun e he => ⟨fun h1 => hv ((h e he).1 h1), fun h1 e' he' => hv ((h e he).2 h1 e' he')⟩

theorem look_spec {vectors : List (Dict κ F)} (hv : AreVectors vectors) {i : Nat} {v : Dict κ F} (hi : vectors[i]? = some v)
    {similarity : Nat → Nat → Py F} {cs : Nat → F} (hcs : ∀ j, j ≠ i → ShareDimension vectors i j → similarity i j = .ok (cs j))
    (o : Nat) {s : TState κ F} (h : TInv vectors i cs s) {d : κ} (hd : d ∈ v.keys) :
    ∃ s', look similarity (invertedList vectors) i o s d = .ok s' ∧ TInv vectors i cs s' ∧ s.visited ⊆ s'.visited ∧
      Read (invertedList vectors) i o d s'.visited ∧ (s'.stop = true ↔ s.stop = true ∧ (invertedList vectors d)[o]? = none) := by
  have hshare : ∀ w j, (w, j) ∈ invertedList vectors d → ShareDimension vectors i j := by
    intro w j hm
    rw [mem_invertedList] at hm
    rw [← has_iff hi] at hd
    obtain ⟨w', hw'⟩ := hd
    exact ⟨d, w', w, hw', hm⟩
  -- the common part: an entry of another vector
  have main : ∀ e, e ∈ invertedList vectors d → e.2 ≠ i → ∃ s',
      (if e.2 ∈ s.visited then (.ok { s with stop := false, t_vector := s.t_vector.set d e.1 } : Py (TState κ F))
      else
        match similarity i e.2 with
        | .error x => .error x
        | .ok c =>
            if s.best.all fun b => decide (c > b.1) then
              .ok ⟨e.2 :: s.visited, some (c, e.2), s.t_vector.set d e.1, false⟩
            else .ok ⟨e.2 :: s.visited, s.best, s.t_vector.set d e.1, false⟩) = .ok s' ∧ TInv vectors i cs s' ∧
      s.visited ⊆ s'.visited ∧ e.2 ∈ s'.visited ∧ s'.stop = false := by
    intro e he hne
    have ht : ∀ x ∈ s.t_vector.set d e.1, ∃ j, j ≠ i ∧ HasWeight vectors j x.1 x.2 := by
      intro x hx
      rcases mem_dict_set hx with rfl | hx
      · exact ⟨e.2, hne, (mem_invertedList _ _ _ _).1 he⟩
      · exact h.t_vector x hx
    have htn := Dict.nodup_keys_set h.t_nodup d e.1
    by_cases hvis : e.2 ∈ s.visited
    · rw [if_pos hvis]
      exact ⟨_, rfl, ⟨h.visited, h.none, h.some, ht, htn⟩, fun _ h => h, hvis, rfl⟩
    · have hsh := hshare e.1 e.2 he
      rw [if_neg hvis, hcs e.2 hne hsh]
      have hvis' : ∀ j ∈ e.2 :: s.visited, j ≠ i ∧ ShareDimension vectors i j := by
        intro j hj
        rcases List.mem_cons.1 hj with rfl | hj
        · exact ⟨hne, hsh⟩
        · exact h.visited j hj
      simp only
      by_cases hb : (s.best.all fun b => decide (cs e.2 > b.1)) = true
      · rw [if_pos hb]
        refine ⟨_, rfl, ⟨hvis', by simp, ?_, ht, htn⟩, fun _ h => List.mem_cons_of_mem _ h, List.mem_cons_self, rfl⟩
        intro c j hcj
        simp only [Option.some.injEq, Prod.mk.injEq] at hcj
        obtain ⟨rfl, rfl⟩ := hcj
        refine ⟨List.mem_cons_self, rfl, fun j' hj' => ?_⟩
        rcases List.mem_cons.1 hj' with rfl | hj'
        · exact le_refl _
        · cases hbest : s.best with
          | none => rw [h.none hbest] at hj'; cases hj'
          | some b =>
              rw [hbest] at hb
              simp only [Option.all_some, decide_eq_true_eq] at hb
              exact le_trans ((h.some b.1 b.2 hbest).2.2 j' hj') (le_of_lt hb)
      · rw [if_neg hb]
        cases hbest : s.best with
        | none => rw [hbest] at hb; simp at hb
        | some b =>
            refine ⟨_, rfl, ⟨hvis', by simp, ?_, ht, htn⟩, fun _ h => List.mem_cons_of_mem _ h, List.mem_cons_self, rfl⟩
            intro c j hcj
            simp only [Option.some.injEq] at hcj
            subst hcj
            obtain ⟨h1, h2, h3⟩ := h.some c j hbest
            refine ⟨List.mem_cons_of_mem _ h1, h2, fun j' hj' => ?_⟩
            rcases List.mem_cons.1 hj' with rfl | hj'
            · rw [hbest] at hb
              simpa using hb
            · exact h3 j' hj'
  unfold look
  cases ho : (invertedList vectors d)[o]? with
  | none => exact ⟨s, rfl, h, fun _ h => h, (fun e he => by rw [ho] at he; cases he), by simp⟩
  | some e =>
      simp only
      by_cases hie : i = e.2
      · rw [if_pos hie]
        cases ho' : (invertedList vectors d)[o + 1]? with
        | none =>
            refine ⟨{ s with stop := false }, rfl, ⟨h.visited, h.none, h.some, h.t_vector, h.t_nodup⟩, fun _ h => h, ?_, by simp⟩
            intro x hx
            rw [ho] at hx
            cases hx
            exact ⟨fun h1 => absurd hie.symm h1, fun _ e' he' => by rw [ho'] at he'; cases he'⟩
        | some e' =>
            have hne : e'.2 ≠ i := by
              intro hc
              have hnd := nodup_invertedList hv d
              have h1 : ((invertedList vectors d).map Prod.snd)[o]? = some i := by rw [List.getElem?_map, ho]; simp [hie]
              have h2 : ((invertedList vectors d).map Prod.snd)[o + 1]? = some i := by rw [List.getElem?_map, ho']; simp [hc]
              have h3 := (List.getElem?_eq_some_iff.1 h1).1
              have := (List.getElem?_inj h3 hnd).1 (h1.trans h2.symm)
              omega
            obtain ⟨s', hs', h1, h2, h3, h4⟩ := main e' (List.mem_of_getElem? ho') hne
            refine ⟨s', hs', h1, h2, ?_, by simp [h4]⟩
            intro x hx
            rw [ho] at hx
            cases hx
            exact ⟨fun h1 => absurd hie.symm h1, fun _ y hy => by rw [ho'] at hy; cases hy; exact h3⟩
      · rw [if_neg hie]
        obtain ⟨s', hs', h1, h2, h3, h4⟩ := main e (List.mem_of_getElem? ho) (fun h => hie h.symm)
        refine ⟨s', hs', h1, h2, ?_, by simp [h4]⟩
        intro x hx
        rw [ho] at hx
        cases hx
        exact ⟨fun _ => h3, fun h1 => absurd h1.symm hie⟩

theorem look_foldlM {vectors : List (Dict κ F)} (hv : AreVectors vectors) {i : Nat} {v : Dict κ F} (hi : vectors[i]? = some v)
    {similarity : Nat → Nat → Py F} {cs : Nat → F} (hcs : ∀ j, j ≠ i → ShareDimension vectors i j → similarity i j = .ok (cs j))
    (o : Nat) (dims : List κ) (hd : dims ⊆ v.keys) {s : TState κ F} (h : TInv vectors i cs s) :
    ∃ s', dims.foldlM (look similarity (invertedList vectors) i o) s = .ok s' ∧ TInv vectors i cs s' ∧ s.visited ⊆ s'.visited ∧
      (∀ d ∈ dims, Read (invertedList vectors) i o d s'.visited) ∧
      (s'.stop = true ↔ s.stop = true ∧ ∀ d ∈ dims, (invertedList vectors d)[o]? = none) := by
  induction dims generalizing s with
  | nil => exact ⟨s, rfl, h, fun _ h => h, by simp, by simp⟩
  | cons d dims ih =>
      obtain ⟨s1, h1, h2, h3, h4, h5⟩ := look_spec hv hi hcs o h (hd List.mem_cons_self)
      obtain ⟨s', g1, g2, g3, g4, g5⟩ := ih (fun x hx => hd (List.mem_cons_of_mem _ hx)) h2
      refine ⟨s', ?_, g2, fun x hx => g3 (h3 hx), ?_, ?_⟩
      · rw [List.foldlM_cons, h1]; exact g1
      · intro x hx
        rcases List.mem_cons.1 hx with rfl | hx
        · exact h4.mono g3
        · exact g4 x hx
      · rw [g5, h5]; simp only [List.mem_cons, forall_eq_or_imp]; grind

/-- The other vectors which are before `o` in the lists have been visited, and those which are first. -/
def Done (L : κ → List (F × Nat)) (dims : List κ) (i o : Nat) (visited : List Nat) : Prop :=
  (∀ d ∈ dims, ∀ k < o, ∀ e, (L d)[k]? = some e → e.2 ≠ i → e.2 ∈ visited) ∧
  (0 < o → ∀ d ∈ dims, Read L i 0 d visited)

theorem first_read {vectors : List (Dict κ F)} (hv : AreVectors vectors) {i : Nat} {d : κ} {visited : List Nat}
    (h : Read (invertedList vectors) i 0 d visited) {j : Nat} {w : F} (hj : j ≠ i) (hw : HasWeight vectors j d w)
    (hmin : ∀ j' w', j' ≠ i → HasWeight vectors j' d w' → w < w' ∨ (w = w' ∧ j ≤ j')) : j ∈ visited := by
  have hm : (w, j) ∈ invertedList vectors d := (mem_invertedList _ _ _ _).2 hw
  have hs := sorted_invertedList vectors d
  have hnd := nodup_invertedList hv d
  have key : ∀ e, e ∈ invertedList vectors d → e.2 ≠ i →
      (e.1 < w ∨ (e.1 = w ∧ e.2 ≤ j)) → e.2 = j := by
    intro e he hei hle
    rcases hmin e.2 e.1 hei ((mem_invertedList _ _ _ _).1 he) with h1 | ⟨h1, h1'⟩ <;> rcases hle with h2 | ⟨h2, h2'⟩
    · exact absurd h1 (lt_asymm h2)
    · exact absurd h1 (by rw [h2]; exact lt_irrefl _)
    · exact absurd h2 (by rw [h1]; exact lt_irrefl _)
    · omega
  cases hl : invertedList vectors d with
  | nil => rw [hl] at hm; cases hm
  | cons a l =>
      rw [hl] at hs hm key hnd
      rw [List.pairwise_cons] at hs
      have ha : (invertedList vectors d)[0]? = some a := by rw [hl]; rfl
      by_cases hai : a.2 = i
      · cases l with
        | nil =>
            simp only [List.mem_singleton] at hm
            subst hm
            exact absurd hai hj
        | cons b l =>
            have hb : (invertedList vectors d)[0 + 1]? = some b := by rw [hl]; rfl
            have hbv := (h a ha).2 hai b hb
            rcases List.mem_cons.1 hm with hm | hm
            · subst hm; exact absurd hai hj
            · rcases List.mem_cons.1 hm with hm | hm
              · subst hm; exact hbv
              · have hbi : b.2 ≠ i := by
                  simp only [List.map_cons, List.nodup_cons, List.mem_cons, not_or] at hnd
                  intro hc
                  exact hnd.1.1 (hai.trans hc.symm)
                have := key b (List.mem_cons_of_mem _ List.mem_cons_self) hbi ((List.pairwise_cons.1 hs.2).1 _ hm)
                rw [← this]; exact hbv
      · have hav := (h a ha).1 hai
        rcases List.mem_cons.1 hm with hm | hm
        · subst hm; exact hav
        · have := key a List.mem_cons_self hai (hs.1 _ hm)
          rw [← this]; exact hav

theorem thresholdLoop_spec {vectors : List (Dict κ F)} (hv : AreVectors vectors) {i : Nat} {v : Dict κ F} (hi : vectors[i]? = some v)
    {similarity : Nat → Nat → Py F} {cs : Nat → F} (hcs : ∀ j, j ≠ i → ShareDimension vectors i j → similarity i j = .ok (cs j))
    {threshold : Nat → Dict κ F → Py F}
    {T : Dict κ F → F} (ht : ∀ t : Dict κ F, t.keys.Nodup → (∀ e ∈ t, ∃ j, j ≠ i ∧ HasWeight vectors j e.1 e.2) →
      threshold i t = .ok (T t))
    (fuel o : Nat) (ho : o ≤ vectors.length) (hf : vectors.length < fuel + o) {s : TState κ F} (h : TInv vectors i cs s)
    (hd : Done (invertedList vectors) v.keys i o s.visited) :
    ∃ j, thresholdLoop similarity threshold (invertedList vectors) v.keys i fuel o s = .ok (some j) ∧
      ThresholdAnswer vectors i cs T j := by
  have hdim : ∀ d, Has vectors i d ↔ d ∈ v.keys := has_iff hi
  induction fuel generalizing o s with
  | zero => omega
  | succ fuel ih =>
      have h0 : TInv vectors i cs { s with stop := true } := ⟨h.visited, h.none, h.some, h.t_vector, h.t_nodup⟩
      obtain ⟨s', g1, g2, g3, g4, g5⟩ := look_foldlM hv hi hcs o v.keys (fun _ h => h) h0
      have hd' : Done (invertedList vectors) v.keys i (o + 1) s'.visited := by
        refine ⟨fun d hdk k hk e he hei => ?_, fun _ d hdk => ?_⟩
        · rcases Nat.lt_or_eq_of_le (Nat.lt_succ_iff.1 hk) with hk | rfl
          · exact g3 (hd.1 d hdk k hk e he hei)
          · exact (g4 d hdk e he).1 hei
        · rcases Nat.eq_zero_or_pos o with rfl | hpos
          · exact g4 d hdk
          · exact (hd.2 hpos d hdk).mono g3
      have hfirst : ∀ c j, s'.best = some (c, j) → ∀ d w j' w', HasWeight vectors i d w → j' ≠ i → HasWeight vectors j' d w' →
          (∀ j'' w'', j'' ≠ i → HasWeight vectors j'' d w'' → w' < w'' ∨ (w' = w'' ∧ j' ≤ j'')) → cs j' ≤ cs j := by
        intro c j hb d w j' w' hw hj' hw' hmin
        obtain ⟨_, hc, hbest⟩ := g2.some c j hb
        have := first_read hv (hd'.2 (Nat.succ_pos _) d ((hdim d).1 ⟨w, hw⟩)) hj' hw' hmin
        rw [← hc]
        exact hbest j' this
      rw [thresholdLoop, g1]
      simp only
      by_cases hstop : s'.stop = true
      · rw [if_pos hstop]
        have hend := (g5.1 hstop).2
        have hall : ∀ j, j ≠ i → ShareDimension vectors i j → j ∈ s'.visited := by
          rintro j hj ⟨d, w, w', hw, hw'⟩
          have hdk : d ∈ v.keys := (hdim d).1 ⟨w, hw⟩
          have hm : (w', j) ∈ invertedList vectors d := (mem_invertedList _ _ _ _).2 hw'
          obtain ⟨k, hk⟩ := List.mem_iff_getElem?.1 hm
          have hlen := hend d hdk
          have hk' := (List.getElem?_eq_some_iff.1 hk).1
          simp only [List.getElem?_eq_none_iff] at hlen
          exact g3 (hd.1 d hdk k (by omega) (w', j) hk hj)
        cases hb : s'.best with
        | none =>
            refine ⟨i, rfl, Or.inl ⟨rfl, fun j' hj' hs => ?_⟩⟩
            have := hall j' hj' hs
            rw [g2.none hb] at this
            cases this
        | some b =>
            obtain ⟨c, j⟩ := b
            obtain ⟨h1, h2, h3⟩ := g2.some c j hb
            obtain ⟨h4, h5⟩ := g2.visited j h1
            exact ⟨j, rfl, Or.inr ⟨h4, h5, hfirst c j hb, Or.inl fun j' hj' hs => by rw [← h2]; exact h3 j' (hall j' hj' hs)⟩⟩
      · rw [if_neg hstop]
        have hlt : o + 1 ≤ vectors.length := by
          by_contra hc
          refine hstop (g5.2 ⟨rfl, fun d _ => ?_⟩)
          have := length_invertedList hv d
          simp; omega
        rw [ht s'.t_vector g2.t_nodup g2.t_vector]
        simp only
        cases hb : s'.best with
        | none => exact ih (o + 1) hlt (by omega) g2 hd'
        | some b =>
            obtain ⟨c, j⟩ := b
            simp only
            by_cases hcr : c ≥ T s'.t_vector
            · rw [if_pos hcr]
              obtain ⟨h1, h2, h3⟩ := g2.some c j hb
              obtain ⟨h4, h5⟩ := g2.visited j h1
              exact ⟨j, rfl, Or.inr ⟨h4, h5, hfirst c j hb, Or.inr ⟨s'.t_vector, g2.t_nodup, g2.t_vector, by rw [← h2]; exact hcr⟩⟩⟩
            · rw [if_neg hcr]
              exact ih (o + 1) hlt (by omega) g2 hd'

theorem answers_all {vectors : List (Dict κ F)} (hv : AreVectors vectors) {similarity : Nat → Nat → Py F} {cs : Nat → Nat → F}
    (hcs : ∀ i j, j ≠ i → ShareDimension vectors i j → similarity i j = .ok (cs i j)) {threshold : Nat → Dict κ F → Py F}
    {T : Nat → Dict κ F → F} (ht : ∀ i (t : Dict κ F), i < vectors.length → t.keys.Nodup →
      (∀ e ∈ t, ∃ j, j ≠ i ∧ HasWeight vectors j e.1 e.2) → threshold i t = .ok (T i t))
    {fuel : Nat} (hf : vectors.length < fuel) :
    ∃ js : List Nat, js.length = vectors.length ∧
      thresholdAlgorithmK1 similarity threshold fuel vectors = .ok (js.zipIdx.map fun e => (e.2, some e.1)) ∧
      ∀ i j, js[i]? = some j → ThresholdAnswer vectors i (cs i) (T i) j := by
  have h : ∀ (rest : List (Dict κ F)) (k : Nat), vectors.drop k = rest → ∃ js : List Nat, js.length = rest.length ∧
      ((rest.zipIdx k).mapM fun v => do
        let j ← thresholdLoop similarity threshold (invertedList vectors) v.1.keys v.2 fuel 0 ⟨[], none, [], true⟩
        pure (v.2, j)) = (.ok ((js.zipIdx k).map fun e => (e.2, some e.1)) : Py _) ∧
      ∀ i j, js[i]? = some j → ThresholdAnswer vectors (k + i) (cs (k + i)) (T (k + i)) j := by
    intro rest
    induction rest with
    | nil => intro k _; exact ⟨[], rfl, rfl, by simp⟩
    | cons v rest ih =>
        intro k hr
        have hvi : vectors[k]? = some v := by
          have := congrArg (fun l => l[0]?) hr
          simpa using this
        have hr' : vectors.drop (k + 1) = rest := by
          have := congrArg List.tail hr
          simpa using this
        have hk := (List.getElem?_eq_some_iff.1 hvi).1
        obtain ⟨js, h1, h2, h3⟩ := ih (k + 1) hr'
        obtain ⟨j, hj, ha⟩ := thresholdLoop_spec hv hvi (hcs k) (threshold := threshold) (T := T k) (fun t hn h => ht k t hk hn h) fuel 0
          (Nat.zero_le _) (by omega) (s := ⟨[], none, [], true⟩) ⟨by simp, by simp, by simp, by simp, by simp [Dict.keys]⟩ ⟨by simp, by simp⟩
        refine ⟨j :: js, by simp [h1], ?_, ?_⟩
        · rw [List.zipIdx_cons, List.mapM_cons, h2]
          simp only [hj]
          rfl
        · intro i j' hi
          cases i with
          | zero => simp at hi; subst hi; exact ha
          | succ i =>
              have := h3 i j' (by simpa using hi)
              rwa [show k + (i + 1) = k + 1 + i by omega]
  obtain ⟨js, h1, h2, h3⟩ := h vectors 0 (by simp)
  refine ⟨js, h1, h2, fun i j hi => ?_⟩
  have := h3 i j hi
  rwa [Nat.zero_add] at this

end Fog.Fagin
