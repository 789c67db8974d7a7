import Verif.Model.Ppjoin
import Verif.Lemmas.SortedLists
import Verif.Lemmas.SuffixFilter
import Verif.Lemmas.Dict

/-! # Lemmas on ppjoin -/

namespace Fog.Ppjoin

variable {τ K : Type _} [LinearOrder τ] [Field K] [LinearOrder K]

/-! ## compute_overlap -/

theorem computeOverlap_spec (req : Int) (x y : List τ) (hx : Increasing x) (hy : Increasing y) (cur : Int) :
    (computeOverlap req x y cur = cur + common x y) ∨
      (computeOverlap req x y cur = -1 ∧ cur + common x y < req) := by
  match x, y with
  | [], y => left; simp [computeOverlap, common]
  | a :: x, [] => left; simp [computeOverlap, common]
  | a :: x, b :: y =>
      obtain ⟨hax, hx'⟩ := List.pairwise_cons.mp hx
      obtain ⟨hby, hy'⟩ := List.pairwise_cons.mp hy
      unfold computeOverlap
      split
      · next h =>
        right
        refine ⟨rfl, ?_⟩
        have h1 := common_le_left (a :: x) (b :: y)
        have h2 := common_le_right (b :: y) hx.nodup
        rcases h with h | h <;> omega
      split
      · next h hab =>
        subst hab
        have hc : common (a :: x) (a :: y) = common x y + 1 := by
          have h1 : common (a :: x) (a :: y) = common x (a :: y) + 1 := by simp [common]
          rw [h1]
          congr 1
          apply Nat.le_antisymm
          · apply common_mono_right
            intro c ha hay
            rcases List.mem_cons.mp hay with h2 | h2
            · exact absurd (hax c ha) (by rw [h2]; exact lt_irrefl _)
            · exact h2
          · exact common_mono_right fun a _ h2 => List.mem_cons_of_mem _ h2
        rcases computeOverlap_spec req x y hx' hy' (cur + 1) with h1 | ⟨h1, h2⟩
        · left; rw [h1, hc]; push_cast; ring
        · right; refine ⟨h1, ?_⟩; rw [hc]; push_cast; omega
      split
      · next h hab hlt =>
        have hc : common (a :: x) (b :: y) = common x (b :: y) := by
          have : a ∉ b :: y := by
            intro hm
            rcases List.mem_cons.mp hm with h2 | h2
            · exact hab h2
            · exact absurd (hby a h2) (not_lt_of_gt hlt)
          simp only [common, List.filter_cons, this, decide_false, Bool.false_eq_true, if_false]
        rw [hc]
        exact computeOverlap_spec req x (b :: y) hx' hy cur
      · next h hab hlt =>
        have hba : b < a := lt_of_le_of_ne (le_of_not_gt hlt) (fun h => hab h.symm)
        have hc : common (a :: x) (b :: y) = common (a :: x) y := by
          apply Nat.le_antisymm
          · apply common_mono_right
            intro c hcx hcy
            rcases List.mem_cons.mp hcy with h2 | h2
            · subst h2
              rcases List.mem_cons.mp hcx with h3 | h3
              · exact absurd hba (by rw [h3]; exact lt_irrefl _)
              · exact absurd (hax _ h3) (not_lt_of_gt hba)
            · exact h2
          · exact common_mono_right fun a _ h2 => List.mem_cons_of_mem _ h2
        rw [hc]
        exact computeOverlap_spec req (a :: x) y hx hy' cur
termination_by x.length + y.length

/-! ## The inverted index -/

/-- What is known of the index: its entries are those satisfying `S`, entries passed are too short for `M`,
if `P` holds. -/
structure Inv (h : Helper K) (tok : List (List τ)) (P : Prop) (S : Nat → Nat → Prop) (M : Int) (index : Index τ) : Prop where
  nodup : ∀ w, (((index.get? w).getD (0, [])).2.map Prod.fst).Nodup
  sound : ∀ w, ∀ e ∈ ((index.get? w).getD (0, [])).2, S e.1 e.2 ∧ (recordAt tok e.1)[e.2]? = some w
  complete : ∀ w c cp, S c cp → (recordAt tok c)[cp]? = some w →
    h.threshold < (h.indexLength (recordAt tok c).length : K) → (c, cp) ∈ ((index.get? w).getD (0, [])).2
  passed : P → ∀ w, ∀ e ∈ ((index.get? w).getD (0, [])).2.take ((index.get? w).getD (0, [])).1,
    ((recordAt tok e.1).length : Int) < M
  inside : ∀ w, ((index.get? w).getD (0, [])).1 ≤ ((index.get? w).getD (0, [])).2.length

theorem Inv.empty (h : Helper K) (tok : List (List τ)) (P : Prop) (M : Int) : Inv h tok P (fun _ _ => False) M [] where
  nodup := by intro w; simp [Dict.get?]
  sound := by intro w e he; simp [Dict.get?] at he
  complete := by intro w c cp hf; exact hf.elim
  passed := by intro _ w e he; simp [Dict.get?] at he
  inside := by intro w; simp [Dict.get?]

theorem Inv.mono {h : Helper K} {tok : List (List τ)} {P : Prop} {S : Nat → Nat → Prop} {M M' : Int}
    {index : Index τ} (hi : Inv h tok P S M index) (hM : P → M ≤ M') : Inv h tok P S M' index where
  nodup := hi.nodup
  sound := hi.sound
  complete := hi.complete
  passed := fun hP w e he => lt_of_lt_of_le (hi.passed hP w e he) (hM hP)
  inside := hi.inside

theorem Inv.congr {h : Helper K} {tok : List (List τ)} {P : Prop} {S S' : Nat → Nat → Prop} {M : Int}
    {index : Index τ} (hi : Inv h tok P S M index) (hS : ∀ c cp, S c cp ↔ S' c cp) : Inv h tok P S' M index where
  nodup := hi.nodup
  sound := fun w e he => ⟨(hS _ _).mp (hi.sound w e he).1, (hi.sound w e he).2⟩
  complete := fun w c cp hc => hi.complete w c cp ((hS _ _).mpr hc)
  passed := hi.passed
  inside := hi.inside

/-- The entries examined for a token, and the index after. -/
theorem tokenStep_spec {h : Helper K} {config : Config} {tok : List (List τ)} {k t : Nat} {P : Prop} {S : Nat → Nat → Prop}
    {index : Index τ} {occ : Dict Nat Int} (hk : Increasing (recordAt tok k))
    (hi : Inv h tok P S (h.minPossibleLength (recordAt tok k).length) index) (hS : ∀ cp, S k cp → cp < t) {w : τ}
    (hw : (recordAt tok k)[t]? = some w) :
    ∃ es : List Entry, (es.map Prod.fst).Nodup ∧ (∀ e ∈ es, S e.1 e.2 ∧ (recordAt tok e.1)[e.2]? = some w ∧ e.1 ≠ k) ∧
      (P → ∀ c cp, S c cp → (recordAt tok c)[cp]? = some w →
        h.threshold < (h.indexLength (recordAt tok c).length : K) →
        h.minPossibleLength (recordAt tok k).length ≤ ((recordAt tok c).length : Int) → (c, cp) ∈ es) ∧
      ((∃ e, candidateLoop h config tok (recordAt tok k) t es occ = .error e ∧
          tokenStep h config tok k index occ t = .error e) ∨
       ∃ occ' index', candidateLoop h config tok (recordAt tok k) t es occ = .ok occ' ∧
          tokenStep h config tok k index occ t = .ok (index', occ') ∧
          Inv h tok P (fun c cp => S c cp ∨ (c = k ∧ cp = t)) (h.minPossibleLength (recordAt tok k).length) index') := by
  generalize hpi : (index.get? w).getD (0, []) = pi
  obtain ⟨pos, ids⟩ := pi
  have hnd := hi.nodup w
  have hsd := hi.sound w
  have hcp := hi.complete w
  have hps := fun hP => hi.passed hP w
  have hin := hi.inside w
  rw [hpi] at hnd hsd hcp hps hin
  simp only at hnd hsd hcp hps hin
  let M := h.minPossibleLength (recordAt tok k).length
  let pos' := pos + ((ids.drop pos).takeWhile fun e => decide (((recordAt tok e.1).length : Int) < M)).length
  -- everything passed is too short
  have hps' : P → ∀ e ∈ ids.take pos', ((recordAt tok e.1).length : Int) < M := by
    intro hP e he
    rw [List.take_add] at he
    rcases List.mem_append.mp he with h1 | h1
    · exact hps hP e h1
    · have h2 : (ids.drop pos).take ((ids.drop pos).takeWhile fun e => decide (((recordAt tok e.1).length : Int) < M)).length
          = (ids.drop pos).takeWhile fun e => decide (((recordAt tok e.1).length : Int) < M) := by
        exact (List.prefix_iff_eq_take.mp (List.takeWhile_prefix _)).symm
      rw [h2] at h1
      have h3 := List.all_eq_true.mp (List.all_takeWhile (l := ids.drop pos) (p := fun e : Entry => decide (((recordAt tok e.1).length : Int) < M))) e h1
      simpa using h3
  refine ⟨ids.drop pos', hnd.sublist ((List.drop_sublist _ _).map _), ?_, ?_, ?_⟩
  · intro e he
    have hm : e ∈ ids := List.drop_subset _ _ he
    obtain ⟨h1, h2⟩ := hsd e hm
    refine ⟨h1, h2, ?_⟩
    intro hek
    have h3 := hS e.2 (hek ▸ h1)
    rw [hek] at h2
    obtain ⟨h4, h5⟩ := List.getElem?_eq_some_iff.mp h2
    obtain ⟨h6, h7⟩ := List.getElem?_eq_some_iff.mp hw
    have := hk.getElem_lt h3 h6
    rw [h5, h7] at this
    exact lt_irrefl _ this
  · intro hP c cp h1 h2 h3 h4
    have hm := hcp c cp h1 h2 h3
    rw [← List.take_append_drop pos' ids] at hm
    rcases List.mem_append.mp hm with h5 | h5
    · have := hps' hP _ h5
      exact absurd this (not_lt_of_ge h4)
    · exact h5
  · cases hc : candidateLoop h config tok (recordAt tok k) t (ids.drop pos') occ with
    | error e =>
        left
        refine ⟨e, rfl, ?_⟩
        simp only [tokenStep, hw, hpi]
        simp only [pos', M] at hc
        rw [hc]
    | ok occ' =>
        right
        refine ⟨occ', index.set w (pos', if h.threshold < (h.indexLength (recordAt tok k).length : K) then ids ++ [(k, t)] else ids), rfl, ?_, ?_⟩
        · simp only [tokenStep, hw, hpi]
          have hc' := hc
          simp only [pos', M] at hc'
          rw [hc']
        · have hkt : (k, t) ∉ ids := by
            intro hm
            exact absurd (hS t (hsd _ hm).1) (lt_irrefl _)
          have hkk : ∀ e ∈ ids, e.1 ≠ k := by
            intro e hm hek
            obtain ⟨h1, h2⟩ := hsd e hm
            have h3 := hS e.2 (hek ▸ h1)
            rw [hek] at h2
            obtain ⟨h4, h5⟩ := List.getElem?_eq_some_iff.mp h2
            obtain ⟨h6, h7⟩ := List.getElem?_eq_some_iff.mp hw
            have := hk.getElem_lt h3 h6
            rw [h5, h7] at this
            exact lt_irrefl _ this
          have hle : pos' ≤ ids.length := by
            have h1 := (List.takeWhile_prefix (l := ids.drop pos) fun e => decide (((recordAt tok e.1).length : Int) < M)).length_le
            rw [List.length_drop] at h1
            simp only [pos']
            omega
          constructor
          · intro w'
            rw [Dict.get?_set]
            split
            · simp only [Option.getD_some]
              split
              · rw [List.map_append, List.nodup_append]
                refine ⟨hnd, by simp, ?_⟩
                intro a ha b hb
                obtain ⟨e, he, rfl⟩ := List.mem_map.mp ha
                simp only [List.map_cons, List.map_nil, List.mem_singleton] at hb
                rw [hb]; exact hkk e he
              · exact hnd
            · exact hi.nodup w'
          · intro w' e he
            rw [Dict.get?_set] at he
            split at he
            · next hww =>
              subst hww
              simp only [Option.getD_some] at he
              split at he
              · rcases List.mem_append.mp he with h1 | h1
                · exact ⟨Or.inl (hsd e h1).1, (hsd e h1).2⟩
                · simp only [List.mem_singleton] at h1
                  subst h1
                  exact ⟨Or.inr ⟨rfl, rfl⟩, hw⟩
              · exact ⟨Or.inl (hsd e he).1, (hsd e he).2⟩
            · exact ⟨Or.inl (hi.sound w' e he).1, (hi.sound w' e he).2⟩
          · intro w' c cp hc1 hc2 hc3
            rw [Dict.get?_set]
            split
            · next hww =>
              subst hww
              simp only [Option.getD_some]
              rcases hc1 with h1 | ⟨rfl, rfl⟩
              · have := hcp c cp h1 hc2 hc3
                split
                · exact List.mem_append_left _ this
                · exact this
              · rw [if_pos hc3]; simp
            · next hww =>
              rcases hc1 with h1 | ⟨rfl, rfl⟩
              · exact hi.complete w' c cp h1 hc2 hc3
              · rw [hw] at hc2
                exact absurd (Option.some.inj hc2) hww
          · intro hP w' e he
            rw [Dict.get?_set] at he
            split at he
            · simp only [Option.getD_some] at he
              split at he
              · rw [List.take_append_of_le_length hle] at he
                exact hps' hP e he
              · exact hps' hP e he
            · exact hi.passed hP w' e he
          · intro w'
            rw [Dict.get?_set]
            split
            · simp only [Option.getD_some]
              split
              · rw [List.length_append]; omega
              · exact hle
            · exact hi.inside w'

/-! ## Counting the tokens in common -/

theorem candidateValue_none {h : Helper K} {config : Config} {tok : List (List τ)} {x : List τ} {t : Nat} {e : Entry}
    {value : Option Int} (hv : candidateValue h config tok x t e value = .ok none) : value = none := by
  cases value with
  | none => rfl
  | some v =>
      exfalso
      unfold candidateValue at hv
      split at hv
      · simp at hv
      · simp only [Option.map_some] at hv
        grind

theorem candidateLoop_spec {h : Helper K} {config : Config} {tok : List (List τ)} {x : List τ} {t : Nat} {es : List Entry}
    {occ occ' : Dict Nat Int} (hnd : (es.map Prod.fst).Nodup)
    (hl : candidateLoop h config tok x t es occ = .ok occ') :
    (∀ c, c ∉ es.map Prod.fst → occ'.get? c = occ.get? c) ∧
    (∀ e ∈ es, candidateValue h config tok x t e (occ.get? e.1) = .ok (occ'.get? e.1)) ∧
    (∀ c ∈ Dict.keys occ', c ∈ Dict.keys occ ∨ c ∈ es.map Prod.fst) ∧
    ((Dict.keys occ).Nodup → (Dict.keys occ').Nodup) := by
  induction es generalizing occ with
  | nil =>
      simp only [candidateLoop, Except.ok.injEq] at hl
      subst hl
      simp
  | cons e es ih =>
      simp only [List.map_cons, List.nodup_cons] at hnd
      cases hs : candidateStep h config tok x t occ e with
      | error err => simp [candidateLoop, hs] at hl
      | ok occ1 =>
          simp only [candidateLoop, hs] at hl
          obtain ⟨h1, h2, h3, h4⟩ := ih hnd.2 hl
          -- what the step does
          have hstep : candidateValue h config tok x t e (occ.get? e.1) = .ok (occ1.get? e.1) ∧
              (∀ c, c ≠ e.1 → occ1.get? c = occ.get? c) ∧ (∀ c ∈ Dict.keys occ1, c ∈ Dict.keys occ ∨ c = e.1) ∧
              ((Dict.keys occ).Nodup → (Dict.keys occ1).Nodup) := by
            unfold candidateStep at hs
            split at hs
            · simp at hs
            · next hv =>
              simp only [Except.ok.injEq] at hs
              subst hs
              rw [hv, candidateValue_none hv]
              exact ⟨rfl, fun _ _ => rfl, fun c hc => Or.inl hc, id⟩
            · next v hv =>
              simp only [Except.ok.injEq] at hs
              subst hs
              rw [hv]
              refine ⟨by rw [Dict.get?_set, if_pos rfl], ?_, ?_, fun hn => Dict.nodup_keys_set hn _ _⟩
              · intro c hc
                rw [Dict.get?_set, if_neg (fun h => hc h.symm)]
              · intro c hc
                rw [Dict.keys_set] at hc
                split at hc
                · exact Or.inl hc
                · simpa using hc
          obtain ⟨g1, g2, g3, g4⟩ := hstep
          refine ⟨?_, ?_, ?_, fun hn => h4 (g4 hn)⟩
          · intro c hc
            simp only [List.map_cons, List.mem_cons, not_or] at hc
            rw [h1 c hc.2, g2 c hc.1]
          · intro e' he'
            rcases List.mem_cons.mp he' with rfl | he'
            · rw [g1, h1 _ hnd.1]
            · have : e'.1 ≠ e.1 := by
                intro heq
                exact hnd.1 (heq ▸ List.mem_map_of_mem he')
              rw [← g2 _ this]
              exact h2 e' he'
          · intro c hc
            rw [List.map_cons, List.mem_cons]
            rcases h3 c hc with h5 | h5
            · rcases g3 c h5 with h6 | h6
              · exact Or.inl h6
              · exact Or.inr (Or.inl h6)
            · exact Or.inr (Or.inr h5)

theorem candidateLoop_ok {h : Helper K} {config : Config} {tok : List (List τ)} {x : List τ} {t : Nat} {es : List Entry}
    (hok : ∀ e ∈ es, ∀ v, ∃ v', candidateValue h config tok x t e v = .ok v') (occ : Dict Nat Int) :
    ∃ occ', candidateLoop h config tok x t es occ = .ok occ' := by
  induction es generalizing occ with
  | nil => exact ⟨occ, rfl⟩
  | cons e es ih =>
      obtain ⟨v', hv'⟩ := hok e (by simp) (occ.get? e.1)
      have ih' := ih fun e' he' => hok e' (by simp [he'])
      cases v' with
      | none => simp only [candidateLoop, candidateStep, hv']; exact ih' occ
      | some v => simp only [candidateLoop, candidateStep, hv']; exact ih' _

/-- The suffix filter raises nothing, and keeps a candidate which has enough in common. -/
theorem suffixFiltered_spec (config : Config) {x y : List τ} (hx : Increasing x) (hy : Increasing y) {cp t : Nat} (ht : t < y.length)
    (hcp : cp < x.length) (v : Option Int) (ro : Int) :
    ∃ b, suffixFiltered config x y cp t v ro = .ok b ∧ (y[t] = x[cp] → ro ≤ (common y x : Int) →
      twice v = 2 * (common (y.take t) (x.take cp) : Int) → b = false) := by
  unfold suffixFiltered
  split
  · generalize hw : twice v = w
    simp only
    have hev : ∃ u, w = 2 * u := by
      cases v with
      | none => exact ⟨0, by rw [← hw]; rfl⟩
      | some u => exact ⟨u, by rw [← hw]; rfl⟩
    obtain ⟨u, hu⟩ := hev
    by_cases hge : (x.length : Int) + y.length - 2 * ro + w - ((cp : Int) + t) ≥ 0
    · rw [if_pos hge]
      obtain ⟨r, hr, hle⟩ := suffixFilter_spec hx hy maxDepth (xs := cp) (xe := x.length) (ys := t) (ye := y.length)
        (hd := (x.length : Int) + y.length - 2 * ro + w - ((cp : Int) + t)) hcp.le (le_refl _) ht.le (le_refl _)
        (Or.inr ⟨hge, ro - u, by omega⟩)
      rw [hr]
      refine ⟨_, rfl, fun heq hro hvw => ?_⟩
      -- what is in common is before or after
      have hc := common_match_split hy hx ht hcp heq
      have hl1 : (x.drop cp).length = x.length - cp := List.length_drop
      have hl2 : (y.drop t).length = y.length - t := List.length_drop
      have hd : segDist x y cp x.length t y.length ≤ (x.length : Int) + y.length - 2 * ro + w - ((cp : Int) + t) := by
        unfold segDist hamming seg
        rw [List.take_length, List.take_length, hl1, hl2]
        omega
      have := hle hd
      simp only [decide_eq_false_iff_not]
      omega
    · rw [if_neg hge]
      exact ⟨_, rfl, fun _ _ _ => rfl⟩
  · exact ⟨_, rfl, fun _ _ _ => rfl⟩

theorem candidateValue_eq {h : Helper K} {config : Config} (ha : config.all_pairs = false) {tok : List (List τ)} {x : List τ} {t : Nat}
    {e : Entry} {v : Option Int} {ro : Int} (hro : requireOverlaps h x.length (recordAt tok e.1).length = .ok ro) :
    candidateValue h config tok x t e v =
      if v = some pruneFlag then .ok v
      else
        match suffixFiltered config (recordAt tok e.1) x e.2 t v ro with
        | .error e => .error e
        | .ok true => .ok (v.map fun _ => pruneFlag)
        | .ok false =>
            match v with
            | none =>
                if (x.length : K) - h.threshold < (ro : K) ∨ ((recordAt tok e.1).length : Int) - e.2 < ro then .ok none
                else .ok (some 1)
            | some value =>
                if (value : K) + ((x.length : K) - h.threshold) < (ro : K) ∨
                    value + (((recordAt tok e.1).length : Int) - e.2) < ro then .ok (some pruneFlag)
                else .ok (some (value + 1)) := by
  unfold candidateValue
  rw [ha]
  simp only [Bool.false_eq_true, if_false, hro]
  rfl

theorem candidateValue_ok {h : Helper K} {config : Config} {tok : List (List τ)} {x : List τ} {t : Nat} {e : Entry}
    (hx : Increasing x) (hc : Increasing (recordAt tok e.1)) (ht : t < x.length) (hcp : e.2 < (recordAt tok e.1).length)
    (hle : (recordAt tok e.1).length ≤ x.length) (v : Option Int) :
    ∃ v', candidateValue h config tok x t e v = .ok v' := by
  cases ha : config.all_pairs with
  | true =>
      unfold candidateValue
      rw [ha]
      cases v <;> exact ⟨_, rfl⟩
  | false =>
      obtain ⟨ro, hro⟩ : ∃ ro, requireOverlaps h x.length (recordAt tok e.1).length = .ok ro := by
        unfold requireOverlaps
        rw [if_pos hle]
        exact ⟨_, rfl⟩
      obtain ⟨b, hb, -⟩ := suffixFiltered_spec config hc hx ht hcp v ro
      rw [candidateValue_eq ha hro, hb]
      split
      · exact ⟨_, rfl⟩
      · cases b
        · cases v <;> simp only <;> split <;> exact ⟨_, rfl⟩
        · exact ⟨_, rfl⟩

/-- What is indexed when record `k` is being processed, after `t` tokens. -/
def Indexed (h : Helper K) (tok : List (List τ)) (prev : List Nat) (k t c cp : Nat) : Prop :=
  (c ∈ prev ∧ cp < (h.probeLength (recordAt tok c).length).toNat) ∨ (c = k ∧ cp < t)

theorem indexed_succ {h : Helper K} {tok : List (List τ)} {prev : List Nat} {k t c cp : Nat} :
    (Indexed h tok prev k t c cp ∨ (c = k ∧ cp = t)) ↔ Indexed h tok prev k (t + 1) c cp := by
  unfold Indexed
  constructor
  · rintro ((h1 | h1) | h1)
    · exact Or.inl h1
    · exact Or.inr ⟨h1.1, by omega⟩
    · exact Or.inr ⟨h1.1, by omega⟩
  · rintro (h1 | h1)
    · exact Or.inl (Or.inl h1)
    · by_cases h2 : cp = t
      · exact Or.inr ⟨h1.1, h2⟩
      · exact Or.inl (Or.inr ⟨h1.1, by omega⟩)

theorem tokenLoop_sound {h : Helper K} {config : Config} {tok : List (List τ)} {P : Prop} {k : Nat} {prev : List Nat}
    (hk : Increasing (recordAt tok k)) (hkp : k ∉ prev) (n t : Nat) {index index' : Index τ} {occ occ' : Dict Nat Int}
    (hi : Inv h tok P (Indexed h tok prev k t) (h.minPossibleLength (recordAt tok k).length) index)
    (hn : (Dict.keys occ).Nodup) (hs : ∀ c ∈ Dict.keys occ, c ∈ prev)
    (hl : tokenLoop h config tok k (List.range' t n) (index, occ) = .ok (index', occ')) :
    Inv h tok P (Indexed h tok prev k (t + n)) (h.minPossibleLength (recordAt tok k).length) index' ∧
      (Dict.keys occ').Nodup ∧ ∀ c ∈ Dict.keys occ', c ∈ prev := by
  induction n generalizing t index occ with
  | zero =>
      simp only [List.range'_zero, tokenLoop, Except.ok.injEq, Prod.mk.injEq] at hl
      obtain ⟨rfl, rfl⟩ := hl
      exact ⟨hi, hn, hs⟩
  | succ n ih =>
      rw [List.range'_succ] at hl
      cases hw : (recordAt tok k)[t]? with
      | none => simp [tokenLoop, tokenStep, hw] at hl
      | some w =>
          have hS : ∀ cp, Indexed h tok prev k t k cp → cp < t := by
            rintro cp (h1 | h1)
            · exact absurd h1.1 hkp
            · exact h1.2
          obtain ⟨es, hes1, hes2, hes3, hes4⟩ := tokenStep_spec (config := config) (occ := occ) hk hi hS hw
          rcases hes4 with ⟨e, -, he⟩ | ⟨occ1, index1, hc, hst, hinv⟩
          · simp [tokenLoop, he] at hl
          · simp only [tokenLoop, hst] at hl
            obtain ⟨g1, g2, g3, g4⟩ := candidateLoop_spec hes1 hc
            have := ih (t + 1) (hinv.congr fun c cp => indexed_succ) (g4 hn) ?_ hl
            · rw [show t + (n + 1) = t + 1 + n by omega]; exact this
            · intro c hcm
              rcases g3 c hcm with h1 | h1
              · exact hs c h1
              · obtain ⟨e, he, rfl⟩ := List.mem_map.mp h1
                obtain ⟨h2, -, h3⟩ := hes2 e he
                rcases h2 with h2 | h2
                · exact h2.1
                · exact absurd h2.1 h3

/-- The number of tokens counted for a candidate. -/
def countUpTo (h : Helper K) (tok : List (List τ)) (k c t : Nat) : Nat :=
  common ((recordAt tok k).take t) ((recordAt tok c).take (h.probeLength (recordAt tok c).length).toNat)

/-- A candidate the filters must keep. -/
structure Good (h : Helper K) (config : Config) (tok : List (List τ)) (k c : Nat) : Prop where
  indexed : h.threshold < (h.indexLength (recordAt tok c).length : K)
  long : h.minPossibleLength (recordAt tok k).length ≤ ((recordAt tok c).length : Int)
  overlap : h.requireOverlap (recordAt tok k).length (recordAt tok c).length ≤
    (common (recordAt tok k) (recordAt tok c) : Int)
  position : config.all_pairs = false → ¬ (((recordAt tok k).length : K) - h.threshold <
    ((h.requireOverlap (recordAt tok k).length (recordAt tok c).length : Int) : K))

/-- The value in `occurances` for a count. -/
def valueOf (n : Nat) : Option Int := if n = 0 then none else some n

theorem candidateValue_good [IsStrictOrderedRing K] {h : Helper K} {config : Config} {tok : List (List τ)} {k c t cp : Nat} {w : τ}
    (hk : Increasing (recordAt tok k)) (hc : Increasing (recordAt tok c))
    (hg : Good h config tok k c) (hle : (recordAt tok c).length ≤ (recordAt tok k).length)
    (hw : (recordAt tok k)[t]? = some w) (hcw : (recordAt tok c)[cp]? = some w)
    (hcp : cp < (h.probeLength (recordAt tok c).length).toNat) :
    candidateValue h config tok (recordAt tok k) t (c, cp) (valueOf (countUpTo h tok k c t)) =
      .ok (valueOf (countUpTo h tok k c t + 1)) := by
  obtain ⟨ht, htw⟩ := List.getElem?_eq_some_iff.mp hw
  obtain ⟨hcl, hclw⟩ := List.getElem?_eq_some_iff.mp hcw
  have hb := common_at_match hk hc ht hcl (htw.trans hclw.symm) (Nat.le_of_lt hcp)
  have ho := hg.overlap
  have hvn : valueOf (countUpTo h tok k c t + 1) = some ((countUpTo h tok k c t : Int) + 1) := by simp [valueOf]
  rw [hvn]
  unfold candidateValue
  cases ha : config.all_pairs with
  | true =>
      simp only [if_true]
      unfold valueOf
      split
      · next h0 =>
        split at h0
        · next hz => simp [hz]
        · simp at h0
      · next v h0 =>
        split at h0
        · simp at h0
        · simp only [Option.some.injEq] at h0
          rw [← h0]
  | false =>
      have hpos := hg.position ha
      have hro : requireOverlaps h (recordAt tok k).length (recordAt tok c).length =
          .ok (h.requireOverlap (recordAt tok k).length (recordAt tok c).length) := by
        unfold requireOverlaps
        rw [if_pos hle, if_pos hg.long]
      obtain ⟨b, hb1, hb2⟩ := suffixFiltered_spec config hc hk ht hcl (valueOf (countUpTo h tok k c t))
        (h.requireOverlap (recordAt tok k).length (recordAt tok c).length)
      have hcu : countUpTo h tok k c t = common ((recordAt tok k).take t) ((recordAt tok c).take cp) := by
        unfold countUpTo
        apply Nat.le_antisymm
        · apply common_mono_right
          intro a ha hay
          exact hc.mem_take_of_lt (List.mem_of_mem_take hay) hcl (by
            rw [hclw, ← htw]
            exact hk.lt_of_mem_take ht ha)
        · apply common_mono_right
          intro a _ hay
          exact (List.take_subset_take_left _ hcp.le) hay
      have hb3 : b = false := hb2 (htw.trans hclw.symm) ho (by
        rw [← hcu]
        unfold valueOf twice
        split
        · next h0 =>
          split at h0
          · next hz => rw [hz]; rfl
          · simp at h0
        · next v h0 =>
          split at h0
          · simp at h0
          · simp only [Option.some.injEq] at h0
            rw [← h0])
      subst hb3
      have hne : valueOf (countUpTo h tok k c t) ≠ some pruneFlag := by
        unfold valueOf pruneFlag
        split
        · simp
        · simp only [ne_eq, Option.some.injEq]; omega
      have heq := candidateValue_eq (h := h) (K := K) ha (tok := tok) (x := recordAt tok k) (t := t) (e := (c, cp))
        (v := valueOf (countUpTo h tok k c t)) hro
      rw [if_neg hne, hb1] at heq
      unfold candidateValue at heq
      simp only [ha, Bool.false_eq_true, if_false] at heq ⊢
      rw [heq]
      change common _ _ ≤ countUpTo h tok k c t + _ at hb
      unfold valueOf
      split
      · next h0 =>
        split at h0
        · next hz =>
          rw [hz] at hb ⊢
          have h1 : ¬ (((recordAt tok c).length : Int) - (cp : Int) <
              h.requireOverlap (recordAt tok k).length (recordAt tok c).length) := by omega
          simp [hpos, h1]
        · simp at h0
      · next v h0 =>
        split at h0
        · simp at h0
        · simp only [Option.some.injEq] at h0
          subst h0
          have h1 : ¬ ((countUpTo h tok k c t : Int) + (((recordAt tok c).length : Int) - (cp : Int)) <
              h.requireOverlap (recordAt tok k).length (recordAt tok c).length) := by omega
          have h2 : ¬ (((countUpTo h tok k c t : Int) : K) + (((recordAt tok k).length : K) - h.threshold) <
              ((h.requireOverlap (recordAt tok k).length (recordAt tok c).length : Int) : K)) := by
            intro h3
            apply hpos
            refine lt_of_le_of_lt ?_ h3
            have h4 : (0 : K) ≤ ((countUpTo h tok k c t : Int) : K) := by exact_mod_cast Nat.zero_le _
            exact le_add_of_nonneg_left h4
          rw [if_neg]
          simp only [not_or]
          exact ⟨h2, h1⟩

theorem tokenLoop_complete [IsStrictOrderedRing K] {h : Helper K} {config : Config} {tok : List (List τ)} {k : Nat} {prev : List Nat}
    (hinc : ∀ i, Increasing (recordAt tok i)) (hkp : k ∉ prev)
    (hlen : ∀ c ∈ prev, (recordAt tok c).length ≤ (recordAt tok k).length) (n t : Nat)
    (htn : t + n ≤ (recordAt tok k).length) {index : Index τ} {occ : Dict Nat Int}
    (hi : Inv h tok True (Indexed h tok prev k t) (h.minPossibleLength (recordAt tok k).length) index)
    (hv : ∀ c ∈ prev, Good h config tok k c → occ.get? c = valueOf (countUpTo h tok k c t)) :
    ∃ index' occ', tokenLoop h config tok k (List.range' t n) (index, occ) = .ok (index', occ') ∧
      ∀ c ∈ prev, Good h config tok k c → occ'.get? c = valueOf (countUpTo h tok k c (t + n)) := by
  induction n generalizing t index occ with
  | zero => exact ⟨index, occ, by simp [tokenLoop], hv⟩
  | succ n ih =>
      rw [List.range'_succ]
      have htl : t < (recordAt tok k).length := by omega
      have hw : (recordAt tok k)[t]? = some (recordAt tok k)[t] := List.getElem?_eq_getElem htl
      have hS : ∀ cp, Indexed h tok prev k t k cp → cp < t := by
        rintro cp (h1 | h1)
        · exact absurd h1.1 hkp
        · exact h1.2
      obtain ⟨es, hes1, hes2, hes3, hes4⟩ := tokenStep_spec (config := config) (occ := occ) (hinc k) hi hS hw
      have hprev : ∀ e ∈ es, e.1 ∈ prev ∧ e.2 < (h.probeLength (recordAt tok e.1).length).toNat := by
        intro e he
        obtain ⟨h2, -, h3⟩ := hes2 e he
        rcases h2 with h2 | h2
        · exact h2
        · exact absurd h2.1 h3
      obtain ⟨occ0, hocc0⟩ := candidateLoop_ok (h := h) (config := config) (tok := tok) (x := recordAt tok k) (t := t)
        (fun e he v => candidateValue_ok (hinc k) (hinc _) htl (List.getElem?_eq_some_iff.mp (hes2 e he).2.1).1 (hlen _ (hprev e he).1) v) occ
      rcases hes4 with ⟨e, he, -⟩ | ⟨occ1, index1, hc, hst, hinv⟩
      · rw [hocc0] at he; simp at he
      · obtain ⟨g1, g2, g3, g4⟩ := candidateLoop_spec hes1 hc
        simp only [tokenLoop, hst]
        rw [show t + (n + 1) = t + 1 + n by omega]
        apply ih (t + 1) (by omega) (hinv.congr fun c cp => indexed_succ)
        intro c hcp hg
        have hcount : countUpTo h tok k c (t + 1) = countUpTo h tok k c t +
            (if (recordAt tok k)[t] ∈ (recordAt tok c).take (h.probeLength (recordAt tok c).length).toNat then 1 else 0) :=
          common_take_succ _ _ htl
        by_cases hm : (recordAt tok k)[t] ∈ (recordAt tok c).take (h.probeLength (recordAt tok c).length).toNat
        · rw [if_pos hm] at hcount
          obtain ⟨cp, hcp1, hcp2⟩ := List.mem_take_iff_getElem.mp hm
          have hcw : (recordAt tok c)[cp]? = some (recordAt tok k)[t] := by
            rw [List.getElem?_eq_getElem (by omega), hcp2]
          have he : (c, cp) ∈ es := hes3 trivial c cp (Or.inl ⟨hcp, by omega⟩) hcw hg.indexed hg.long
          have h1 := g2 _ he
          simp only at h1
          rw [hv c hcp hg, candidateValue_good (hinc k) (hinc c) hg (hlen c hcp) hw hcw (by omega)] at h1
          simp only [Except.ok.injEq] at h1
          rw [hcount, h1]
        · rw [if_neg hm, Nat.add_zero] at hcount
          have hnot : c ∉ es.map Prod.fst := ?_
          · rw [hcount, g1 c hnot, hv c hcp hg]; rfl
          intro hmem
          obtain ⟨e, he, hec⟩ := List.mem_map.mp hmem
          apply hm
          have h1 := hes2 e he
          have h2 := (hprev e he).2
          rw [hec] at h1 h2
          obtain ⟨h3, h4⟩ := List.getElem?_eq_some_iff.mp h1.2.1
          exact List.mem_take_iff_getElem.mpr ⟨e.2, by omega, h4⟩

/-! ## Verification -/

theorem verify_sound {h : Helper K} {tok : List (List τ)} {k c : Nat} {count : Int}
    (hk : Increasing (recordAt tok k)) (hc : Increasing (recordAt tok c))
    (hv : verify h tok (recordAt tok k) c count = .ok true) :
    h.threshold ≤ h.computeSimilarity (recordAt tok k).length (recordAt tok c).length
      (common (recordAt tok k) (recordAt tok c) : Int) := by
  unfold verify at hv
  split at hv
  · simp at hv
  · simp only [bind, Except.bind, pure, Except.pure] at hv
    split at hv
    · simp at hv
    next ro hro =>
    split at hv
    · simp at hv
    next a ha =>
    split at hv
    · simp at hv
    next b hb =>
    have hspec := computeOverlap_spec ro _ _ hk hc 0
    rw [Int.zero_add] at hspec
    generalize (if a < b then _ else _ : Bool) = hopeless at hv
    cases hopeless with
    | true => simp at hv
    | false =>
        simp only [Bool.false_eq_true, if_false] at hv
        by_cases h1 : computeOverlap ro (recordAt tok k) (recordAt tok c) 0 = -1
        · simp [h1] at hv
        · rw [if_neg h1] at hv
          rcases hspec with h2 | h2
          · rw [h2] at hv
            simpa using hv
          · exact absurd h2.1 h1

theorem pyGet_ok {l : List τ} {i : Int} (h1 : 1 ≤ i) (h2 : i ≤ l.length) :
    pyGet l (i - 1) = .ok (l[(i - 1).toNat]'(by omega)) := by
  unfold pyGet
  rw [if_pos (by omega), List.getElem?_eq_getElem (by omega)]

theorem verify_complete {h : Helper K} {config : Config} {tok : List (List τ)} {k c : Nat}
    (hk : Increasing (recordAt tok k)) (hc : Increasing (recordAt tok c))
    (hle : (recordAt tok c).length ≤ (recordAt tok k).length) (hg : Good h config tok k c)
    (hi1 : 1 ≤ h.indexLength (recordAt tok c).length)
    (hi2 : h.indexLength (recordAt tok c).length ≤ h.probeLength (recordAt tok c).length)
    (hp3 : h.probeLength (recordAt tok c).length ≤ (recordAt tok c).length)
    (hp1 : 1 ≤ h.probeLength (recordAt tok k).length)
    (hp2 : h.probeLength (recordAt tok k).length ≤ (recordAt tok k).length)
    (hs : h.threshold ≤ h.computeSimilarity (recordAt tok k).length (recordAt tok c).length
      (common (recordAt tok k) (recordAt tok c) : Int)) :
    verify h tok (recordAt tok k) c (countUpTo h tok k c (h.probeLength (recordAt tok k).length).toNat : Int) = .ok true := by
  have ho := hg.overlap
  unfold verify
  rw [if_neg (by unfold pruneFlag; omega)]
  simp only [bind, Except.bind, pure, Except.pure, requireOverlaps, hle, if_true, hg.long]
  rw [pyGet_ok hi1 (hi2.trans hp3), pyGet_ok hp1 hp2]
  simp only
  have hspec := computeOverlap_spec (h.requireOverlap (recordAt tok k).length (recordAt tok c).length) _ _ hk hc 0
  rw [Int.zero_add] at hspec
  have hov : computeOverlap (h.requireOverlap (recordAt tok k).length (recordAt tok c).length) (recordAt tok k)
      (recordAt tok c) 0 = (common (recordAt tok k) (recordAt tok c) : Int) := by
    rcases hspec with h1 | h1
    · exact h1
    · omega
  have e1 : ((h.probeLength (recordAt tok k).length) - 1).toNat + 1 = (h.probeLength (recordAt tok k).length).toNat := by
    omega
  have hnot : ∀ b : Bool, b = false → (if b = true then (Except.ok false : Py Bool) else
      if computeOverlap (h.requireOverlap (recordAt tok k).length (recordAt tok c).length) (recordAt tok k)
      (recordAt tok c) 0 = -1 then Except.ok false else Except.ok (decide (h.computeSimilarity (recordAt tok k).length
      (recordAt tok c).length (computeOverlap (h.requireOverlap (recordAt tok k).length (recordAt tok c).length)
      (recordAt tok k) (recordAt tok c) 0) ≥ h.threshold))) = .ok true := by
    intro b hb
    rw [hb, hov, if_neg (by simp), if_neg (by omega)]
    simp [hs]
  apply hnot
  split
  · next hlt =>
    have := common_bound_left hk hc (q := (h.probeLength (recordAt tok c).length).toNat) _ _ (by omega) hlt
    rw [e1] at this
    change common _ _ ≤ countUpTo h tok k c _ + _ at this
    simp only [decide_eq_false_iff_not]
    omega
  · next hlt =>
    have := common_bound_right hk hc (q := (h.probeLength (recordAt tok c).length).toNat) _ _ (by omega) (le_of_not_gt hlt)
    rw [e1] at this
    change common _ _ ≤ countUpTo h tok k c _ + _ at this
    simp only [decide_eq_false_iff_not]
    omega

theorem verify_ok {h : Helper K} {tok : List (List τ)} {k c : Nat}
    (hle : (recordAt tok c).length ≤ (recordAt tok k).length)
    (hi1 : 1 ≤ h.indexLength (recordAt tok c).length)
    (hi2 : h.indexLength (recordAt tok c).length ≤ (recordAt tok c).length)
    (hp1 : 1 ≤ h.probeLength (recordAt tok k).length)
    (hp2 : h.probeLength (recordAt tok k).length ≤ (recordAt tok k).length) (count : Int) :
    ∃ b, verify h tok (recordAt tok k) c count = .ok b := by
  unfold verify
  split
  · exact ⟨_, rfl⟩
  · simp only [bind, Except.bind, pure, Except.pure, requireOverlaps, hle, if_true]
    rw [pyGet_ok hi1 hi2, pyGet_ok hp1 hp2]
    simp only
    generalize (recordAt tok c)[(h.indexLength (recordAt tok c).length - 1).toNat]'(by omega) = a
    generalize (recordAt tok k)[(h.probeLength (recordAt tok k).length - 1).toNat]'(by omega) = b
    generalize (if a < b then _ else _ : Bool) = hopeless
    cases hopeless with
    | true => exact ⟨_, rfl⟩
    | false =>
        simp only [Bool.false_eq_true, if_false]
        generalize computeOverlap (τ := τ) _ _ _ _ = o
        by_cases h1 : o = -1
        · rw [if_pos h1]; exact ⟨_, rfl⟩
        · rw [if_neg h1]; exact ⟨_, rfl⟩

theorem verifyLoop_mem {h : Helper K} {tok : List (List τ)} {x : List τ} {items : List (Nat × Int)} {out : List Nat}
    (hl : verifyLoop h tok x items = .ok out) :
    out.Sublist (items.map Prod.fst) ∧ (∀ c ∈ out, ∃ count, (c, count) ∈ items ∧ verify h tok x c count = .ok true) ∧
      ∀ c count, (c, count) ∈ items → verify h tok x c count = .ok true → c ∈ out := by
  induction items generalizing out with
  | nil =>
      simp only [verifyLoop, Except.ok.injEq] at hl
      subst hl
      simp
  | cons i items ih =>
      obtain ⟨c, count⟩ := i
      cases hv : verify h tok x c count with
      | error e => simp [verifyLoop, hv] at hl
      | ok keep =>
          cases hr : verifyLoop h tok x items with
          | error e => simp [verifyLoop, hv, hr] at hl
          | ok rest =>
              simp only [verifyLoop, hv, hr, Except.ok.injEq] at hl
              obtain ⟨h1, h2, h3⟩ := ih hr
              subst hl
              cases keep with
              | true =>
                  simp only [if_true, List.map_cons]
                  refine ⟨h1.cons_cons _, ?_, ?_⟩
                  · intro c' hc'
                    rcases List.mem_cons.mp hc' with rfl | hc'
                    · exact ⟨count, by simp, hv⟩
                    · obtain ⟨n, hn1, hn2⟩ := h2 c' hc'
                      exact ⟨n, by simp [hn1], hn2⟩
                  · intro c' n hm hvn
                    rcases List.mem_cons.mp hm with heq | hm
                    · cases heq; simp
                    · exact List.mem_cons_of_mem _ (h3 c' n hm hvn)
              | false =>
                  simp only [Bool.false_eq_true, if_false, List.map_cons]
                  refine ⟨h1.cons _, ?_, ?_⟩
                  · intro c' hc'
                    obtain ⟨n, hn1, hn2⟩ := h2 c' hc'
                    exact ⟨n, by simp [hn1], hn2⟩
                  · intro c' n hm hvn
                    rcases List.mem_cons.mp hm with heq | hm
                    · cases heq; rw [hv] at hvn; simp at hvn
                    · exact h3 c' n hm hvn

theorem verifyLoop_ok {h : Helper K} {tok : List (List τ)} {x : List τ} {items : List (Nat × Int)}
    (hok : ∀ i ∈ items, ∃ b, verify h tok x i.1 i.2 = .ok b) : ∃ out, verifyLoop h tok x items = .ok out := by
  induction items with
  | nil => exact ⟨[], rfl⟩
  | cons i items ih =>
      obtain ⟨b, hb⟩ := hok i (by simp)
      obtain ⟨out, hout⟩ := ih fun i' hi' => hok i' (by simp [hi'])
      simp only [verifyLoop, hb, hout]
      exact ⟨_, rfl⟩

/-! ## The join -/

theorem indexed_next {h : Helper K} {tok : List (List τ)} {prev : List Nat} {k j c cp : Nat} :
    Indexed h tok prev k (h.probeLength (recordAt tok k).length).toNat c cp ↔ Indexed h tok (prev ++ [k]) j 0 c cp := by
  unfold Indexed
  simp only [List.mem_append, List.mem_singleton, Nat.not_lt_zero, and_false, or_false]
  constructor
  · rintro (⟨h1, h2⟩ | ⟨rfl, h2⟩)
    · exact ⟨Or.inl h1, h2⟩
    · exact ⟨Or.inr rfl, h2⟩
  · rintro ⟨h1 | rfl, h2⟩
    · exact Or.inl ⟨h1, h2⟩
    · exact Or.inr ⟨rfl, h2⟩

/-- Every pair yielded is made of a record and of one before it in the order, similar enough; none is yielded twice. -/
theorem join_sound {h : Helper K} {config : Config} {tok : List (List τ)} (hinc : ∀ i, Increasing (recordAt tok i))
    {order prev : List Nat} (hnd : (prev ++ order).Nodup) {index : Index τ} {M : Int}
    (hi : ∀ j, Inv h tok False (Indexed h tok prev j 0) M index) {out : List (Nat × Nat)}
    (hl : join h config tok order index = .ok out) :
    out.Nodup ∧ ∀ p ∈ out, [p.2, p.1].Sublist (prev ++ order) ∧ p.1 ∈ order ∧
      h.threshold ≤ h.computeSimilarity (recordAt tok p.1).length (recordAt tok p.2).length
        (common (recordAt tok p.1) (recordAt tok p.2) : Int) := by
  induction order generalizing prev index M out with
  | nil =>
      simp only [join, Except.ok.injEq] at hl
      subst hl
      simp
  | cons k ks ih =>
      cases ht : tokenLoop h config tok k (List.range (h.probeLength (recordAt tok k).length).toNat) (index, []) with
      | error e => simp [join, ht] at hl
      | ok s =>
          obtain ⟨index1, occ⟩ := s
          cases hv : verifyLoop h tok (recordAt tok k) occ with
          | error e => simp [join, ht, hv] at hl
          | ok candidates =>
              cases hr : join h config tok ks index1 with
              | error e => simp [join, ht, hv, hr] at hl
              | ok rest =>
                  simp only [join, ht, hv, hr, Except.ok.injEq] at hl
                  have hkp : k ∉ prev := by
                    intro hm
                    exact (List.nodup_append.mp hnd).2.2 k hm k (by simp) rfl
                  have happ : prev ++ k :: ks = (prev ++ [k]) ++ ks := by simp
                  rw [List.range_eq_range'] at ht
                  obtain ⟨g1, g2, g3⟩ := tokenLoop_sound (hinc k) hkp _ 0 ((hi k).mono False.elim) (by simp [Dict.keys])
                    (by simp [Dict.keys]) ht
                  rw [Nat.zero_add] at g1
                  rw [happ] at hnd
                  obtain ⟨r1, r2⟩ := ih (prev := prev ++ [k]) hnd (M := h.minPossibleLength (recordAt tok k).length)
                    (fun j => g1.congr fun c cp => indexed_next) hr
                  obtain ⟨v1, v2, -⟩ := verifyLoop_mem hv
                  have hkks : k ∉ ks := by
                    have := (List.nodup_append.mp hnd).2.2
                    intro hm
                    exact this k (by simp) k hm rfl
                  subst hl
                  constructor
                  · rw [List.nodup_append]
                    refine ⟨?_, r1, ?_⟩
                    · rw [List.nodup_map_iff (fun a b hab => by simpa using hab)]
                      exact g2.sublist v1
                    · intro a ha b hb hab
                      obtain ⟨c, -, rfl⟩ := List.mem_map.mp ha
                      have := (r2 b hb).2.1
                      rw [← hab] at this
                      exact hkks this
                  · intro p hp
                    rcases List.mem_append.mp hp with hp | hp
                    · obtain ⟨c, hc, rfl⟩ := List.mem_map.mp hp
                      obtain ⟨count, hcm, hcv⟩ := v2 c hc
                      refine ⟨?_, by simp, verify_sound (hinc k) (hinc c) hcv⟩
                      have hcp : c ∈ prev := g3 c (List.mem_map.mpr ⟨_, hcm, rfl⟩)
                      have h1 : [c].Sublist prev := List.singleton_sublist.mpr hcp
                      have h2 : [k].Sublist (k :: ks) := List.singleton_sublist.mpr (by simp)
                      exact h1.append h2
                    · obtain ⟨h1, h2, h3⟩ := r2 p hp
                      exact ⟨by rw [happ]; exact h1, by simp [h2], h3⟩

/-- What completeness asks of a helper. -/
structure Lawful (h : Helper K) (Similar : Nat → Nat → Nat → Prop) : Prop where
  indexed : ∀ l, 1 ≤ l → h.threshold < (h.indexLength l : K)
  index_pos : ∀ l, 1 ≤ l → 1 ≤ h.indexLength l
  index_le : ∀ l, 1 ≤ l → h.indexLength l ≤ h.probeLength l
  probe_le : ∀ l, 1 ≤ l → h.probeLength l ≤ l
  min_mono : ∀ l l', l ≤ l' → h.minPossibleLength l ≤ h.minPossibleLength l'
  similar : ∀ l1 l2 o, o ≤ l2 → l2 ≤ l1 → 1 ≤ l2 → Similar l1 l2 o →
    1 ≤ o ∧ h.minPossibleLength l1 ≤ (l2 : Int) ∧ (l1 : Int) - o + 1 ≤ h.probeLength l1 ∧
    (l2 : Int) - o + 1 ≤ h.probeLength l2 ∧ h.requireOverlap l1 l2 ≤ (o : Int) ∧
    h.threshold ≤ h.computeSimilarity l1 l2 (o : Int)

/-- The same for records with at least `L` and at most `N` tokens. -/
structure LawfulBetween (L N : Nat) (h : Helper K) (Similar : Nat → Nat → Nat → Prop) : Prop where
  indexed : ∀ l, L ≤ l → l ≤ N → h.threshold < (h.indexLength l : K)
  index_pos : ∀ l, L ≤ l → l ≤ N → 1 ≤ h.indexLength l
  index_le : ∀ l, L ≤ l → l ≤ N → h.indexLength l ≤ h.probeLength l
  probe_le : ∀ l, L ≤ l → l ≤ N → h.probeLength l ≤ l
  min_mono : ∀ l l', l ≤ l' → l' ≤ N → h.minPossibleLength l ≤ h.minPossibleLength l'
  similar : ∀ l1 l2 o, o ≤ l2 → l2 ≤ l1 → L ≤ l2 → l1 ≤ N → Similar l1 l2 o →
    1 ≤ o ∧ h.minPossibleLength l1 ≤ (l2 : Int) ∧ (l1 : Int) - o + 1 ≤ h.probeLength l1 ∧
    (l2 : Int) - o + 1 ≤ h.probeLength l2 ∧ h.requireOverlap l1 l2 ≤ (o : Int) ∧
    h.threshold ≤ h.computeSimilarity l1 l2 (o : Int)

/-- The same for records with at most `N` tokens. -/
abbrev LawfulUpTo (N : Nat) (h : Helper K) (Similar : Nat → Nat → Nat → Prop) : Prop := LawfulBetween 1 N h Similar

theorem Lawful.upTo {h : Helper K} {Similar : Nat → Nat → Nat → Prop} (hl : Lawful h Similar) (N : Nat) : LawfulUpTo N h Similar :=
  ⟨fun l h1 _ => hl.indexed l h1, fun l h1 _ => hl.index_pos l h1, fun l h1 _ => hl.index_le l h1, fun l h1 _ => hl.probe_le l h1,
    fun l l' h1 _ => hl.min_mono l l' h1, fun l1 l2 o h1 h2 h3 _ h4 => hl.similar l1 l2 o h1 h2 h3 h4⟩

theorem Lawful.of_upTo {h : Helper K} {Similar : Nat → Nat → Nat → Prop} (hl : ∀ N, LawfulUpTo N h Similar) : Lawful h Similar :=
  ⟨fun l h1 => (hl l).indexed l h1 le_rfl, fun l h1 => (hl l).index_pos l h1 le_rfl, fun l h1 => (hl l).index_le l h1 le_rfl,
    fun l h1 => (hl l).probe_le l h1 le_rfl, fun l l' h1 => (hl l').min_mono l l' h1 le_rfl,
    fun l1 l2 o h1 h2 h3 h4 => (hl l1).similar l1 l2 o h1 h2 h3 le_rfl h4⟩

/-- Every similar pair is yielded, and nothing is raised. -/
theorem join_complete [IsStrictOrderedRing K] {h : Helper K} {Similar : Nat → Nat → Nat → Prop} {L N : Nat} (hlaw : LawfulBetween L N h Similar)
    {config : Config} {tok : List (List τ)} (hinc : ∀ i, Increasing (recordAt tok i))
    {order prev : List Nat} (hN : ∀ i ∈ prev ++ order, (recordAt tok i).length ≤ N) (hne : ∀ i ∈ prev ++ order, L ≤ (recordAt tok i).length) (hnd : (prev ++ order).Nodup)
    (hs : (prev ++ order).Pairwise fun i j => (recordAt tok i).length ≤ (recordAt tok j).length) {index : Index τ}
    {M : Int} (hM : ∀ k ∈ order, M ≤ h.minPossibleLength (recordAt tok k).length)
    (hi : ∀ j, Inv h tok True (Indexed h tok prev j 0) M index) :
    ∃ out, join h config tok order index = .ok out ∧ ∀ c k, [c, k].Sublist (prev ++ order) → k ∈ order →
      Similar (recordAt tok k).length (recordAt tok c).length (common (recordAt tok k) (recordAt tok c)) →
      (config.all_pairs = false → ¬ (((recordAt tok k).length : K) - h.threshold <
        ((h.requireOverlap (recordAt tok k).length (recordAt tok c).length : Int) : K))) → (k, c) ∈ out := by
  induction order generalizing prev index M with
  | nil => exact ⟨[], rfl, by simp⟩
  | cons k ks ih =>
      have hkp : k ∉ prev := by
        intro hm
        exact (List.nodup_append.mp hnd).2.2 k hm k (by simp) rfl
      have happ : prev ++ k :: ks = (prev ++ [k]) ++ ks := by simp
      have hlen : ∀ c ∈ prev, (recordAt tok c).length ≤ (recordAt tok k).length := by
        intro c hc
        exact (List.pairwise_append.mp hs).2.2 c hc k (by simp)
      have hk1 : L ≤ (recordAt tok k).length := hne k (by simp)
      have hkN : (recordAt tok k).length ≤ N := hN k (by simp)
      have hprobe := hlaw.probe_le _ hk1 hkN
      have hprobe1 : 1 ≤ h.probeLength (recordAt tok k).length := (hlaw.index_pos _ hk1 hkN).trans (hlaw.index_le _ hk1 hkN)
      have hInv := (hi k).mono fun _ => hM k (by simp)
      obtain ⟨index1, occ, ht, hocc⟩ := tokenLoop_complete (config := config) hinc hkp hlen
        (h.probeLength (recordAt tok k).length).toNat 0 (by omega) (occ := []) hInv
        (by intro c _ _; simp [valueOf, countUpTo, common, Dict.get?])
      rw [Nat.zero_add] at hocc
      obtain ⟨g1, g2, g3⟩ := tokenLoop_sound (hinc k) hkp _ 0 hInv (by simp [Dict.keys]) (by simp [Dict.keys]) ht
      rw [Nat.zero_add] at g1
      have hcl : ∀ c ∈ prev, L ≤ (recordAt tok c).length := fun c hc => hne c (by simp [hc])
      obtain ⟨candidates, hv⟩ := verifyLoop_ok (h := h) (tok := tok) (x := recordAt tok k) (items := occ) (by
        intro i him
        have hc : i.1 ∈ prev := g3 i.1 (List.mem_map.mpr ⟨_, him, rfl⟩)
        have h1 := hcl _ hc
        have h2 := (hlen _ hc).trans hkN
        exact verify_ok (hlen _ hc) (hlaw.index_pos _ h1 h2) ((hlaw.index_le _ h1 h2).trans (hlaw.probe_le _ h1 h2)) hprobe1 hprobe i.2)
      have hks : ∀ j ∈ ks, (recordAt tok k).length ≤ (recordAt tok j).length := by
        have := (List.pairwise_append.mp hs).2.1
        exact (List.pairwise_cons.mp this).1
      have hksN : ∀ j ∈ ks, (recordAt tok j).length ≤ N := fun j hj => hN j (by simp [hj])
      rw [happ] at hnd hs hne hN
      obtain ⟨rest, hr, hrest⟩ := ih (prev := prev ++ [k]) hN hne hnd hs (M := h.minPossibleLength (recordAt tok k).length)
        (fun j hj => hlaw.min_mono _ _ (hks j hj) (hksN j hj)) (fun j => g1.congr fun c cp => indexed_next)
      refine ⟨candidates.map (fun c => (k, c)) ++ rest, ?_, ?_⟩
      · rw [List.range_eq_range'.symm] at ht
        simp only [join, ht, hv, hr]
      · intro c k' hsub hk' hsim hpos
        rw [List.mem_append]
        by_cases hkk : k' = k
        · subst hkk
          left
          rw [List.mem_map]
          refine ⟨c, ?_, rfl⟩
          have hkks : k' ∉ ks := by
            intro hm
            exact (List.nodup_append.mp hnd).2.2 k' (by simp) k' hm rfl
          have hc : c ∈ prev := by
            rw [List.append_assoc] at hnd
            have h1 := List.nodup_iff_sublist.mp hnd
            rcases List.sublist_append_iff.mp hsub with ⟨l1, l2, he, hl1, hl2⟩
            cases l1 with
            | nil =>
                exfalso
                rw [List.nil_append] at he
                rw [← he] at hl2
                cases hl2 with
                | cons _ h3 => exact hkks (h3.subset (by simp))
                | cons_cons _ h3 => exact hkks (h3.subset (by simp))
            | cons a l1 =>
                have : c = a := by simpa using congrArg List.head? he
                rw [this]
                exact hl1.subset (by simp)
          have hc1 := hcl c hc
          have hcN := (hlen c hc).trans hkN
          have hco : common (recordAt tok k') (recordAt tok c) ≤ (recordAt tok c).length := common_le_right _ (hinc k').nodup
          obtain ⟨s1, s2, s3, s4, s5, s6⟩ := hlaw.similar _ _ _ hco (hlen c hc) hc1 hkN hsim
          have hg : Good h config tok k' c := ⟨hlaw.indexed _ hc1 hcN, s2, s5, hpos⟩
          have hcount : 1 ≤ countUpTo h tok k' c (h.probeLength (recordAt tok k').length).toNat :=
            common_prefix_pos (hinc k') (hinc c) s1 (by omega) (by omega)
          have hget := hocc c hc hg
          have hval : valueOf (countUpTo h tok k' c (h.probeLength (recordAt tok k').length).toNat) =
              some (countUpTo h tok k' c (h.probeLength (recordAt tok k').length).toNat : Int) := by
            unfold valueOf; rw [if_neg (by omega)]
          rw [hval] at hget
          obtain ⟨-, -, v3⟩ := verifyLoop_mem hv
          exact v3 c _ (Dict.mem_of_get? hget) (verify_complete (hinc k') (hinc c) (hlen c hc) hg (hlaw.index_pos _ hc1 hcN)
            (hlaw.index_le _ hc1 hcN) (hlaw.probe_le _ hc1 hcN) hprobe1 hprobe s6)
        · right
          have : k' ∈ ks := by
            rcases List.mem_cons.mp hk' with h1 | h1
            · exact absurd h1 hkk
            · exact h1
          exact hrest c k' (by rw [← happ]; exact hsub) this hsim hpos

/-! ## What ppjoin never yields -/

/-- A candidate the positional filter always rejects. -/
def Rejected (h : Helper K) (config : Config) (tok : List (List τ)) (k c : Nat) : Prop :=
  config.all_pairs = false ∧ ∀ ro, requireOverlaps h (recordAt tok k).length (recordAt tok c).length = .ok ro →
    ((recordAt tok k).length : K) - h.threshold < (ro : K)

theorem candidateValue_rejected {h : Helper K} {config : Config} {tok : List (List τ)} {k c t cp : Nat}
    (hr : Rejected h config tok k c) {v : Option Int}
    (hv : candidateValue h config tok (recordAt tok k) t (c, cp) none = .ok v) : v = none := by
  obtain ⟨ha, hro⟩ := hr
  unfold candidateValue at hv
  simp only [ha, Bool.false_eq_true, if_false, bind, Except.bind, pure, Except.pure] at hv
  split at hv
  · simp at hv
  next ro heq =>
  have := hro ro heq
  simp only [this, true_or, if_true] at hv
  grind

theorem candidateLoop_rejected {h : Helper K} {config : Config} {tok : List (List τ)} {k c t : Nat}
    (hr : Rejected h config tok k c) {es : List Entry} {occ occ' : Dict Nat Int} (h0 : occ.get? c = none)
    (hl : candidateLoop h config tok (recordAt tok k) t es occ = .ok occ') : occ'.get? c = none := by
  induction es generalizing occ with
  | nil =>
      simp only [candidateLoop, Except.ok.injEq] at hl
      rw [← hl]; exact h0
  | cons e es ih =>
      cases hs : candidateStep h config tok (recordAt tok k) t occ e with
      | error err => simp [candidateLoop, hs] at hl
      | ok occ1 =>
          simp only [candidateLoop, hs] at hl
          apply ih _ hl
          unfold candidateStep at hs
          split at hs
          · simp at hs
          · simp only [Except.ok.injEq] at hs
            rw [← hs]; exact h0
          · next v hv =>
            simp only [Except.ok.injEq] at hs
            rw [← hs, Dict.get?_set]
            split
            · next hec =>
              obtain ⟨ec, ecp⟩ := e
              simp only at hec hv
              subst hec
              rw [h0] at hv
              exact absurd (candidateValue_rejected hr hv) (by simp)
            · exact h0

theorem tokenLoop_rejected {h : Helper K} {config : Config} {tok : List (List τ)} {k c : Nat}
    (hr : Rejected h config tok k c) {ts : List Nat} {s s' : Index τ × Dict Nat Int} (h0 : s.2.get? c = none)
    (hl : tokenLoop h config tok k ts s = .ok s') : s'.2.get? c = none := by
  induction ts generalizing s with
  | nil =>
      simp only [tokenLoop, Except.ok.injEq] at hl
      rw [← hl]; exact h0
  | cons t ts ih =>
      cases hs : tokenStep h config tok k s.1 s.2 t with
      | error err => simp [tokenLoop, hs] at hl
      | ok s1 =>
          simp only [tokenLoop, hs] at hl
          apply ih _ hl
          simp only [tokenStep] at hs
          split at hs
          · simp at hs
          · split at hs
            · simp at hs
            · next occ1 hocc =>
              simp only [Except.ok.injEq] at hs
              rw [← hs]
              exact candidateLoop_rejected hr h0 hocc

theorem join_rejected {h : Helper K} {config : Config} {tok : List (List τ)} {order : List Nat} {index : Index τ}
    {out : List (Nat × Nat)} (hl : join h config tok order index = .ok out) {k c : Nat} (hm : (k, c) ∈ out) :
    ¬ Rejected h config tok k c := by
  intro hr
  induction order generalizing index out with
  | nil =>
      simp only [join, Except.ok.injEq] at hl
      rw [← hl] at hm; simp at hm
  | cons k' ks ih =>
      cases ht : tokenLoop h config tok k' (List.range (h.probeLength (recordAt tok k').length).toNat) (index, []) with
      | error e => simp [join, ht] at hl
      | ok s =>
          obtain ⟨index1, occ⟩ := s
          cases hv : verifyLoop h tok (recordAt tok k') occ with
          | error e => simp [join, ht, hv] at hl
          | ok candidates =>
              cases hj : join h config tok ks index1 with
              | error e => simp [join, ht, hv, hj] at hl
              | ok rest =>
                  simp only [join, ht, hv, hj, Except.ok.injEq] at hl
                  rw [← hl] at hm
                  rcases List.mem_append.mp hm with h1 | h1
                  · obtain ⟨c', hc', heq⟩ := List.mem_map.mp h1
                    simp only [Prod.mk.injEq] at heq
                    obtain ⟨rfl, rfl⟩ := heq
                    have hn := tokenLoop_rejected hr (s := (index, [])) rfl ht
                    have hk := (verifyLoop_mem hv).1.subset hc'
                    exact (Dict.get?_eq_none_iff _ _).mp hn hk
                  · exact ih hj h1

/-! ## When nothing is indexed -/

theorem tokenLoop_unindexed {h : Helper K} {config : Config} {tok : List (List τ)} {k : Nat}
    (hn : ∀ l, ¬ h.threshold < (h.indexLength l : K)) {ts : List Nat} {s s' : Index τ × Dict Nat Int}
    (h0 : ∀ w, ((s.1.get? w).getD (0, [])).2 = []) (hl : tokenLoop h config tok k ts s = .ok s') :
    (∀ w, ((s'.1.get? w).getD (0, [])).2 = []) ∧ s'.2 = s.2 := by
  induction ts generalizing s with
  | nil =>
      simp only [tokenLoop, Except.ok.injEq] at hl
      rw [← hl]; exact ⟨h0, rfl⟩
  | cons t ts ih =>
      cases hs : tokenStep h config tok k s.1 s.2 t with
      | error err => simp [tokenLoop, hs] at hl
      | ok s1 =>
          simp only [tokenLoop, hs] at hl
          have hs1 : (∀ w, ((s1.1.get? w).getD (0, [])).2 = []) ∧ s1.2 = s.2 := by
            simp only [tokenStep] at hs
            split at hs
            · simp at hs
            · next w hw =>
              have hw0 := h0 w
              generalize (s.1.get? w).getD (0, []) = pi at hs hw0
              obtain ⟨pos, ids⟩ := pi
              simp only at hw0
              subst hw0
              simp only [List.drop_nil, candidateLoop, if_neg (hn _), Except.ok.injEq] at hs
              rw [← hs]
              refine ⟨?_, rfl⟩
              intro w'
              rw [Dict.get?_set]
              split
              · rfl
              · exact h0 w'
          obtain ⟨h1, h2⟩ := ih hs1.1 hl
          exact ⟨h1, h2.trans hs1.2⟩

theorem join_unindexed {h : Helper K} {config : Config} {tok : List (List τ)}
    (hn : ∀ l, ¬ h.threshold < (h.indexLength l : K)) {order : List Nat} {index : Index τ}
    (h0 : ∀ w, ((index.get? w).getD (0, [])).2 = []) {out : List (Nat × Nat)}
    (hl : join h config tok order index = .ok out) : out = [] := by
  induction order generalizing index out with
  | nil =>
      simp only [join, Except.ok.injEq] at hl
      exact hl.symm
  | cons k' ks ih =>
      cases ht : tokenLoop h config tok k' (List.range (h.probeLength (recordAt tok k').length).toNat) (index, []) with
      | error e => simp [join, ht] at hl
      | ok s =>
          obtain ⟨index1, occ⟩ := s
          obtain ⟨h1, h2⟩ := tokenLoop_unindexed hn (s := (index, [])) h0 ht
          simp only at h1 h2
          subst h2
          cases hj : join h config tok ks index1 with
          | error e => simp [join, ht, verifyLoop, hj] at hl
          | ok rest =>
              simp only [join, ht, verifyLoop, hj, Except.ok.injEq, List.map_nil, List.nil_append] at hl
              rw [← hl]
              exact ih h1 hj

end Fog.Ppjoin
