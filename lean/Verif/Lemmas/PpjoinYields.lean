import Verif.Model.PpjoinYields
import Verif.Lemmas.PpjoinHelpers

/-! # What ppjoin has yielded when it raises -/

namespace Fog.Ppjoin

variable {τ K : Type _} [LinearOrder τ] [Field K] [LinearOrder K] [FloorRing K]

theorem verifyYields_of_ok {h : Helper K} {tok : List (List τ)} {record : List τ} {items : List (Nat × Int)} {out : List Nat}
    (hv : verifyLoop h tok record items = .ok out) : verifyYields h tok record items = (out, none) := by
  induction items generalizing out with
  | nil =>
      simp only [verifyLoop, Except.ok.injEq] at hv
      rw [← hv]; rfl
  | cons item items ih =>
      obtain ⟨c, n⟩ := item
      cases hk : verify h tok record c n with
      | error e => simp [verifyLoop, hk] at hv
      | ok keep =>
          cases hr : verifyLoop h tok record items with
          | error e => simp [verifyLoop, hk, hr] at hv
          | ok rest =>
              simp only [verifyLoop, hk, hr, Except.ok.injEq] at hv
              have := ih hr
              cases keep with
              | true => simp [verifyYields, hk, this, ← hv]
              | false => simp [verifyYields, hk, this, ← hv]

theorem joinYields_of_ok {h : Helper K} {config : Config} {tok : List (List τ)} {order : List Nat} {index : Index τ}
    {out : List (Nat × Nat)} (hj : join h config tok order index = .ok out) :
    joinYields h config tok order index = (out, none) := by
  induction order generalizing index out with
  | nil =>
      simp only [join, Except.ok.injEq] at hj
      rw [← hj]; rfl
  | cons k ks ih =>
      cases ht : tokenLoop h config tok k (List.range (h.probeLength (recordAt tok k).length).toNat) (index, []) with
      | error e => simp [join, ht] at hj
      | ok s =>
          obtain ⟨index1, occ⟩ := s
          cases hv : verifyLoop h tok (recordAt tok k) occ with
          | error e => simp [join, ht, hv] at hj
          | ok candidates =>
              cases hr : join h config tok ks index1 with
              | error e => simp [join, ht, hv, hr] at hj
              | ok rest =>
                  simp only [join, ht, hv, hr, Except.ok.injEq] at hj
                  simp [joinYields, ht, verifyYields_of_ok hv, ih hr, ← hj]

theorem verifyYields_of_error {h : Helper K} {tok : List (List τ)} {record : List τ} {items : List (Nat × Int)} {e : PyErr}
    (hv : verifyLoop h tok record items = .error e) : (verifyYields h tok record items).2 = some e := by
  induction items with
  | nil => simp [verifyLoop] at hv
  | cons item items ih =>
      obtain ⟨c, n⟩ := item
      cases hk : verify h tok record c n with
      | error e' =>
          simp only [verifyLoop, hk, Except.error.injEq] at hv
          simp [verifyYields, hk, hv]
      | ok keep =>
          cases hr : verifyLoop h tok record items with
          | ok rest => simp [verifyLoop, hk, hr] at hv
          | error e' =>
              simp only [verifyLoop, hk, hr, Except.error.injEq] at hv
              have := ih (by rw [hr, hv])
              cases keep with
              | true => simp [verifyYields, hk, this]
              | false => simp [verifyYields, hk, this]

theorem joinYields_of_error {h : Helper K} {config : Config} {tok : List (List τ)} {order : List Nat} {index : Index τ} {e : PyErr}
    (hj : join h config tok order index = .error e) : (joinYields h config tok order index).2 = some e := by
  induction order generalizing index with
  | nil => simp [join] at hj
  | cons k ks ih =>
      cases ht : tokenLoop h config tok k (List.range (h.probeLength (recordAt tok k).length).toNat) (index, []) with
      | error e' =>
          simp only [join, ht, Except.error.injEq] at hj
          simp [joinYields, ht, hj]
      | ok s =>
          obtain ⟨index1, occ⟩ := s
          cases hv : verifyLoop h tok (recordAt tok k) occ with
          | error e' =>
              simp only [join, ht, hv, Except.error.injEq] at hj
              have := verifyYields_of_error hv
              cases hy : verifyYields h tok (recordAt tok k) occ with
              | mk candidates err =>
                  rw [hy] at this
                  simp only at this
                  simp [joinYields, ht, hy, this, hj]
          | ok candidates =>
              cases hr : join h config tok ks index1 with
              | ok rest => simp [join, ht, hv, hr] at hj
              | error e' =>
                  simp only [join, ht, hv, hr, Except.error.injEq] at hj
                  simp [joinYields, ht, verifyYields_of_ok hv, ih (by rw [hr, hj])]

theorem verifyYields_mem {h : Helper K} {tok : List (List τ)} {x : List τ} (items : List (Nat × Int)) :
    (verifyYields h tok x items).1.Sublist (items.map Prod.fst) ∧
      ∀ c ∈ (verifyYields h tok x items).1, ∃ count, (c, count) ∈ items ∧ verify h tok x c count = .ok true := by
  induction items with
  | nil => simp [verifyYields]
  | cons i items ih =>
      obtain ⟨c, count⟩ := i
      obtain ⟨h1, h2⟩ := ih
      cases hv : verify h tok x c count with
      | error e => simp [verifyYields, hv]
      | ok keep =>
          cases keep with
          | true =>
              simp only [verifyYields, hv, List.map_cons]
              refine ⟨h1.cons_cons _, fun c' hc' => ?_⟩
              rcases List.mem_cons.mp hc' with rfl | hc'
              · exact ⟨count, by simp, hv⟩
              · obtain ⟨n, hn1, hn2⟩ := h2 c' hc'
                exact ⟨n, by simp [hn1], hn2⟩
          | false =>
              simp only [verifyYields, hv, List.map_cons]
              refine ⟨h1.cons _, fun c' hc' => ?_⟩
              obtain ⟨n, hn1, hn2⟩ := h2 c' hc'
              exact ⟨n, by simp [hn1], hn2⟩

/-- As `join_sound`, for what is yielded before an exception too. -/
theorem joinYields_sound {h : Helper K} {config : Config} {tok : List (List τ)} (hinc : ∀ i, Increasing (recordAt tok i))
    {order prev : List Nat} (hnd : (prev ++ order).Nodup) {index : Index τ} {M : Int}
    (hi : ∀ j, Inv h tok False (Indexed h tok prev j 0) M index) :
    (joinYields h config tok order index).1.Nodup ∧ ∀ p ∈ (joinYields h config tok order index).1,
      [p.2, p.1].Sublist (prev ++ order) ∧ p.1 ∈ order ∧
      h.threshold ≤ h.computeSimilarity (recordAt tok p.1).length (recordAt tok p.2).length
        (common (recordAt tok p.1) (recordAt tok p.2) : Int) := by
  induction order generalizing prev index M with
  | nil => simp [joinYields]
  | cons k ks ih =>
      cases ht : tokenLoop h config tok k (List.range (h.probeLength (recordAt tok k).length).toNat) (index, []) with
      | error e => simp [joinYields, ht]
      | ok s =>
          obtain ⟨index1, occ⟩ := s
          have hkp : k ∉ prev := by
            intro hm
            exact (List.nodup_append.mp hnd).2.2 k hm k (by simp) rfl
          have happ : prev ++ k :: ks = (prev ++ [k]) ++ ks := by simp
          have ht' := ht
          rw [List.range_eq_range'] at ht'
          obtain ⟨g1, g2, g3⟩ := tokenLoop_sound (hinc k) hkp _ 0 ((hi k).mono False.elim) (by simp [Dict.keys])
            (by simp [Dict.keys]) ht'
          rw [Nat.zero_add] at g1
          rw [happ] at hnd
          obtain ⟨r1, r2⟩ := ih (prev := prev ++ [k]) hnd (M := h.minPossibleLength (recordAt tok k).length)
            (fun j => g1.congr fun c cp => indexed_next)
          obtain ⟨v1, v2⟩ := verifyYields_mem (h := h) (tok := tok) (x := recordAt tok k) occ
          have hkks : k ∉ ks := by
            have := (List.nodup_append.mp hnd).2.2
            intro hm
            exact this k (by simp) k hm rfl
          have hfirst : ((verifyYields h tok (recordAt tok k) occ).1.map fun c => (k, c)).Nodup ∧
              ∀ p ∈ (verifyYields h tok (recordAt tok k) occ).1.map (fun c => (k, c)),
                [p.2, p.1].Sublist (prev ++ k :: ks) ∧ p.1 ∈ k :: ks ∧ p.1 = k ∧
                h.threshold ≤ h.computeSimilarity (recordAt tok p.1).length (recordAt tok p.2).length
                  (common (recordAt tok p.1) (recordAt tok p.2) : Int) := by
            constructor
            · rw [List.nodup_map_iff (fun a b hab => by simpa using hab)]
              exact g2.sublist v1
            · intro p hp
              obtain ⟨c, hc, rfl⟩ := List.mem_map.mp hp
              obtain ⟨count, hcm, hcv⟩ := v2 c hc
              refine ⟨?_, by simp, rfl, verify_sound (hinc k) (hinc c) hcv⟩
              have hcp : c ∈ prev := g3 c (List.mem_map.mpr ⟨_, hcm, rfl⟩)
              have h1 : [c].Sublist prev := List.singleton_sublist.mpr hcp
              have h2 : [k].Sublist (k :: ks) := List.singleton_sublist.mpr (by simp)
              exact h1.append h2
          cases hy : verifyYields h tok (recordAt tok k) occ with
          | mk candidates err =>
              rw [hy] at hfirst
              cases err with
              | some e =>
                  simp only [joinYields, ht, hy]
                  exact ⟨hfirst.1, fun p hp => ⟨(hfirst.2 p hp).1, (hfirst.2 p hp).2.1, (hfirst.2 p hp).2.2.2⟩⟩
              | none =>
                  simp only [joinYields, ht, hy]
                  constructor
                  · rw [List.nodup_append]
                    refine ⟨hfirst.1, r1, ?_⟩
                    intro a ha b hb hab
                    have h1 := (hfirst.2 a ha).2.2.1
                    have := (r2 b hb).2.1
                    rw [← hab, h1] at this
                    exact hkks this
                  · intro p hp
                    rcases List.mem_append.mp hp with hp | hp
                    · exact ⟨(hfirst.2 p hp).1, (hfirst.2 p hp).2.1, (hfirst.2 p hp).2.2.2⟩
                    · obtain ⟨h1, h2, h3⟩ := r2 p hp
                      exact ⟨by rw [happ]; exact h1, by simp [h2], h3⟩

theorem tokenLoop_append {h : Helper K} {config : Config} {tok : List (List τ)} {k : Nat} {ts us : List Nat}
    {s s' : Index τ × Dict Nat Int} (ht : tokenLoop h config tok k ts s = .ok s') :
    tokenLoop h config tok k (ts ++ us) s = tokenLoop h config tok k us s' := by
  induction ts generalizing s with
  | nil =>
      simp only [tokenLoop, Except.ok.injEq] at ht
      rw [ht]; rfl
  | cons t ts ih =>
      cases hs : tokenStep h config tok k s.1 s.2 t with
      | error e => simp [tokenLoop, hs] at ht
      | ok s1 =>
          simp only [tokenLoop, hs] at ht
          simp only [List.cons_append, tokenLoop, hs]
          exact ih ht

/-- The first record visited raises when its prefix is longer than it. -/
theorem joinYields_raises [IsStrictOrderedRing K] {h : Helper K} {config : Config} {tok : List (List τ)}
    (hinc : ∀ i, Increasing (recordAt tok i)) {k : Nat} {ks : List Nat}
    (hp : ((recordAt tok k).length : Int) < h.probeLength (recordAt tok k).length) :
    joinYields h config tok (k :: ks) [] = ([], some .indexError) := by
  have hi : Inv h tok True (Indexed h tok [] k 0) (h.minPossibleLength (recordAt tok k).length) [] :=
    (Inv.empty h tok True _).congr fun c cp => by simp [Indexed]
  obtain ⟨index', occ', ht, -⟩ := tokenLoop_complete (config := config) (prev := []) hinc (by simp) (by simp)
    (recordAt tok k).length 0 (by omega) (occ := []) hi (by simp)
  obtain ⟨n, hn⟩ : ∃ n, (h.probeLength (recordAt tok k).length).toNat = (recordAt tok k).length + (n + 1) :=
    ⟨(h.probeLength (recordAt tok k).length).toNat - (recordAt tok k).length - 1, by omega⟩
  have hr : List.range ((recordAt tok k).length + (n + 1)) =
      List.range' 0 (recordAt tok k).length ++ List.range' (recordAt tok k).length (n + 1) := by
    rw [List.range_eq_range', ← List.range'_append_1]; simp
  have : tokenLoop h config tok k (List.range (h.probeLength (recordAt tok k).length).toNat) ([], []) = .error .indexError := by
    rw [hn, hr, tokenLoop_append ht, List.range'_succ]
    simp [tokenLoop, tokenStep]
  simp only [joinYields, this]

/-- Nothing is raised when nothing is indexed and the prefixes are not longer than the records. -/
theorem tokenLoop_unindexed_ok {h : Helper K} {config : Config} {tok : List (List τ)} {k : Nat}
    {ts : List Nat} (hts : ∀ t ∈ ts, t < (recordAt tok k).length) (hn : ∀ l, ¬ h.threshold < (h.indexLength l : K))
    {s : Index τ × Dict Nat Int} (h0 : ∀ w, ((s.1.get? w).getD (0, [])).2 = []) :
    ∃ s', tokenLoop h config tok k ts s = .ok s' := by
  induction ts generalizing s with
  | nil => exact ⟨s, rfl⟩
  | cons t ts ih =>
      have htl := hts t (by simp)
      have hw : (recordAt tok k)[t]? = some (recordAt tok k)[t] := List.getElem?_eq_getElem htl
      cases hs : tokenStep h config tok k s.1 s.2 t with
      | error e => simp [tokenStep, hw, h0, candidateLoop] at hs
      | ok s1 =>
          have h1 : tokenLoop h config tok k [t] s = .ok s1 := by simp only [tokenLoop, hs]
          obtain ⟨s', hs'⟩ := ih (fun t ht => hts t (by simp [ht])) (tokenLoop_unindexed hn h0 h1).1
          exact ⟨s', by simp only [tokenLoop, hs, hs']⟩

theorem joinYields_unindexed {h : Helper K} {config : Config} {tok : List (List τ)}
    (hn : ∀ l, ¬ h.threshold < (h.indexLength l : K)) {order : List Nat}
    (hp : ∀ k ∈ order, h.probeLength (recordAt tok k).length ≤ ((recordAt tok k).length : Int)) {index : Index τ}
    (h0 : ∀ w, ((index.get? w).getD (0, [])).2 = []) : joinYields h config tok order index = ([], none) := by
  induction order generalizing index with
  | nil => rfl
  | cons k ks ih =>
      obtain ⟨s, hs⟩ := tokenLoop_unindexed_ok (config := config) (tok := tok) (k := k) (ts := List.range (h.probeLength (recordAt tok k).length).toNat)
        (fun t ht => by
          have := hp k (by simp)
          rw [List.mem_range] at ht
          omega) hn (s := (index, [])) h0
      obtain ⟨h1, h2⟩ := tokenLoop_unindexed hn (s := (index, [])) h0 hs
      obtain ⟨index1, occ⟩ := s
      simp only at h1 h2
      subst h2
      simp [joinYields, hs, verifyYields, ih (fun k hk => hp k (by simp [hk])) h1]

end Fog.Ppjoin

namespace Fog.Ppjoin

variable {K : Type _} [Field K] [LinearOrder K] [IsStrictOrderedRing K] [FloorRing K]

theorem pyInt_le_of_lt {z : Int} {x : K} (hz : 0 ≤ z) (h : x < (z : K) + 1) : pyInt x ≤ z := by
  rcases le_or_gt 0 x with hx | hx
  · exact pyInt_le hx h
  · unfold pyInt
    rw [if_neg (not_le.mpr hx), Int.ceil_le]
    have : (0 : K) ≤ (z : K) := by exact_mod_cast hz
    linarith

theorem pyInt_le_one {x : K} (h : x ≤ 1 + epsilon) : pyInt x ≤ 1 := by
  apply pyInt_le_of_lt (by norm_num)
  have := epsilon_lt_one (K := K)
  push_cast
  linarith

theorem not_lt_pyInt {t x : K} (ht : 1 ≤ t) (h : x ≤ 1 + epsilon) : ¬ t < ((pyInt x : Int) : K) := by
  have : ((pyInt x : Int) : K) ≤ 1 := by exact_mod_cast pyInt_le_one h
  linarith

/-- When the prefix of a record of `l` tokens is longer than the record. -/
theorem lt_pyInt_iff {u : K} (l : Nat) : (l : Int) < pyInt ((1 - u) * (l : K) + 1 + epsilon) ↔ u * (l : K) ≤ epsilon := by
  have he : (0 : K) < epsilon := epsilon_pos
  have hl : (0 : K) ≤ (l : K) := Nat.cast_nonneg l
  constructor
  · intro h
    by_contra hc
    rw [not_le] at hc
    have : pyInt ((1 - u) * (l : K) + 1 + epsilon) ≤ (l : Int) := pyInt_le_of_lt (by omega) (by push_cast; linarith)
    omega
  · intro h
    have : ((l : Int) + 1) ≤ pyInt ((1 - u) * (l : K) + 1 + epsilon) := by
      rw [le_pyInt (by linarith)]
      push_cast
      linarith
    omega

end Fog.Ppjoin
