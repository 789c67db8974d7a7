import Verif.Lemmas.Levenshtein

/-! # The banded dynamic programming of `limited_levenshtein_distance` -/

namespace Fog.Levenshtein

section Band

variable (a b : List Nat) (M diff : Nat)

/-- Distance of prefixes. -/
def D (i j : Nat) : Nat := lev (a.take i) (b.take j)

/-- Least cost to go from cell `(i, j)` to the last cell. -/
def rem (i j : Nat) : Nat := (j - (i + diff)) + ((i + diff) - j)

/-- What the band guarantees for the value `v` of the cell `(i, j)`. -/
def Good (i j v : Nat) : Prop :=
  min (D a b i j) (M + 1) ≤ v ∧ (D a b i j + rem diff i j ≤ M → v = D a b i j)

variable {a b M diff}

theorem D_succ {i j : Nat} (hi : i < a.length) (hj : j < b.length) :
    D a b (i + 1) (j + 1) = cell a[i] b[j] (D a b i j) (D a b i (j + 1)) (D a b (i + 1) j) := by
  unfold D
  rw [List.take_succ_eq_append_getElem hi, List.take_succ_eq_append_getElem hj, cell_lev]

theorem Good.step {i j d u ab : Nat} (hi : i < a.length) (hj : j < b.length)
    (hd : Good a b M diff i j d) (hu : Good a b M diff i (j + 1) u) (ha : Good a b M diff (i + 1) j ab) :
    Good a b M diff (i + 1) (j + 1) (cell a[i] b[j] d u ab) := by
  have e := D_succ hi hj
  unfold Good at *
  have hr : rem diff (i + 1) (j + 1) = rem diff i j := by unfold rem; omega
  have hr1 : rem diff i (j + 1) ≤ rem diff i j + 1 := by unfold rem; omega
  have hr2 : rem diff (i + 1) j ≤ rem diff i j + 1 := by unfold rem; omega
  unfold cell at e ⊢
  by_cases h : a[i] = b[j]
  · simp only [h, ne_eq, not_true_eq_false, if_false] at e ⊢
    rw [hr, e]; exact hd
  · simp only [h, ne_eq, not_false_eq_true, if_true] at e ⊢
    rw [hr, e]
    generalize D a b i j = d0 at *
    generalize D a b i (j + 1) = u0 at *
    generalize D a b (i + 1) j = a0 at *
    generalize rem diff i j = r at *
    generalize rem diff i (j + 1) = r1 at *
    generalize rem diff (i + 1) j = r2 at *
    clear e
    constructor
    · split <;> split <;> split <;> split <;> omega
    · split <;> split <;> split <;> split <;> omega

theorem bandLoop_spec {i : Nat} (hi : i < a.length) (fuel : Nat) : ∀ (j : Nat) (vec : List Nat) (left cur : Nat),
    vec.length = b.length → j + fuel ≤ b.length →
    Good a b M diff i j left → Good a b M diff (i + 1) j cur →
    (∀ k, j ≤ k → k < b.length → Good a b M diff i (k + 1) (vec.getD k 0)) →
    let r := bandLoop a[i] b fuel j vec left cur
    r.1.length = b.length ∧
    (∀ k, j ≤ k → k < j + fuel → Good a b M diff (i + 1) (k + 1) (r.1.getD k 0)) ∧
    (∀ k, (k < j ∨ j + fuel ≤ k) → r.1.getD k 0 = vec.getD k 0) ∧
    (Good a b M diff (i + 1) (j + fuel) r.2) := by
  induction fuel with
  | zero =>
      intro j vec left cur hv hj hl hc hg
      refine ⟨hv, ?_, ?_, ?_⟩
      · intro k h1 h2; omega
      · intro k _; rfl
      · exact hc
  | succ fuel ih =>
      intro j vec left cur hv hj hl hc hg
      have hjb : j < b.length := by omega
      have hu := hg j (Nat.le_refl _) hjb
      have hstep := Good.step hi hjb hl hu hc
      have eb : b.getD j 0 = b[j] := by simp [List.getD_eq_getElem?_getD, hjb]
      simp only [bandLoop, eb]
      generalize hc' : cell a[i] b[j] left (vec.getD j 0) cur = c at hstep ⊢
      have := ih (j + 1) (vec.set j c) (vec.getD j 0) c (by simpa using hv) (by omega) hu hstep (by
        intro k h1 h2
        have : (vec.set j c).getD k 0 = vec.getD k 0 := by
          simp only [List.getD_eq_getElem?_getD]
          rw [List.getElem?_set_ne (by omega)]
        rw [this]
        exact hg k (by omega) h2)
      obtain ⟨h1, h2, h3, h4⟩ := this
      refine ⟨h1, ?_, ?_, ?_⟩
      · intro k hk1 hk2
        by_cases hk : k = j
        · subst hk
          rw [h3 k (by omega)]
          have : (vec.set k c).getD k 0 = c := by
            simp only [List.getD_eq_getElem?_getD]
            rw [List.getElem?_set_self (by omega)]; rfl
          rw [this]; exact hstep
        · exact h2 k (by omega) (by omega)
      · intro k hk
        rw [h3 k (by omega)]
        simp only [List.getD_eq_getElem?_getD]
        rw [List.getElem?_set_ne (by omega)]
      · rw [show j + (fuel + 1) = j + 1 + fuel by omega]; exact h4

theorem D_zero_right (i : Nat) (hi : i ≤ a.length) : D a b i 0 = i := by
  unfold D; simp [hi]

theorem D_zero_left (j : Nat) (hj : j ≤ b.length) : D a b 0 j = j := by
  unfold D; simp [hj]

theorem D_le_max (i j : Nat) : D a b i j ≤ max i j := by
  have := lev_le_max (a.take i) (b.take j)
  have h1 := List.length_take_le i a
  have h2 := List.length_take_le j b
  unfold D; omega

theorem D_ge (i j : Nat) (hj : j ≤ b.length) : j ≤ i + D a b i j := by
  have := (lev_length_le (a.take i) (b.take j)).2
  have h1 := List.length_take_le i a
  simp only [List.length_take] at this
  unfold D; omega

theorem D_diag {i j : Nat} (hi : i < a.length) (hj : j < b.length) : D a b i j ≤ D a b (i + 1) (j + 1) := by
  unfold D
  rw [List.take_succ_eq_append_getElem hi, List.take_succ_eq_append_getElem hj]
  exact lev_snoc_ge _ _ _ _

theorem D_diag_add {i j : Nat} (k : Nat) (hi : i + k ≤ a.length) (hj : j + k ≤ b.length) :
    D a b i j ≤ D a b (i + k) (j + k) := by
  induction k with
  | zero => exact Nat.le_refl _
  | succ k ih =>
      have h1 := ih (by omega) (by omega)
      have h2 := D_diag (a := a) (b := b) (i := i + k) (j := j + k) (by omega) (by omega)
      exact Nat.le_trans h1 h2

theorem good_of_eq {i j v : Nat} (h : v = D a b i j) : Good a b M diff i j v := by
  unfold Good; omega

theorem limitedLoop_spec (hab : b.length = a.length + diff) (hM : diff ≤ M) (hMn : M ≤ b.length)
    (hh : NoCommonHead a b) (ub : Nat) (hub : M < b.length → ub = M + 1) :
    ∀ (k i : Nat) (vec : List Nat) (cur : Nat),
    i + k = a.length → vec.length = b.length →
    (∀ j, i - (M - diff) ≤ j → j < b.length → Good a b M diff i (j + 1) (vec.getD j 0)) →
    (∀ j, M + i ≤ j → j < b.length → vec.getD j 0 = ub) →
    (k = 0 → Good a b M diff a.length b.length cur) →
    limitedLoop b b.length M ub diff (M - diff) (decide (M < b.length)) (a.drop i) i (i - 1 - (M - diff))
      (min b.length (M + i)) vec cur
      = if lev a b ≤ M then lev a b else ub := by
  intro k
  have hDlev : D a b a.length b.length = lev a b := by unfold D; simp
  induction k with
  | zero =>
      intro i vec cur hi hv hg hu hcur
      have : i = a.length := by omega
      subst this
      have hc := hcur rfl
      unfold Good at hc
      rw [hDlev] at hc
      have hr : rem diff a.length b.length = 0 := by unfold rem; omega
      rw [hr] at hc
      simp only [List.drop_length, limitedLoop]
      split <;> split <;> omega
  | succ k ih =>
      intro i vec cur hi hv hg hu hcur
      have hia : i < a.length := by omega
      rw [List.drop_eq_getElem_cons hia, limitedLoop]
      have ejs : i - 1 - (M - diff) + (if i > M - diff then 1 else 0) = i - (M - diff) := by
        split <;> omega
      have eje : min b.length (M + i) + (if min b.length (M + i) < b.length then 1 else 0)
          = min b.length (M + (i + 1)) := by
        split <;> omega
      rw [ejs, eje]
      have hl : Good a b M diff i (i - (M - diff)) i := by
        by_cases ho : i ≤ M - diff
        · rw [show i - (M - diff) = 0 by omega]
          exact good_of_eq (D_zero_right i (by omega)).symm
        · have hle := D_le_max (a := a) (b := b) i (i - (M - diff))
          unfold Good
          refine ⟨by omega, ?_⟩
          intro hsum
          exfalso
          have hrem : rem diff i (i - (M - diff)) = M := by unfold rem; omega
          have hD0 : D a b i (i - (M - diff)) = 0 := by omega
          have heq := eq_of_lev_eq_zero hD0
          have hlen := congrArg List.length heq
          simp only [List.length_take] at hlen
          have e1 : i - (M - diff) = i := by omega
          rw [e1] at heq
          cases a with
          | nil => simp at hia
          | cons x a =>
              cases b with
              | nil => simp at hab; omega
              | cons y b =>
                  cases i with
                  | zero => omega
                  | succ i =>
                      simp only [List.take_succ_cons, List.cons.injEq] at heq
                      exact hh x rfl (by simp [heq.1])
      have hc : Good a b M diff (i + 1) (i - (M - diff)) (i + 1) := by
        by_cases ho : i ≤ M - diff
        · rw [show i - (M - diff) = 0 by omega]
          exact good_of_eq (D_zero_right (i + 1) (by omega)).symm
        · have hle := D_le_max (a := a) (b := b) (i + 1) (i - (M - diff))
          have hrem : rem diff (i + 1) (i - (M - diff)) = M + 1 := by unfold rem; omega
          unfold Good
          omega
      have hjs : i - (M - diff) ≤ min b.length (M + (i + 1)) := by omega
      have hband := bandLoop_spec (M := M) (diff := diff) hia (min b.length (M + (i + 1)) - (i - (M - diff)))
        (i - (M - diff)) vec i (i + 1) hv (by omega) hl hc hg
      generalize hres : bandLoop a[i] b (min b.length (M + (i + 1)) - (i - (M - diff))) (i - (M - diff)) vec i (i + 1)
        = res at hband ⊢
      simp only at hband
      obtain ⟨h1, h2, h3, h4⟩ := hband
      rw [show i - (M - diff) + (min b.length (M + (i + 1)) - (i - (M - diff))) = min b.length (M + (i + 1)) by omega]
        at h2 h3 h4
      by_cases hexit : (decide (M < b.length) && decide (res.1.getD (i + diff) 0 > M)) = true
      · rw [if_pos hexit]
        simp only [Bool.and_eq_true, decide_eq_true_eq] at hexit
        have hgood := h2 (i + diff) (by omega) (by omega)
        unfold Good at hgood
        have hrem : rem diff (i + 1) (i + diff + 1) = 0 := by unfold rem; omega
        rw [hrem] at hgood
        have hmono := D_diag_add (a := a) (b := b) (i := i + 1) (j := i + diff + 1) k (by omega) (by omega)
        rw [show i + 1 + k = a.length by omega, show i + diff + 1 + k = b.length by omega, hDlev] at hmono
        rw [if_neg]
        omega
      · rw [if_neg hexit]
        have hvec : ∀ j, i + 1 - (M - diff) ≤ j → j < b.length →
            Good a b M diff (i + 1) (j + 1) (res.1.getD j 0) := by
          intro j hj1 hj2
          by_cases hj : j < min b.length (M + (i + 1))
          · exact h2 j (by omega) hj
          · rw [h3 j (by omega), hu j (by omega) hj2, hub (by omega)]
            have := D_ge (a := a) (b := b) (i + 1) (j + 1) (by omega)
            unfold Good
            omega
        have hend : min b.length (M + (i + 1)) = min b.length (M + (i + 1)) := rfl
        have := ih (i + 1) res.1 res.2 (by omega) h1 hvec (by
          intro j hj1 hj2
          rw [h3 j (by omega), hu j (by omega) hj2]) (by
          intro hk
          have e1 : i + 1 = a.length := by omega
          have e2 : min b.length (M + (i + 1)) = b.length := by omega
          rw [e2, e1] at h4
          exact h4)
        rw [show i + 1 - 1 - (M - diff) = i - (M - diff) by omega] at this
        exact this

theorem limitedLoop_start (hab : b.length = a.length + diff) (hM : diff ≤ M) (hMn : M ≤ b.length)
    (hh : NoCommonHead a b) (ha : a ≠ []) (ub : Nat) (hub : M < b.length → ub = M + 1) :
    limitedLoop b b.length M ub diff (M - diff) (decide (M < b.length)) a 0 0 M
      ((List.range b.length).map fun i => if i < M then i + 1 else ub) 0
      = if lev a b ≤ M then lev a b else ub := by
  have hlen : 0 < a.length := List.length_pos_iff.mpr ha
  have hget : ∀ j, j < b.length →
      ((List.range b.length).map fun i => if i < M then i + 1 else ub).getD j 0 = if j < M then j + 1 else ub := by
    intro j hj
    simp [List.getD_eq_getElem?_getD, hj]
  have := limitedLoop_spec (a := a) (b := b) (M := M) (diff := diff) hab hM hMn hh ub hub a.length 0
    ((List.range b.length).map fun i => if i < M then i + 1 else ub) 0 (by omega) (by simp) (by
      intro j _ hj
      rw [hget j hj]
      have hD := D_zero_left (a := a) (b := b) (j + 1) (by omega)
      split
      · exact good_of_eq hD.symm
      · rw [hub (by omega)]
        unfold Good
        rw [hD]; omega) (by
      intro j hj1 hj2
      rw [hget j hj2]
      split <;> omega) (by omega)
  simpa [Nat.min_eq_right hMn] using this

end Band

theorem map_ushort_of_lt {l : List Nat} (h : ∀ c ∈ l, c < 65536) : l.map ushort = l := by
  induction l with
  | nil => rfl
  | cons x l ih =>
      simp only [List.map_cons, List.cons.injEq]
      exact ⟨Nat.mod_eq_of_lt (h x (by simp)), ih fun c hc => h c (by simp [hc])⟩

/-- The limited distance of ordered strings, in terms of the trimmed strings: the characters of the longer one are truncated. -/
theorem limitedOrdered_trim (max : Nat) (p a b s : List Nat) (hle' : a.length ≤ b.length) (hh : NoCommonHead a b)
    (hl : NoCommonLast (p ++ a) (p ++ b)) (hu : NoCommonHead a (b.map ushort)) (hblen : b.length < 2 ^ 32) :
    limitedOrdered max (p ++ a ++ s) (p ++ b ++ s) =
      if lev a (b.map ushort) ≤ max then lev a (b.map ushort) else (max + 1) % 2 ^ 32 := by
  have h1 := suffixLoop_append (p ++ a) (p ++ b) (by simp; omega) hl s []
  have h2 := prefixLoop_append a b hh p s s hle' []
  simp only [List.append_nil, List.nil_append, List.length_nil] at h1 h2
  unfold limitedOrdered
  rw [h1]
  simp only [h2]
  simp only [List.length_append, Nat.add_sub_cancel_left]
  by_cases hA0 : p.length + a.length + s.length = 0
  · have ha : a = [] := by apply List.length_eq_zero_iff.mp; omega
    subst ha
    simp only [hA0, if_true, lev_nil_left, List.length_map]
    rw [show p.length + b.length + s.length = b.length by simp only [List.length_nil] at hA0; omega]
    split <;> split <;> omega
  · rw [if_neg hA0]
    by_cases hpa : p.length + a.length = 0
    · have ha : a = [] := by apply List.length_eq_zero_iff.mp; omega
      subst ha
      simp only [hpa, if_true, lev_nil_left, List.length_map]
      rw [show p.length + b.length = b.length by simp only [List.length_nil] at hpa; omega]
      split <;> split <;> omega
    · rw [if_neg hpa]
      by_cases ha : a.length = 0
      · have ha : a = [] := List.length_eq_zero_iff.mp ha
        subst ha
        simp only [List.length_nil, if_true, lev_nil_left, List.length_map]
        split <;> split <;> omega
      · rw [if_neg ha]
        have e : (p ++ a ++ s).drop p.length = a ++ s := by simp [List.append_assoc]
        have e' : (p ++ b ++ s).drop p.length = b ++ s := by simp [List.append_assoc]
        rw [e, e', List.take_left, List.take_left]
        have hbl : b.length = (b.map ushort).length := by simp
        rw [hbl] at hle' hblen ⊢
        generalize b.map ushort = b at *
        have hge := (lev_length_le a b).2
        by_cases hd : max ≤ b.length ∧ b.length - a.length > max
        · rw [if_pos hd, if_neg]; omega
        · rw [if_neg hd]
          have hmx := lev_le_max a b
          by_cases hm : max > b.length
          · simp only [hm, if_true]
            rw [limitedLoop_start (by omega) (by omega) (Nat.le_refl _) hu (by rintro rfl; simp at ha) _ (by omega)]
            split <;> split <;> omega
          · simp only [hm, if_false]
            rw [limitedLoop_start (by omega) (by omega) (by omega) hu (by rintro rfl; simp at ha) _ (by
              intro hlt
              exact Nat.mod_eq_of_lt (by omega))]

/-- The limited distance of ordered strings, in terms of the distance. -/
theorem limitedOrdered_spec (max : Nat) (A B : List Nat) (hle : A.length ≤ B.length)
    (hB : ∀ c ∈ B, c < 65536) (hlen : B.length < 2 ^ 32) :
    limitedOrdered max A B = if lev A B ≤ max then lev A B else (max + 1) % 2 ^ 32 := by
  obtain ⟨p, a, b, s, rfl, rfl, hh, hl⟩ := exists_trim A B
  have hle' : a.length ≤ b.length := by simp at hle; omega
  have hblen : b.length < 2 ^ 32 := by simp only [List.length_append] at hlen; omega
  have hb : b.map ushort = b := map_ushort_of_lt fun c hc => hB c (by simp [hc])
  rw [limitedOrdered_trim max p a b s hle' hh hl (by rw [hb]; exact hh) hblen, hb, lev_append_right, lev_append_left]

end Fog.Levenshtein
