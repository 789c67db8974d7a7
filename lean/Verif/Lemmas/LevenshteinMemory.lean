import Verif.Model.LevenshteinMemory
import Verif.Lemmas.LimitedLevenshtein
import Mathlib.Tactic.SplitIfs

/-!
# The memory of the compiled distances
-/

namespace Fog.LevenshteinMemory

open Fog.Levenshtein (ushort)

/-! ### Reading and writing the two arrays -/

/-- The heap once the two arrays are allocated. -/
abbrev mk (h : Heap) (cs vs : List (Option UInt32)) : Heap := h ++ [some cs, some vs]

theorem load_codes (h : Heap) (cs vs : List (Option UInt32)) (i v : UInt32) (hi : cs[i.toNat]? = some (some v)) :
    load (mk h cs vs) h.length i = .ok v := by
  simp [load, mk, hi]

theorem load_vector (h : Heap) (cs vs : List (Option UInt32)) (i v : UInt32) (hi : vs[i.toNat]? = some (some v)) :
    load (mk h cs vs) (h.length + 1) i = .ok v := by
  simp [load, mk, hi]

theorem store_codes (h : Heap) (cs vs : List (Option UInt32)) (i v : UInt32) (hi : i.toNat < cs.length) :
    store (mk h cs vs) h.length i v = .ok (mk h (cs.set i.toNat (some v)) vs) := by
  simp [store, mk, hi]

theorem store_vector (h : Heap) (cs vs : List (Option UInt32)) (i v : UInt32) (hi : i.toNat < vs.length) :
    store (mk h cs vs) (h.length + 1) i v = .ok (mk h cs (vs.set i.toNat (some v))) := by
  simp [store, mk, hi]

theorem free_both (h : Heap) (cs vs : List (Option UInt32)) :
    free (mk h cs vs) h.length = .ok (h ++ [none, some vs]) ∧ free (h ++ [none, some vs]) (h.length + 1) = .ok (h ++ [none, none]) := by
  constructor <;> simp [free, mk]

theorem charAt_ok {s : List Nat} {i : UInt32} (hi : i.toNat < s.length) : charAt s i = .ok s[i.toNat] := by
  simp [charAt, hi]

/-! ### Trimming -/

theorem toNat_sub_one {n : UInt32} (h : 0 < n) : (n - 1).toNat = n.toNat - 1 := by
  have := UInt32.lt_iff_toNat_lt.mp h
  rw [UInt32.toNat_sub_of_le _ _ (by rw [UInt32.le_iff_toNat_le]; simp at *; omega)]
  simp

theorem suffixLoop_ok (A B : List Nat) : ∀ (n : Nat) (LA LB : UInt32), LA.toNat = n → LA.toNat ≤ A.length → LB.toNat ≤ B.length →
    LA.toNat ≤ LB.toNat → ∃ LA' LB', suffixLoop A B LA LB = .ok (LA', LB') ∧
      (LA'.toNat, LB'.toNat) = Levenshtein.suffixLoop A B LA.toNat LB.toNat ∧ LA'.toNat ≤ LA.toNat ∧ LB'.toNat ≤ LB.toNat ∧
        LA'.toNat ≤ LB'.toNat := by
  intro n
  induction n with
  | zero =>
      intro LA LB h0 hA hB hle
      have hn : ¬ 0 < LA := by rw [UInt32.lt_iff_toNat_lt]; simp; omega
      refine ⟨LA, LB, ?_, ?_, Nat.le_refl _, Nat.le_refl _, hle⟩
      · rw [suffixLoop, dif_neg hn]
      · rw [h0]; simp [Levenshtein.suffixLoop]
  | succ n ih =>
      intro LA LB h0 hA hB hle
      have hp : 0 < LA := by rw [UInt32.lt_iff_toNat_lt]; simp; omega
      have hpB : 0 < LB := by rw [UInt32.lt_iff_toNat_lt]; simp; omega
      have h1 : (LA - 1).toNat = n := by rw [toNat_sub_one hp]; omega
      have h2 : (LB - 1).toNat = LB.toNat - 1 := toNat_sub_one hpB
      have hiA : (LA - 1).toNat < A.length := by omega
      have hiB : (LB - 1).toNat < B.length := by omega
      have e : Levenshtein.suffixLoop A B LA.toNat LB.toNat =
          if A[n]? = B[LB.toNat - 1]? then Levenshtein.suffixLoop A B n (LB.toNat - 1) else (n + 1, LB.toNat) := by
        rw [h0]; rfl
      rw [suffixLoop, dif_pos hp, charAt_ok hiA, charAt_ok hiB, e]
      have ea : A[n]? = some A[(LA - 1).toNat] := by rw [← h1]; simp [hiA]
      have eb : B[LB.toNat - 1]? = some B[(LB - 1).toNat] := by rw [← h2]; simp [hiB]
      rw [ea, eb]
      by_cases hc : A[(LA - 1).toNat] = B[(LB - 1).toNat]
      · obtain ⟨LA', LB', e1, e2, e3, e4, e5⟩ := ih (LA - 1) (LB - 1) h1 (by omega) (by omega) (by omega)
        refine ⟨LA', LB', ?_, ?_, by omega, by omega, e5⟩
        · simp only [hc, if_true]; exact e1
        · rw [h1, h2] at e2
          simp only [hc, if_true]; exact e2
      · refine ⟨LA, LB, ?_, ?_, Nat.le_refl _, Nat.le_refl _, hle⟩
        · simp only [hc, if_false]
        · simp [hc, h0]

theorem prefixLoop_ok (A B : List Nat) (LA : UInt32) (hA : LA.toNat ≤ A.length) (hB : LA.toNat ≤ B.length) :
    ∀ (n : Nat) (start : UInt32), LA.toNat - start.toNat = n → start.toNat ≤ LA.toNat → ∃ s, prefixLoop A B LA start = .ok s ∧
      s.toNat = Levenshtein.prefixLoop A B LA.toNat start.toNat ∧ s.toNat ≤ LA.toNat := by
  intro n
  induction n with
  | zero =>
      intro start h0 hs
      have hn : ¬ start < LA := by rw [UInt32.lt_iff_toNat_lt]; omega
      refine ⟨start, ?_, ?_, hs⟩
      · rw [prefixLoop, dif_neg hn]
      · rw [Levenshtein.prefixLoop, dif_neg (by omega)]
  | succ n ih =>
      intro start h0 hs
      have hp : start < LA := by rw [UInt32.lt_iff_toNat_lt]; omega
      have h1 := add_one_toNat hp
      have hiA : start.toNat < A.length := by omega
      have hiB : start.toNat < B.length := by omega
      rw [prefixLoop, dif_pos hp, charAt_ok hiA, charAt_ok hiB, Levenshtein.prefixLoop, dif_pos (by omega)]
      by_cases hc : A[start.toNat] = B[start.toNat]
      · obtain ⟨s, e1, e2, e3⟩ := ih (start + 1) (by omega) (by omega)
        refine ⟨s, ?_, ?_, e3⟩
        · simp only [hc, if_true]; exact e1
        · rw [h1] at e2
          rw [if_pos (by simp [hiA, hiB, hc])]; exact e2
      · refine ⟨start, ?_, ?_, hs⟩
        · simp only [hc, if_false]
        · rw [if_neg (by simp [hiA, hiB, hc])]

/-! ### Filling -/

theorem fillLoop_ok (B : List Nat) (start limit : UInt32) (value : UInt32 → UInt32) (h : Heap)
    (hB : start.toNat + limit.toNat ≤ B.length) (h32 : start.toNat + limit.toNat < 2 ^ 32) :
    ∀ (n : Nat) (i : UInt32) (cs vs : List (Option UInt32)), limit.toNat - i.toNat = n → limit.toNat ≤ cs.length → limit.toNat ≤ vs.length →
      ∃ cs' vs', fillLoop B start h.length (h.length + 1) limit value i (mk h cs vs) = .ok (mk h cs' vs') ∧ cs'.length = cs.length ∧
        vs'.length = vs.length ∧
        (∀ k, cs'[k]? = if i.toNat ≤ k ∧ k < limit.toNat then some (some (UInt32.ofNat (ushort (B.getD (start.toNat + k) 0)))) else cs[k]?) ∧
        ∀ k, vs'[k]? = if i.toNat ≤ k ∧ k < limit.toNat then some (some (value (UInt32.ofNat k))) else vs[k]? := by
  intro n
  induction n with
  | zero =>
      intro i cs vs h0 hc hv
      have hn : ¬ i < limit := by rw [UInt32.lt_iff_toNat_lt]; omega
      refine ⟨cs, vs, by rw [fillLoop, dif_neg hn], rfl, rfl, ?_, ?_⟩ <;>
        · intro k; rw [if_neg (by omega)]
  | succ n ih =>
      intro i cs vs h0 hc hv
      have hp : i < limit := by rw [UInt32.lt_iff_toNat_lt]; omega
      have h1 := add_one_toNat hp
      have hlt : i.toNat < limit.toNat := by omega
      have hadd : (start + i).toNat = start.toNat + i.toNat := by rw [UInt32.toNat_add]; omega
      have hi : (start + i).toNat < B.length := by omega
      rw [fillLoop, dif_pos hp, charAt_ok hi]
      simp only
      rw [store_codes _ _ _ _ _ (by omega)]
      simp only
      rw [store_vector _ _ _ _ _ (by omega)]
      simp only
      obtain ⟨cs', vs', e1, e2, e3, e4, e5⟩ := ih (i + 1) (cs.set i.toNat (some (UInt32.ofNat (ushort B[(start + i).toNat]))))
        (vs.set i.toNat (some (value i))) (by omega) (by simpa using hc) (by simpa using hv)
      refine ⟨cs', vs', e1, by simpa using e2, by simpa using e3, ?_, ?_⟩
      · intro k
        rw [e4 k, h1]
        by_cases hk : k = i.toNat
        · subst hk
          rw [if_neg (by omega), if_pos ⟨Nat.le_refl _, hlt⟩, List.getElem?_set_self (by omega)]
          simp [hadd, List.getD_eq_getElem?_getD, (by omega : start.toNat + i.toNat < B.length)]
        · rw [List.getElem?_set_ne (Ne.symm hk)]
          by_cases hk2 : i.toNat + 1 ≤ k ∧ k < limit.toNat
          · rw [if_pos hk2, if_pos (by omega)]
          · rw [if_neg hk2, if_neg (by omega)]
      · intro k
        rw [e5 k, h1]
        by_cases hk : k = i.toNat
        · subst hk
          rw [if_neg (by omega), if_pos ⟨Nat.le_refl _, hlt⟩, List.getElem?_set_self (by omega)]
          simp
        · rw [List.getElem?_set_ne (Ne.symm hk)]
          by_cases hk2 : i.toNat + 1 ≤ k ∧ k < limit.toNat
          · rw [if_pos hk2, if_pos (by omega)]
          · rw [if_neg hk2, if_neg (by omega)]

/-! ### Rows -/

/-- A row on lists, with the numbers of C. -/
def band (charA : UInt32) (cs : List UInt32) : Nat → Nat → List UInt32 → UInt32 → UInt32 → List UInt32 × UInt32
  | 0, _, vs, _, current => (vs, current)
  | n + 1, j, vs, left, current =>
      let c := cell charA (cs.getD j 0) left (vs.getD j 0) current
      band charA cs n (j + 1) (vs.set j c) (vs.getD j 0) c

theorem band_length (charA : UInt32) (cs : List UInt32) (n : Nat) : ∀ j vs left current,
    (band charA cs n j vs left current).1.length = vs.length := by
  induction n with
  | zero => intro j vs left current; rfl
  | succ n ih => intro j vs left current; simp [band, ih]

theorem rowLoop_ok (h : Heap) (charA : UInt32) (cs : List UInt32) (limit : UInt32) (hc : limit.toNat ≤ cs.length) :
    ∀ (n : Nat) (j left current : UInt32) (vs : List UInt32), limit.toNat - j.toNat = n → limit.toNat ≤ vs.length →
      rowLoop charA h.length (h.length + 1) limit j left current (mk h (cs.map some) (vs.map some)) =
        .ok (mk h (cs.map some) ((band charA cs n j.toNat vs left current).1.map some), (band charA cs n j.toNat vs left current).2) := by
  intro n
  induction n with
  | zero =>
      intro j left current vs h0 hv
      have hn : ¬ j < limit := by rw [UInt32.lt_iff_toNat_lt]; omega
      rw [rowLoop, dif_neg hn]; rfl
  | succ n ih =>
      intro j left current vs h0 hv
      have hp : j < limit := by rw [UInt32.lt_iff_toNat_lt]; omega
      have h1 := add_one_toNat hp
      have hjv : j.toNat < vs.length := by omega
      have hjc : j.toNat < cs.length := by omega
      rw [rowLoop, dif_pos hp, load_vector _ _ _ _ (vs.getD j.toNat 0) (by simp [hjv]),
        load_codes _ _ _ _ (cs.getD j.toNat 0) (by simp [hjc])]
      simp only
      rw [store_vector _ _ _ _ _ (by simpa using hjv)]
      simp only
      rw [← List.map_set, ih (j + 1) _ _ _ (by omega) (by simpa using hv), h1]
      rfl

theorem cell_toNat (charA code diag up above : UInt32) (h : diag.toNat + 1 < 2 ^ 32) :
    (cell charA code diag up above).toNat = Levenshtein.cell charA.toNat code.toNat diag.toNat up.toNat above.toNat ∧
      (cell charA code diag up above).toNat ≤ diag.toNat + 1 := by
  have hne : (charA ≠ code) ↔ charA.toNat ≠ code.toNat := by simp [UInt32.toNat_inj]
  have key : ∀ x : UInt32, x.toNat ≤ diag.toNat → (x + 1).toNat = x.toNat + 1 := by
    intro x hx
    rw [UInt32.toNat_add]
    simp
    omega
  unfold cell Levenshtein.cell
  by_cases hc : charA ≠ code
  · rw [if_pos hc, if_pos (hne.mp hc)]
    simp only [UInt32.lt_iff_toNat_lt]
    split_ifs <;> constructor <;> first | (rw [key _ (by omega)]; done) | (rw [key _ (by omega)]; omega)
  · rw [if_neg hc, if_neg (fun hh => hc (hne.mpr hh))]
    exact ⟨rfl, by omega⟩

theorem band_toNat (charA : UInt32) (cs : List UInt32) (i L : Nat) (hi : i + 1 ≤ L) (hL : L < 2 ^ 32) (n : Nat) :
    ∀ (j : Nat) (vs : List UInt32) (left current : UInt32), vs.length = L → cs.length = L → j + n ≤ L → left.toNat ≤ max i j →
      (∀ k v, vs[k]? = some v → v.toNat ≤ if k < j then max (i + 1) (k + 1) else max i (k + 1)) →
      (band charA cs n j vs left current).1.map UInt32.toNat =
          (Levenshtein.bandLoop charA.toNat (cs.map UInt32.toNat) n j (vs.map UInt32.toNat) left.toNat current.toNat).1 ∧
        (band charA cs n j vs left current).2.toNat =
          (Levenshtein.bandLoop charA.toNat (cs.map UInt32.toNat) n j (vs.map UInt32.toNat) left.toNat current.toNat).2 ∧
        ∀ k v, (band charA cs n j vs left current).1[k]? = some v → v.toNat ≤ max (i + 1) (k + 1) := by
  induction n with
  | zero =>
      intro j vs left current hv hc hj hl hb
      refine ⟨rfl, rfl, ?_⟩
      intro k v hk
      have := hb k v hk
      split_ifs at this <;> omega
  | succ n ih =>
      intro j vs left current hv hc hj hl hb
      have hjv : j < vs.length := by omega
      have hjc : j < cs.length := by omega
      have eup : (vs.getD j 0).toNat = (vs.map UInt32.toNat).getD j 0 := by simp [hjv]
      have eco : (cs.getD j 0).toNat = (cs.map UInt32.toNat).getD j 0 := by simp [hjc]
      obtain ⟨c1, c2⟩ := cell_toNat charA (cs.getD j 0) left (vs.getD j 0) current (by omega)
      have hup : (vs.getD j 0).toNat ≤ max i (j + 1) := by
        have := hb j (vs.getD j 0) (by simp [hjv])
        rw [if_neg (by omega)] at this
        exact this
      have := ih (j + 1) (vs.set j (cell charA (cs.getD j 0) left (vs.getD j 0) current)) (vs.getD j 0)
        (cell charA (cs.getD j 0) left (vs.getD j 0) current) (by simpa using hv) hc (by omega) hup (by
          intro k v hk
          by_cases hkj : k = j
          · subst hkj
            rw [List.getElem?_set_self hjv] at hk
            cases hk
            rw [if_pos (by omega)]
            omega
          · rw [List.getElem?_set_ne (Ne.symm hkj)] at hk
            have := hb k v hk
            by_cases h1 : k < j
            · rw [if_pos h1] at this; rw [if_pos (by omega)]; exact this
            · rw [if_neg h1] at this; rw [if_neg (by omega)]; exact this)
      rw [List.map_set, eup, c1, eup, eco] at this
      exact this

/-! ### The loops over the rows -/

theorem add_toNat {a b : UInt32} (h : a.toNat + b.toNat < 2 ^ 32) : (a + b).toNat = a.toNat + b.toNat := by
  rw [UInt32.toNat_add]; omega

theorem drop_take_cons {A : List Nat} {k n : Nat} (h : k < A.length) : (A.drop k).take (n + 1) = A[k] :: (A.drop (k + 1)).take n := by
  rw [List.drop_eq_getElem_cons h, List.take_succ_cons]

/-- The rows of `levenshtein_distance` on lists, with the numbers of C. -/
def rows (cs : List UInt32) : List UInt32 → UInt32 → List UInt32 → UInt32 → List UInt32 × UInt32
  | [], _, vs, current => (vs, current)
  | a :: as, i, vs, _ =>
      let r := band a cs cs.length 0 vs i (i + 1)
      rows cs as (i + 1) r.1 r.2

theorem outerLoop_ok (h : Heap) (A : List Nat) (start LA LB : UInt32) (cs : List UInt32) (hc : cs.length = LB.toNat)
    (hA : start.toNat + LA.toNat ≤ A.length) (h32 : start.toNat + LA.toNat < 2 ^ 32) :
    ∀ (n : Nat) (i current : UInt32) (vs : List UInt32), LA.toNat - i.toNat = n → vs.length = LB.toNat →
      outerLoop A start h.length (h.length + 1) LA LB i current (mk h (cs.map some) (vs.map some)) =
        .ok (mk h (cs.map some) ((rows cs (((A.drop (start.toNat + i.toNat)).take n).map fun c => UInt32.ofNat (ushort c)) i vs current).1.map some),
          (rows cs (((A.drop (start.toNat + i.toNat)).take n).map fun c => UInt32.ofNat (ushort c)) i vs current).2) := by
  intro n
  induction n with
  | zero =>
      intro i current vs h0 hv
      have hn : ¬ i < LA := by rw [UInt32.lt_iff_toNat_lt]; omega
      rw [outerLoop, dif_neg hn]; simp [rows]
  | succ n ih =>
      intro i current vs h0 hv
      have hp : i < LA := by rw [UInt32.lt_iff_toNat_lt]; omega
      have h1 := add_one_toNat hp
      have hadd : (start + i).toNat = start.toNat + i.toNat := add_toNat (by omega)
      have hi : (start + i).toNat < A.length := by omega
      have hi' : start.toNat + i.toNat < A.length := by omega
      rw [outerLoop, dif_pos hp, charAt_ok hi]
      simp only
      rw [rowLoop_ok h _ cs LB (by omega) LB.toNat 0 i (i + 1) vs (by simp) (by omega)]
      simp only
      rw [ih (i + 1) _ _ (by omega) (by rw [band_length]; exact hv), drop_take_cons hi', h1]
      simp only [List.map_cons, rows, hc, hadd]
      rfl

theorem bandLoop_rowLoop (x : Nat) (codes : List Nat) (n : Nat) : ∀ (j : Nat) (vec : List Nat) (left current : Nat),
    j + n = codes.length → vec.length = codes.length →
      Levenshtein.bandLoop x codes n j vec left current =
        (vec.take j ++ (Levenshtein.rowLoop x (codes.drop j) (vec.drop j) left current).1,
          (Levenshtein.rowLoop x (codes.drop j) (vec.drop j) left current).2) := by
  induction n with
  | zero =>
      intro j vec left current hj hv
      have : codes.drop j = [] := by rw [List.drop_eq_nil_iff]; omega
      rw [this]
      have h2 : vec.take j = vec := by rw [List.take_of_length_le]; omega
      simp [Levenshtein.bandLoop, Levenshtein.rowLoop, h2]
  | succ n ih =>
      intro j vec left current hj hv
      have hjc : j < codes.length := by omega
      have hjv : j < vec.length := by omega
      rw [Levenshtein.bandLoop, ih _ _ _ _ (by omega) (by simpa using hv), List.drop_eq_getElem_cons hjc, List.drop_eq_getElem_cons hjv]
      simp only [Levenshtein.rowLoop]
      have e1 : vec.getD j 0 = vec[j] := by simp [hjv]
      have e2 : codes.getD j 0 = codes[j] := by simp [hjc]
      rw [e1, e2, List.drop_set_of_lt (by omega), List.take_set, List.take_succ_eq_append_getElem hjv]
      rw [List.set_append_right _ _ (by simp; omega)]
      simp [Nat.min_eq_left (Nat.le_of_lt hjv)]

theorem rows_toNat (cs : List UInt32) (L : Nat) (hc : cs.length = L) (hL : L < 2 ^ 32) (as : List UInt32) :
    ∀ (i : UInt32) (vs : List UInt32) (current : UInt32), vs.length = L → i.toNat + as.length ≤ L →
      (∀ k v, vs[k]? = some v → v.toNat ≤ max i.toNat (k + 1)) →
      ∀ as' : List Nat, as.map UInt32.toNat = as'.map ushort →
        (rows cs as i vs current).2.toNat =
          Levenshtein.outerLoop (cs.map UInt32.toNat) as' i.toNat (vs.map UInt32.toNat) current.toNat := by
  induction as with
  | nil =>
      intro i vs current hv hi hb as' has
      have : as' = [] := by simpa using has.symm
      subst this
      rfl
  | cons a as ih =>
      intro i vs current hv hi hb as' has
      obtain _ | ⟨a', as'⟩ := as'
      · simp at has
      · simp only [List.map_cons, List.cons.injEq] at has
        simp only [List.length_cons] at hi
        have h1 : (i + 1).toNat = i.toNat + 1 := by rw [UInt32.toNat_add]; simp; omega
        obtain ⟨e1, e2, e3⟩ := band_toNat a cs i.toNat L (by omega) hL cs.length 0 vs i (i + 1) hv hc (by omega) (by omega)
          (by intro k v hk; rw [if_neg (by omega)]; exact hb k v hk)
        rw [bandLoop_rowLoop _ _ _ _ _ _ _ (by simp) (by simp [hv, hc])] at e1 e2
        simp only [List.take_zero, List.nil_append, List.drop_zero] at e1 e2
        simp only [rows, Levenshtein.outerLoop]
        rw [ih (i + 1) _ _ (by rw [band_length]; exact hv) (by omega) (by rw [h1]; exact e3) as' has.2, e1, e2, h1, has.1]

/-- The rows of `limited_levenshtein_distance` on lists, with the numbers of C: the vector which is not given back, if any, and the value. -/
def limitedRows (cs : List UInt32) (LB max_distance upper_bound diff offset : UInt32) (have_max : Bool) :
    List UInt32 → UInt32 → UInt32 → UInt32 → List UInt32 → UInt32 → Option (List UInt32) × UInt32
  | [], _, _, _, _, current => (none, if current ≤ max_distance then current else upper_bound)
  | a :: as, i, j_start, j_end, vs, _ =>
      let j_start := j_start + if i > offset then 1 else 0
      let j_end := j_end + if j_end < LB then 1 else 0
      let r := band a cs (j_end.toNat - j_start.toNat) j_start.toNat vs i (i + 1)
      if have_max ∧ r.1.getD (i.toNat + diff.toNat) 0 > max_distance then (some r.1, upper_bound)
      else limitedRows cs LB max_distance upper_bound diff offset have_max as (i + 1) j_start j_end r.1 r.2

/-- The heap after `limitedRows`. -/
def after (h : Heap) (cs : List UInt32) : Option (List UInt32) → Heap
  | none => h ++ [none, none]
  | some vs => mk h (cs.map some) (vs.map some)

theorem j_end_step {j LB : UInt32} (h : j.toNat ≤ LB.toNat) :
    (j + if j < LB then 1 else 0).toNat = min (j.toNat + 1) LB.toNat := by
  by_cases hj : j < LB
  · rw [if_pos hj, add_one_toNat hj]
    have := UInt32.lt_iff_toNat_lt.mp hj
    omega
  · rw [if_neg hj]
    rw [UInt32.lt_iff_toNat_lt] at hj
    simp
    omega

theorem j_start_step {i j offset LA : UInt32} (hi : i < LA) (h : j.toNat ≤ i.toNat) :
    (j + if i > offset then 1 else 0).toNat = j.toNat + (if i.toNat > offset.toNat then 1 else 0) := by
  have h1 := UInt32.lt_iff_toNat_lt.mp hi
  have h2 := LA.toNat_lt
  have : (i > offset) ↔ i.toNat > offset.toNat := by rw [gt_iff_lt, UInt32.lt_iff_toNat_lt]
  by_cases hj : i > offset
  · rw [if_pos hj, if_pos (this.mp hj), UInt32.toNat_add]; simp; omega
  · rw [if_neg hj, if_neg (fun hh => hj (this.mpr hh))]; simp

theorem limitedLoop_ok (h : Heap) (A : List Nat) (start LA LB M ub diff offset : UInt32) (have_max : Bool) (cs : List UInt32)
    (hc : cs.length = LB.toNat) (hd : LA.toNat + diff.toNat = LB.toNat) (hA : start.toNat + LA.toNat ≤ A.length)
    (h32 : start.toNat + LA.toNat < 2 ^ 32) :
    ∀ (n : Nat) (i j_start j_end current : UInt32) (vs : List UInt32), LA.toNat - i.toNat = n → vs.length = LB.toNat →
      j_start.toNat ≤ i.toNat → j_end.toNat ≤ LB.toNat →
      limitedLoop A start h.length (h.length + 1) LA LB M ub diff offset have_max i j_start j_end current (mk h (cs.map some) (vs.map some)) =
        .ok (after h cs (limitedRows cs LB M ub diff offset have_max (((A.drop (start.toNat + i.toNat)).take n).map UInt32.ofNat)
            i j_start j_end vs current).1,
          (limitedRows cs LB M ub diff offset have_max (((A.drop (start.toNat + i.toNat)).take n).map UInt32.ofNat)
            i j_start j_end vs current).2) := by
  intro n
  induction n with
  | zero =>
      intro i j_start j_end current vs h0 hv hs he
      have hn : ¬ i < LA := by rw [UInt32.lt_iff_toNat_lt]; omega
      rw [limitedLoop, dif_neg hn, (free_both h _ _).1]
      simp only
      rw [(free_both h (cs.map some) _).2]
      simp [limitedRows, after]
  | succ n ih =>
      intro i j_start j_end current vs h0 hv hs he
      have hp : i < LA := by rw [UInt32.lt_iff_toNat_lt]; omega
      have h1 := add_one_toNat hp
      have hLB := LB.toNat_lt
      have hadd : (start + i).toNat = start.toNat + i.toNat := add_toNat (by omega)
      have hi : (start + i).toNat < A.length := by omega
      have hi' : start.toNat + i.toNat < A.length := by omega
      have hid : (i + diff).toNat = i.toNat + diff.toNat := add_toNat (by omega)
      have hje := j_end_step he
      have hjs := j_start_step (offset := offset) hp hs
      rw [limitedLoop, dif_pos hp, charAt_ok hi, drop_take_cons hi']
      simp only [List.map_cons, limitedRows]
      generalize hjs' : (j_start + if i > offset then 1 else 0) = js at hjs ⊢
      generalize hje' : (j_end + if j_end < LB then 1 else 0) = je at hje ⊢
      rw [rowLoop_ok h _ cs je (by omega) (je.toNat - js.toNat) js i (i + 1) vs rfl (by omega)]
      simp only [hadd]
      generalize hr : band (UInt32.ofNat A[start.toNat + i.toNat]) cs (je.toNat - js.toNat) js.toNat vs i (i + 1) = r
      have hrl : r.1.length = LB.toNat := by rw [← hr, band_length]; exact hv
      have hlt : i.toNat + diff.toNat < r.1.length := by omega
      cases have_max with
      | false =>
          simp only [Bool.false_eq_true, if_false, false_and]
          rw [ih (i + 1) js je r.2 r.1 (by omega) hrl (by split_ifs at hjs <;> omega) (by omega), h1]
          rfl
      | true =>
          simp only [if_true, true_and]
          rw [load_vector _ _ _ _ (r.1.getD (i.toNat + diff.toNat) 0) (by rw [hid]; simp [hlt])]
          simp only
          by_cases hg : r.1.getD (i.toNat + diff.toNat) 0 > M
          · rw [if_pos hg, if_pos hg]; rfl
          · rw [if_neg hg, if_neg hg, ih (i + 1) js je r.2 r.1 (by omega) hrl (by split_ifs at hjs <;> omega) (by omega), h1]
            rfl

theorem limitedRows_toNat (cs : List UInt32) (LB M ub diff offset : UInt32) (have_max : Bool) (hc : cs.length = LB.toNat) (as : List UInt32) :
    ∀ (i j_start j_end : UInt32) (vs : List UInt32) (current : UInt32), vs.length = LB.toNat →
      i.toNat + as.length + diff.toNat = LB.toNat → j_start.toNat ≤ i.toNat → j_end.toNat ≤ LB.toNat →
      (∀ k v, vs[k]? = some v → v.toNat ≤ max i.toNat (k + 1)) →
      (limitedRows cs LB M ub diff offset have_max as i j_start j_end vs current).2.toNat =
        Levenshtein.limitedLoop (cs.map UInt32.toNat) LB.toNat M.toNat ub.toNat diff.toNat offset.toNat have_max (as.map UInt32.toNat)
          i.toNat j_start.toNat j_end.toNat (vs.map UInt32.toNat) current.toNat := by
  induction as with
  | nil =>
      intro i j_start j_end vs current hv hi hs he hb
      simp only [limitedRows, Levenshtein.limitedLoop, List.map_nil, UInt32.le_iff_toNat_le]
      split_ifs <;> rfl
  | cons a as ih =>
      intro i j_start j_end vs current hv hi hs he hb
      simp only [List.length_cons] at hi
      have hLB := LB.toNat_lt
      have hp : i < LB := by rw [UInt32.lt_iff_toNat_lt]; omega
      have h1 := add_one_toNat hp
      have hje := j_end_step he
      have hjs := j_start_step (offset := offset) hp hs
      simp only [limitedRows, Levenshtein.limitedLoop, List.map_cons]
      have ejs : j_start.toNat + (if i.toNat > offset.toNat then 1 else 0) = (j_start + if i > offset then 1 else 0).toNat := hjs.symm
      have eje : j_end.toNat + (if j_end.toNat < LB.toNat then 1 else 0) = (j_end + if j_end < LB then 1 else 0).toNat := by
        rw [hje]; split_ifs <;> omega
      rw [ejs, eje]
      generalize (j_start + if i > offset then 1 else 0) = js at hjs ⊢
      generalize (j_end + if j_end < LB then 1 else 0) = je at hje ⊢
      have hjsi : js.toNat ≤ i.toNat + 1 := by split_ifs at hjs <;> omega
      obtain ⟨e1, e2, e3⟩ := band_toNat a cs i.toNat LB.toNat (by omega) hLB (je.toNat - js.toNat) js.toNat vs i (i + 1) hv hc (by omega)
        (by omega) (by intro k v hk; have := hb k v hk; split_ifs <;> omega)
      rw [h1] at e1 e2
      rw [← e1, ← e2]
      generalize hr : band a cs (je.toNat - js.toNat) js.toNat vs i (i + 1) = r at e3 ⊢
      have hrl : r.1.length = LB.toNat := by rw [← hr, band_length]; exact hv
      have hlt : i.toNat + diff.toNat < r.1.length := by omega
      have eg : (r.1.map UInt32.toNat).getD (i.toNat + diff.toNat) 0 = (r.1.getD (i.toNat + diff.toNat) 0).toNat := by simp [hlt]
      rw [eg]
      have hcond : (have_max = true ∧ r.1.getD (i.toNat + diff.toNat) 0 > M) ↔
          (have_max && decide ((r.1.getD (i.toNat + diff.toNat) 0).toNat > M.toNat)) = true := by
        rw [gt_iff_lt, UInt32.lt_iff_toNat_lt]; simp
      by_cases hg : have_max = true ∧ r.1.getD (i.toNat + diff.toNat) 0 > M
      · rw [if_pos hg, if_pos (hcond.mp hg)]
      · rw [if_neg hg, if_neg (fun hh => hg (hcond.mpr hh)), ih (i + 1) js je r.1 r.2 hrl (by omega) (by omega) (by omega)
          (by rw [h1]; exact e3), h1]

/-! ### What is not given back -/

theorem band_last (charA : UInt32) (cs : List UInt32) (n : Nat) : ∀ (j : Nat) (vs : List UInt32) (left current : UInt32),
    j + (n + 1) ≤ vs.length →
      (band charA cs (n + 1) j vs left current).2 = (band charA cs (n + 1) j vs left current).1.getD (j + n) 0 := by
  induction n with
  | zero => intro j vs left current h; simp [band, (by omega : j < vs.length)]
  | succ n ih =>
      intro j vs left current h
      rw [band, ih (j + 1) _ _ _ (by simp; omega), show j + 1 + n = j + (n + 1) by omega]

theorem limitedRows_some (cs : List UInt32) (LB M ub diff offset : UInt32) (have_max : Bool) (as : List UInt32) :
    ∀ (i j_start j_end : UInt32) (vs : List UInt32) (current : UInt32) (w : List UInt32),
      (limitedRows cs LB M ub diff offset have_max as i j_start j_end vs current).1 = some w →
        (limitedRows cs LB M ub diff offset have_max as i j_start j_end vs current).2 = ub ∧ w.length = vs.length ∧ have_max = true := by
  induction as with
  | nil => intro i js je vs current w h; simp [limitedRows] at h
  | cons a as ih =>
      intro i js je vs current w h
      simp only [limitedRows] at h ⊢
      generalize (js + if i > offset then 1 else 0) = js at h ⊢
      generalize (je + if je < LB then 1 else 0) = je at h ⊢
      split_ifs at h ⊢ with hg
      · simp only [Option.some.injEq] at h
        exact ⟨rfl, by rw [← h, band_length], hg.1⟩
      · have := ih _ _ _ _ _ _ h
        rw [band_length] at this
        exact this

theorem limitedRows_none (cs : List UInt32) (LB M ub diff offset : UInt32) (have_max : Bool) (hc : cs.length = LB.toNat)
    (hdM : diff.toNat ≤ M.toNat) (hM : have_max = true ∨ M.toNat = LB.toNat) (as : List UInt32) :
    ∀ (i j_start j_end : UInt32) (vs : List UInt32) (current : UInt32), vs.length = LB.toNat →
      i.toNat + as.length + diff.toNat = LB.toNat → j_start.toNat ≤ i.toNat - 1 → j_end.toNat = min (M.toNat + i.toNat) LB.toNat →
      (∀ k v, vs[k]? = some v → v.toNat ≤ max i.toNat (k + 1)) → (as = [] → current.toNat ≤ M.toNat) →
      (limitedRows cs LB M ub diff offset have_max as i j_start j_end vs current).1 = none →
        (limitedRows cs LB M ub diff offset have_max as i j_start j_end vs current).2.toNat ≤ M.toNat := by
  induction as with
  | nil =>
      intro i js je vs current hv hi hs he hb h0 h
      simp only [limitedRows]
      rw [if_pos (by rw [UInt32.le_iff_toNat_le]; exact h0 rfl)]
      exact h0 rfl
  | cons a as ih =>
      intro i j_start j_end vs current hv hi hs he hb h0 h
      simp only [List.length_cons] at hi
      have hLB := LB.toNat_lt
      have hp : i < LB := by rw [UInt32.lt_iff_toNat_lt]; omega
      have h1 := add_one_toNat hp
      have hje := j_end_step (by omega : j_end.toNat ≤ LB.toNat)
      have hjs := j_start_step (offset := offset) hp (by omega : j_start.toNat ≤ i.toNat)
      simp only [limitedRows] at h ⊢
      generalize (j_start + if i > offset then 1 else 0) = js at hjs h ⊢
      generalize (j_end + if j_end < LB then 1 else 0) = je at hje h ⊢
      have hjsi : js.toNat ≤ i.toNat := by split_ifs at hjs <;> omega
      obtain ⟨-, -, e3⟩ := band_toNat a cs i.toNat LB.toNat (by omega) hLB (je.toNat - js.toNat) js.toNat vs i (i + 1) hv hc (by omega)
        (by omega) (by intro k v hk; have := hb k v hk; split_ifs <;> omega)
      split_ifs at h ⊢ with hg
      refine ih (i + 1) js je _ _ (by rw [band_length]; exact hv) (by omega) (by omega) (by omega) (by rw [h1]; exact e3) ?_ h
      intro has
      subst has
      simp only [List.length_nil] at hi
      obtain ⟨n, hn⟩ : ∃ n, je.toNat - js.toNat = n + 1 := ⟨je.toNat - js.toNat - 1, by omega⟩
      have hlast := band_last a cs n js.toNat vs i (i + 1) (by omega)
      rw [hn] at hg e3 ⊢
      rw [hlast]
      have hix : js.toNat + n = i.toNat + diff.toNat := by omega
      rw [hix]
      rcases hM with hM | hM
      · have : ¬ (band a cs (n + 1) js.toNat vs i (i + 1)).1.getD (i.toNat + diff.toNat) 0 > M := fun hh => hg ⟨hM, hh⟩
        rw [gt_iff_lt, UInt32.lt_iff_toNat_lt] at this
        omega
      · have hlt : i.toNat + diff.toNat < (band a cs (n + 1) js.toNat vs i (i + 1)).1.length := by rw [band_length]; omega
        have := e3 (i.toNat + diff.toNat) _ (List.getElem?_eq_getElem hlt)
        rw [List.getD_eq_getElem?_getD, List.getElem?_eq_getElem hlt]
        simp only [Option.getD_some]
        omega

/-! ### The functions -/

theorem codes_ext (B : List Nat) (s n : Nat) (h : s + n ≤ B.length) (cs : List (Option UInt32)) (hl : cs.length = n)
    (hk : ∀ k < n, cs[k]? = some (some (UInt32.ofNat (ushort (B.getD (s + k) 0))))) :
    cs = (((B.drop s).take n).map fun c => UInt32.ofNat (ushort c)).map some := by
  apply List.ext_getElem?
  intro k
  by_cases hkn : k < n
  · rw [hk k hkn]
    simp [List.getElem?_take, hkn, List.getD_eq_getElem?_getD, (by omega : s + k < B.length)]
  · rw [List.getElem?_eq_none (by omega), List.getElem?_eq_none (by simp; omega)]

theorem vector_ext (n : Nat) (f : Nat → UInt32) (vs : List (Option UInt32)) (hl : vs.length = n)
    (hk : ∀ k < n, vs[k]? = some (some (f k))) : vs = ((List.range n).map f).map some := by
  apply List.ext_getElem?
  intro k
  by_cases hkn : k < n
  · rw [hk k hkn]; simp [hkn]
  · rw [List.getElem?_eq_none (by omega), List.getElem?_eq_none (by simp; omega)]

theorem ofNat_succ_toNat {k : Nat} (h : k + 1 < 2 ^ 32) : (UInt32.ofNat k + 1).toNat = k + 1 := by
  rw [UInt32.toNat_add, UInt32.toNat_ofNat']; simp; omega

theorem ofNat_ushort_toNat (c : Nat) : (UInt32.ofNat (ushort c)).toNat = ushort c := by
  rw [UInt32.toNat_ofNat']
  have : ushort c < 65536 := Nat.mod_lt _ (by decide)
  omega

theorem malloc_two (h : Heap) (n : UInt32) :
    (malloc (malloc h n).1 n).1 = mk h (List.replicate n.toNat none) (List.replicate n.toNat none) ∧ (malloc h n).2 = h.length ∧
      (malloc (malloc h n).1 n).2 = h.length + 1 := by
  simp [malloc, mk]

theorem levenshteinOrdered_ok (A B : List Nat) (LA LB : UInt32) (hA : LA.toNat ≤ A.length) (hB : LB.toNat ≤ B.length)
    (hle : LA.toNat ≤ LB.toNat) (h : Heap) :
    ∃ h' v, levenshteinOrdered A B LA LB h = .ok (h', v) ∧ (h' = h ∨ h' = h ++ [none, none]) ∧
      (LA.toNat = A.length → LB.toNat = B.length → v.toNat = Levenshtein.levenshteinOrdered A B) := by
  obtain ⟨LA₁, LB₁, e1, e2, e3, e4, e5⟩ := suffixLoop_ok A B _ LA LB rfl hA hB hle
  obtain ⟨start, s1, s2, s3⟩ := prefixLoop_ok A B LA₁ (by omega) (by omega) _ 0 rfl (by simp)
  have hLB := LB.toNat_lt
  have dA : (LA₁ - start).toNat = LA₁.toNat - start.toNat := UInt32.toNat_sub_of_le _ _ (by rw [UInt32.le_iff_toNat_le]; exact s3)
  have dB : (LB₁ - start).toNat = LB₁.toNat - start.toNat :=
    UInt32.toNat_sub_of_le _ _ (by rw [UInt32.le_iff_toNat_le]; omega)
  have hz : (LA₁ - start = 0) ↔ LA₁.toNat - start.toNat = 0 := by rw [← UInt32.toNat_inj, dA]; simp
  have ho : (LA₁ - start = 1) ↔ LA₁.toNat - start.toNat = 1 := by rw [← UInt32.toNat_inj, dA]; simp
  have em : LA.toNat = A.length → LB.toNat = B.length → Levenshtein.levenshteinOrdered A B =
      if LA₁.toNat - start.toNat = 0 then LB₁.toNat - start.toNat
      else if LA₁.toNat - start.toNat = 1 then
        if A[start.toNat]?.any (fun c => B.contains c) then LB₁.toNat - start.toNat - 1 else LB₁.toNat - start.toNat
      else Levenshtein.outerLoop (((B.drop start.toNat).take (LB₁.toNat - start.toNat)).map ushort)
        ((A.drop start.toNat).take (LA₁.toNat - start.toNat)) 0 ((List.range (LB₁.toNat - start.toNat)).map (· + 1)) 0 := by
    intro hA' hB'
    simp only [Levenshtein.levenshteinOrdered, ← hA', ← hB', ← e2]
    simp only [UInt32.toNat_zero] at s2
    rw [← s2]
  unfold levenshteinOrdered
  simp only [e1, s1, bind, Except.bind, pure, Except.pure]
  by_cases h0 : LA₁ - start = 0
  · rw [if_pos h0]
    refine ⟨h, _, rfl, Or.inl rfl, ?_⟩
    intro hA' hB'
    rw [em hA' hB', if_pos (hz.mp h0), dB]
  · rw [if_neg h0]
    by_cases hone : LA₁ - start = 1
    · have hs : start.toNat < A.length := by have := ho.mp hone; omega
      rw [if_pos hone, charAt_ok hs]
      refine ⟨h, _, rfl, Or.inl rfl, ?_⟩
      intro hA' hB'
      have := ho.mp hone
      have hpos : 0 < LB₁ - start := by rw [UInt32.lt_iff_toNat_lt, dB]; simp; omega
      rw [em hA' hB', if_neg (fun hh => h0 (hz.mpr hh)), if_pos this, List.getElem?_eq_getElem hs]
      simp only [Option.any_some]
      split_ifs
      · rw [toNat_sub_one hpos, dB]
      · exact dB
    · rw [if_neg hone]
      obtain ⟨m1, m2, m3⟩ := malloc_two h (LB₁ - start)
      rw [m1, m2, m3]
      obtain ⟨cs, vs, f1, f2, f3, f4, f5⟩ := fillLoop_ok B start (LB₁ - start) (fun i => i + 1) h (by omega) (by omega) _ 0
        (List.replicate (LB₁ - start).toNat none) (List.replicate (LB₁ - start).toNat none) rfl (by simp) (by simp)
      rw [f1]
      have ec := codes_ext B start.toNat (LB₁ - start).toNat (by omega) cs (by simpa using f2)
        (by intro k hk; rw [f4 k, if_pos (by simpa using hk)])
      have ev := vector_ext (LB₁ - start).toNat (fun k => UInt32.ofNat k + 1) vs (by simpa using f3)
        (by intro k hk; rw [f5 k, if_pos (by simpa using hk)])
      rw [ec, ev]
      simp only
      rw [outerLoop_ok h A start (LA₁ - start) (LB₁ - start) _ (by simp; omega) (by omega) (by omega) _ 0 0 _ rfl (by simp)]
      simp only
      rw [(free_both h _ _).1]
      simp only
      rw [(free_both h ((((B.drop start.toNat).take (LB₁ - start).toNat).map fun c => UInt32.ofNat (ushort c)).map some) _).2]
      refine ⟨_, _, rfl, Or.inr rfl, ?_⟩
      intro hA' hB'
      rw [em hA' hB', if_neg (fun hh => h0 (hz.mpr hh)), if_neg (fun hh => hone (ho.mpr hh))]
      simp only [UInt32.toNat_zero, Nat.sub_zero, Nat.add_zero]
      rw [rows_toNat _ (LB₁ - start).toNat (by simp; omega) (LB₁ - start).toNat_lt _ 0 _ 0 (by simp)
        (by simp; omega) (by
          intro k v hk
          simp only [List.getElem?_map, List.getElem?_range', Option.map_eq_some_iff] at hk
          obtain ⟨k', hk', rfl⟩ := hk
          have := List.getElem?_eq_some_iff.mp hk'
          obtain ⟨hl, he⟩ := this
          simp only [List.length_range, List.getElem_range] at hl he
          subst he
          rw [ofNat_succ_toNat (by omega)]
          omega) ((A.drop start.toNat).take (LA₁ - start).toNat) (by
          simp only [List.map_map]
          exact List.map_congr_left fun c _ => ofNat_ushort_toNat c)]
      rw [dA, dB]
      simp only [List.map_map, UInt32.toNat_zero]
      congr 1
      · exact List.map_congr_left fun c _ => ofNat_ushort_toNat c
      · apply List.map_congr_left
        intro k hk
        exact ofNat_succ_toNat (by have := List.mem_range.mp hk; omega)

theorem suffixLoop_diff (A B : List Nat) : ∀ (LA LB : Nat), LA ≤ LB →
    (Levenshtein.suffixLoop A B LA LB).2 - (Levenshtein.suffixLoop A B LA LB).1 = LB - LA := by
  intro LA
  induction LA with
  | zero => intro LB _; simp [Levenshtein.suffixLoop]
  | succ n ih =>
      intro LB hle
      have e : Levenshtein.suffixLoop A B (n + 1) LB =
          if A[n]? = B[LB - 1]? then Levenshtein.suffixLoop A B n (LB - 1) else (n + 1, LB) := rfl
      rw [e]
      split_ifs
      · rw [ih (LB - 1) (by omega)]; omega
      · rfl

theorem limitedTail_ok (max : UInt32) (A B : List Nat) (LA LB start M : UInt32) (h : Heap) (hA : start.toNat + LA.toNat ≤ A.length)
    (hB : start.toNat + LB.toNat ≤ B.length) (h32 : start.toNat + LB.toNat < 2 ^ 32) (hle : LA.toNat ≤ LB.toNat) (hpos : 0 < LA.toNat)
    (hdM : LB.toNat - LA.toNat ≤ M.toNat) (hMLB : M.toNat ≤ LB.toNat) (hMmax : M.toNat ≤ max.toNat)
    (hlt : M.toNat < LB.toNat → M.toNat = max.toNat) :
    ∃ h₁ h₂ h' v, fillLoop B start h.length (h.length + 1) M (fun i => i + 1) 0
        (mk h (List.replicate LB.toNat none) (List.replicate LB.toNat none)) = .ok h₁ ∧
      fillLoop B start h.length (h.length + 1) LB (fun _ => max + 1) M h₁ = .ok h₂ ∧
      limitedLoop A start h.length (h.length + 1) LA LB M (max + 1) (LB - LA) (M - (LB - LA)) (decide (M < LB)) 0 0 M 0 h₂ = .ok (h', v) ∧
      ((∀ c ∈ A, c < 2 ^ 32) → v.toNat = Levenshtein.limitedLoop (((B.drop start.toNat).take LB.toNat).map ushort) LB.toNat M.toNat
        ((max.toNat + 1) % 2 ^ 32) (LB.toNat - LA.toNat) (M.toNat - (LB.toNat - LA.toNat)) (decide (M.toNat < LB.toNat))
        ((A.drop start.toNat).take LA.toNat) 0 0 M.toNat
        ((List.range LB.toNat).map fun i => if i < M.toNat then i + 1 else (max.toNat + 1) % 2 ^ 32) 0) ∧
      ((h' = h ++ [none, none] ∧ v ≤ max) ∨
        ∃ cs vs : List (Option UInt32), h' = h ++ [some cs, some vs] ∧ max < v ∧ cs.length = LB.toNat ∧ vs.length = LB.toNat) := by
  have hub : (max + 1).toNat = (max.toNat + 1) % 2 ^ 32 := by rw [UInt32.toNat_add]; simp
  have dd : (LB - LA).toNat = LB.toNat - LA.toNat := UInt32.toNat_sub_of_le _ _ (by rw [UInt32.le_iff_toNat_le]; omega)
  have doff : (M - (LB - LA)).toNat = M.toNat - (LB.toNat - LA.toNat) := by
    rw [UInt32.toNat_sub_of_le _ _ (by rw [UInt32.le_iff_toNat_le]; omega)]; omega
  obtain ⟨cs, vs, f1, f2, f3, f4, f5⟩ := fillLoop_ok B start M (fun i => i + 1) h (by omega) (by omega) _ 0
    (List.replicate LB.toNat none) (List.replicate LB.toNat none) rfl (by simp; omega) (by simp; omega)
  simp only [List.length_replicate] at f2 f3
  obtain ⟨cs', vs', g1, g2, g3, g4, g5⟩ := fillLoop_ok B start LB (fun _ => max + 1) h (by omega) (by omega) _ M
    cs vs rfl (by omega) (by omega)
  have ec := codes_ext B start.toNat LB.toNat (by omega) cs' (by omega) (by
    intro k hk
    rw [g4 k, f4 k]
    simp only [UInt32.toNat_zero, Nat.zero_le, true_and]
    by_cases hkM : k < M.toNat
    · rw [if_neg (by omega), if_pos hkM]
    · rw [if_pos ⟨by omega, hk⟩])
  have ev := vector_ext LB.toNat (fun k => if k < M.toNat then UInt32.ofNat k + 1 else max + 1) vs' (by omega) (by
    intro k hk
    rw [g5 k, f5 k]
    simp only [UInt32.toNat_zero, Nat.zero_le, true_and]
    by_cases hkM : k < M.toNat
    · rw [if_neg (by omega), if_pos hkM, if_pos hkM]
    · rw [if_pos ⟨by omega, hk⟩, if_neg hkM])
  rw [ec, ev] at g1
  generalize hcs : (((B.drop start.toNat).take LB.toNat).map fun c => UInt32.ofNat (ushort c)) = codes at g1
  generalize hvs : ((List.range LB.toNat).map fun k => if k < M.toNat then UInt32.ofNat k + 1 else max + 1) = vec at g1
  have hcl : codes.length = LB.toNat := by rw [← hcs]; simp; omega
  have hvl : vec.length = LB.toNat := by rw [← hvs]; simp
  have hbound : ∀ k v, vec[k]? = some v → v.toNat ≤ Nat.max (0 : UInt32).toNat (k + 1) := by
    intro k v hk
    rw [← hvs] at hk
    obtain ⟨hl, he⟩ := List.getElem?_eq_some_iff.mp hk
    simp only [List.length_map, List.length_range, List.getElem_map, List.getElem_range] at hl he
    subst he
    have : k + 1 ≤ Nat.max (0 : UInt32).toNat (k + 1) := Nat.le_max_right _ _
    split_ifs with hkM
    · rw [ofNat_succ_toNat (by omega)]; exact this
    · rw [hub, Nat.mod_eq_of_lt (by omega)]; omega
  have L := limitedLoop_ok h A start LA LB M (max + 1) (LB - LA) (M - (LB - LA)) (decide (M < LB)) codes hcl (by omega) (by omega) (by omega)
    _ 0 0 M 0 vec rfl hvl (by simp) (by omega)
  simp only [UInt32.toNat_zero, Nat.sub_zero, Nat.add_zero] at L
  generalize has : ((A.drop start.toNat).take LA.toNat).map UInt32.ofNat = as at L
  have hal : as.length = LA.toNat := by rw [← has]; simp; omega
  have t1 := limitedRows_toNat codes LB M (max + 1) (LB - LA) (M - (LB - LA)) (decide (M < LB)) hcl as 0 0 M vec 0 hvl
    (by simp; omega) (by simp) (by omega) hbound
  have t2 := limitedRows_some codes LB M (max + 1) (LB - LA) (M - (LB - LA)) (decide (M < LB)) as 0 0 M vec 0
  have t3 := limitedRows_none codes LB M (max + 1) (LB - LA) (M - (LB - LA)) (decide (M < LB)) hcl (by omega)
    (by rw [decide_eq_true_iff, UInt32.lt_iff_toNat_lt]; omega) as 0 0 M vec 0 hvl
    (by simp; omega) (by simp) (by simp; omega) hbound (by intro _; simp)
  generalize limitedRows codes LB M (max + 1) (LB - LA) (M - (LB - LA)) (decide (M < LB)) as 0 0 M vec 0 = R at t1 t2 t3 L
  refine ⟨_, _, _, _, f1, g1, L, ?_, ?_⟩
  · intro hch
    rw [t1, hub, dd, doff, UInt32.toNat_zero]
    have x1 : codes.map UInt32.toNat = ((B.drop start.toNat).take LB.toNat).map ushort := by
      rw [← hcs, List.map_map]
      exact List.map_congr_left fun c _ => ofNat_ushort_toNat c
    have x2 : vec.map UInt32.toNat = (List.range LB.toNat).map fun i => if i < M.toNat then i + 1 else (max.toNat + 1) % 2 ^ 32 := by
      rw [← hvs, List.map_map]
      apply List.map_congr_left
      intro k hk
      simp only [Function.comp]
      split_ifs with hkM
      · exact ofNat_succ_toNat (by omega)
      · exact hub
    have x3 : as.map UInt32.toNat = (A.drop start.toNat).take LA.toNat := by
      rw [← has, List.map_map]
      refine Eq.trans (List.map_congr_left ?_) (List.map_id _)
      intro c hc
      simp only [Function.comp, UInt32.toNat_ofNat', id]
      exact Nat.mod_eq_of_lt (hch c (List.mem_of_mem_drop (List.mem_of_mem_take hc)))
    have x4 : decide (M < LB) = decide (M.toNat < LB.toNat) := decide_eq_decide.mpr UInt32.lt_iff_toNat_lt
    rw [x1, x2, x3, x4]
  · match hR : R.1 with
    | none =>
        left
        refine ⟨by simp [after], ?_⟩
        rw [UInt32.le_iff_toNat_le]
        have := t3 hR
        omega
    | some w =>
        right
        obtain ⟨r1, r2, r3⟩ := t2 w hR
        rw [decide_eq_true_iff, UInt32.lt_iff_toNat_lt] at r3
        refine ⟨codes.map some, w.map some, by simp [after, mk], ?_, by simpa using hcl, by simp [r2, hvl]⟩
        rw [r1, UInt32.lt_iff_toNat_lt, hub, Nat.mod_eq_of_lt (by omega)]
        omega

theorem limitedOrdered_ok (max : UInt32) (A B : List Nat) (LA LB : UInt32) (hA : LA.toNat ≤ A.length) (hB : LB.toNat ≤ B.length)
    (hle : LA.toNat ≤ LB.toNat) (h : Heap) :
    ∃ h' v, limitedOrdered max A B LA LB h = .ok (h', v) ∧
      (LA.toNat = A.length → LB.toNat = B.length → (∀ c ∈ A, c < 2 ^ 32) → v.toNat = Levenshtein.limitedOrdered max.toNat A B) ∧
      (((h' = h ∨ h' = h ++ [none, none]) ∧ (v ≤ max ∨ max.toNat < LB.toNat - LA.toNat)) ∨
        ∃ cs vs : List (Option UInt32), h' = h ++ [some cs, some vs] ∧ max < v ∧ LB.toNat - LA.toNat ≤ max.toNat ∧
          cs.length = vs.length ∧ (LA.toNat = A.length → LB.toNat = B.length →
            vs.length = (Levenshtein.suffixLoop A B A.length B.length).2 -
              Levenshtein.prefixLoop A B (Levenshtein.suffixLoop A B A.length B.length).1 0)) := by
  obtain ⟨LA₁, LB₁, e1, e2, e3, e4, e5⟩ := suffixLoop_ok A B _ LA LB rfl hA hB hle
  obtain ⟨start, s1, s2, s3⟩ := prefixLoop_ok A B LA₁ (by omega) (by omega) _ 0 rfl (by simp)
  have ediff : LB₁.toNat - LA₁.toNat = LB.toNat - LA.toNat := by
    have := suffixLoop_diff A B LA.toNat LB.toNat hle
    rw [← e2] at this
    exact this
  have hLB := LB.toNat_lt
  have dA : (LA₁ - start).toNat = LA₁.toNat - start.toNat := UInt32.toNat_sub_of_le _ _ (by rw [UInt32.le_iff_toNat_le]; exact s3)
  have dB : (LB₁ - start).toNat = LB₁.toNat - start.toNat :=
    UInt32.toNat_sub_of_le _ _ (by rw [UInt32.le_iff_toNat_le]; omega)
  have hub : (max + 1).toNat = (max.toNat + 1) % 2 ^ 32 := by rw [UInt32.toNat_add]; simp
  have small : ∀ L : UInt32, ∃ h' v, (Except.ok (h, if L > max then max + 1 else L) : Except Fault (Heap × UInt32)) = .ok (h', v) ∧
      v.toNat = (if L.toNat > max.toNat then (max.toNat + 1) % 2 ^ 32 else L.toNat) ∧ h' = h ∧
        (v ≤ max ∨ max.toNat < L.toNat) := by
    intro L
    refine ⟨h, _, rfl, ?_, rfl, ?_⟩
    · simp only [gt_iff_lt, UInt32.lt_iff_toNat_lt]
      split_ifs <;> simp [hub]
    · simp only [gt_iff_lt, UInt32.lt_iff_toNat_lt, UInt32.le_iff_toNat_le]
      split_ifs <;> omega
  have z0 : ∀ L : UInt32, L = 0 ↔ L.toNat = 0 := by intro L; rw [← UInt32.toNat_inj]; simp
  unfold limitedOrdered Levenshtein.limitedOrdered
  simp only [bind, Except.bind, pure, Except.pure]
  by_cases hz : LA = 0
  · rw [if_pos hz]
    obtain ⟨h', v, q1, q2, q3, q4⟩ := small LB
    have := (z0 _).mp hz
    refine ⟨h', v, q1, ?_, Or.inl ⟨Or.inl q3, q4.imp id fun _ => by omega⟩⟩
    intro hA' hB' _
    rw [if_pos (show A.length = 0 by omega), q2, hB']
  rw [if_neg hz]
  simp only [e1]
  have nz : ¬ LA.toNat = 0 := fun hh => hz ((z0 LA).mpr hh)
  by_cases hz₁ : LA₁ = 0
  · rw [if_pos hz₁]
    obtain ⟨h', v, q1, q2, q3, q4⟩ := small LB₁
    have := (z0 _).mp hz₁
    refine ⟨h', v, q1, ?_, Or.inl ⟨Or.inl q3, q4.imp id fun _ => by omega⟩⟩
    intro hA' hB' _
    rw [if_neg (show ¬ A.length = 0 by omega), ← hA', ← hB', ← e2]
    simp only
    rw [if_pos this, q2]
  rw [if_neg hz₁]
  simp only [s1]
  have nz₁ : ¬ LA₁.toNat = 0 := fun hh => hz₁ ((z0 LA₁).mpr hh)
  by_cases hz₂ : LA₁ - start = 0
  · rw [if_pos hz₂]
    obtain ⟨h', v, q1, q2, q3, q4⟩ := small (LB₁ - start)
    have := (z0 _).mp hz₂
    refine ⟨h', v, q1, ?_, Or.inl ⟨Or.inl q3, q4.imp id fun _ => by omega⟩⟩
    intro hA' hB' _
    rw [if_neg (show ¬ A.length = 0 by omega), ← hA', ← hB', ← e2]
    simp only [UInt32.toNat_zero] at s2 ⊢
    rw [if_neg nz₁, ← s2, if_pos (show LA₁.toNat - start.toNat = 0 by omega), q2, dB]
  rw [if_neg hz₂]
  have nz₂ : ¬ (LA₁ - start).toNat = 0 := fun hh => hz₂ ((z0 (LA₁ - start)).mpr hh)
  have dd : (LB₁ - start - (LA₁ - start)).toNat = LB₁.toNat - LA₁.toNat := by
    rw [UInt32.toNat_sub_of_le _ _ (by rw [UInt32.le_iff_toNat_le]; omega)]; omega
  have hcut : (¬ max > LB₁ - start ∧ LB₁ - start - (LA₁ - start) > max) ↔
      (max.toNat ≤ LB₁.toNat - start.toNat ∧ LB₁.toNat - LA₁.toNat > max.toNat) := by
    simp only [gt_iff_lt, UInt32.lt_iff_toNat_lt, dd, dB]; omega
  have enat : LA.toNat = A.length → LB.toNat = B.length → Levenshtein.suffixLoop A B A.length B.length = (LA₁.toNat, LB₁.toNat) ∧
      Levenshtein.prefixLoop A B LA₁.toNat 0 = start.toNat := by
    intro hA' hB'
    rw [← hA', ← hB', e2]
    exact ⟨rfl, s2.symm⟩
  by_cases hc : ¬ max > LB₁ - start ∧ LB₁ - start - (LA₁ - start) > max
  · rw [if_pos hc]
    have := hcut.mp hc
    refine ⟨h, _, rfl, ?_, Or.inl ⟨Or.inl rfl, Or.inr (by omega)⟩⟩
    intro hA' hB' _
    obtain ⟨n1, n2⟩ := enat hA' hB'
    rw [if_neg (show ¬ A.length = 0 by omega), n1]
    simp only
    rw [if_neg nz₁, n2, if_neg (show ¬ LA₁.toNat - start.toNat = 0 by omega),
      if_pos (show max.toNat ≤ LB₁.toNat - start.toNat ∧ LB₁.toNat - start.toNat - (LA₁.toNat - start.toNat) > max.toNat by omega), hub]
  rw [if_neg hc]
  have hcn : ¬ (max.toNat ≤ LB₁.toNat - start.toNat ∧ LB₁.toNat - LA₁.toNat > max.toNat) := fun hh => hc (hcut.mpr hh)
  have eM : (if max > LB₁ - start then LB₁ - start else max).toNat =
      if max.toNat > LB₁.toNat - start.toNat then LB₁.toNat - start.toNat else max.toNat := by
    simp only [gt_iff_lt, UInt32.lt_iff_toNat_lt, dB]
    split_ifs <;> simp [dB]
  generalize hMdef : (if max > LB₁ - start then LB₁ - start else max) = M at eM ⊢
  have hMle : M.toNat ≤ LB₁.toNat - start.toNat := by split_ifs at eM <;> omega
  have hMmax : M.toNat ≤ max.toNat := by split_ifs at eM <;> omega
  have hdM : LB₁.toNat - LA₁.toNat ≤ M.toNat := by split_ifs at eM <;> omega
  have hlt : M.toNat < LB₁.toNat - start.toNat → M.toNat = max.toNat := by split_ifs at eM <;> omega
  obtain ⟨m1, m2, m3⟩ := malloc_two h (LB₁ - start)
  rw [m1, m2, m3]
  obtain ⟨h₁, h₂, h', v, k1, k2, k3, k4, k5⟩ := limitedTail_ok max A B (LA₁ - start) (LB₁ - start) start M h (by omega) (by omega) (by omega)
    (by omega) (by omega) (by omega) (by omega) hMmax (by omega)
  rw [k1]
  simp only
  rw [k2]
  simp only
  rw [k3]
  refine ⟨h', v, rfl, ?_, ?_⟩
  · intro hA' hB' hch
    obtain ⟨n1, n2⟩ := enat hA' hB'
    rw [if_neg (show ¬ A.length = 0 by omega), n1]
    simp only
    rw [if_neg nz₁, n2, if_neg (show ¬ LA₁.toNat - start.toNat = 0 by omega),
      if_neg (show ¬ (max.toNat ≤ LB₁.toNat - start.toNat ∧ LB₁.toNat - start.toNat - (LA₁.toNat - start.toNat) > max.toNat) by omega),
      k4 hch, dA, dB, eM]
  · rcases k5 with ⟨k5, k6⟩ | ⟨cs, vs, k5, k6, k7, k8⟩
    · exact Or.inl ⟨Or.inr k5, Or.inl k6⟩
    · refine Or.inr ⟨cs, vs, k5, k6, by omega, by omega, ?_⟩
      intro hA' hB'
      obtain ⟨n1, n2⟩ := enat hA' hB'
      rw [n1]
      simp only
      rw [n2, k8, dB]

/-! ### Distance at most one -/

theorem drop_of_lt {l : List Nat} {i : Nat} (h : i < l.length) : l.drop i = l[i] :: l.drop (i + 1) := List.drop_eq_getElem_cons h

theorem additionLoop_ok (A B : List Nat) (LA : UInt32) (hA : LA.toNat = A.length) (hB : LA.toNat + 1 = B.length) (h32 : LA.toNat + 1 < 2 ^ 32) :
    ∀ (n : Nat) (i j : UInt32) (c : Bool), (LA.toNat - i.toNat) * 2 + (if c then 0 else 1) = n → i.toNat ≤ LA.toNat →
      j.toNat = i.toNat + (if c then 1 else 0) →
      additionLoop A B LA i j c = .ok (Levenshtein.additionLoop (A.drop i.toNat) (B.drop j.toNat) c) := by
  intro n
  induction n using Nat.strongRecOn with
  | _ n ih =>
      intro i j c h0 hi hj
      rw [additionLoop.eq_def]
      by_cases hlt : i < LA
      · have hl := UInt32.lt_iff_toNat_lt.mp hlt
        have h1 := add_one_toNat hlt
        have hjB : j.toNat < B.length := by split at hj <;> omega
        have hj1 : (j + 1).toNat = j.toNat + 1 := by rw [UInt32.toNat_add]; simp; omega
        rw [dif_pos hlt, charAt_ok (by omega), charAt_ok hjB, drop_of_lt (by omega), drop_of_lt hjB, Levenshtein.additionLoop]
        simp only
        split
        · rw [ih _ (by omega) (i + 1) (j + 1) c rfl (by omega) (by omega), h1, hj1]
        · cases c with
          | true => simp
          | false =>
              simp only [Bool.false_eq_true, if_false] at h0 hj ⊢
              rw [ih _ (by simp; omega) i (j + 1) true rfl hi (by simp; omega), hj1, ← drop_of_lt (by omega)]
      · have : A.drop i.toNat = [] := by
          rw [List.drop_eq_nil_iff]
          rw [UInt32.lt_iff_toNat_lt] at hlt
          omega
        rw [dif_neg hlt, this, Levenshtein.additionLoop]

theorem substitutionLoop_ok (A B : List Nat) (LA : UInt32) (hA : LA.toNat = A.length) (hB : LA.toNat = B.length) :
    ∀ (n : Nat) (i : UInt32) (c : Bool), LA.toNat - i.toNat = n →
      substitutionLoop A B LA i c = .ok (Levenshtein.substitutionLoop (A.drop i.toNat) (B.drop i.toNat) c) := by
  intro n
  induction n with
  | zero =>
      intro i c h0
      have hlt : ¬ i < LA := by rw [UInt32.lt_iff_toNat_lt]; omega
      have : A.drop i.toNat = [] := by rw [List.drop_eq_nil_iff]; omega
      rw [substitutionLoop, dif_neg hlt, this]; simp [Levenshtein.substitutionLoop]
  | succ n ih =>
      intro i c h0
      have hlt : i < LA := by rw [UInt32.lt_iff_toNat_lt]; omega
      have h1 := add_one_toNat hlt
      rw [substitutionLoop, dif_pos hlt, charAt_ok (by omega), charAt_ok (by omega), drop_of_lt (by omega : i.toNat < A.length),
        drop_of_lt (by omega : i.toNat < B.length)]
      simp only [Levenshtein.substitutionLoop]
      rw [ih (i + 1) true (by omega), ih (i + 1) c (by omega), h1]
      split
      · split <;> rfl
      · rfl

theorem transpositionLoop_ok (A B : List Nat) (LA : UInt32) (hA : LA.toNat = A.length) (hB : LA.toNat = B.length) :
    ∀ (n : Nat) (i : UInt32) (c : Bool), LA.toNat - i.toNat = n →
      transpositionLoop A B LA i c = .ok (Levenshtein.transpositionLoop (A.drop i.toNat) (B.drop i.toNat) c) := by
  intro n
  induction n using Nat.strongRecOn with
  | _ n ih =>
      intro i c h0
      rw [transpositionLoop]
      by_cases hlt : i < LA
      · have hl := UInt32.lt_iff_toNat_lt.mp hlt
        have h1 := add_one_toNat hlt
        rw [dif_pos hlt, charAt_ok (by omega), charAt_ok (by omega), drop_of_lt (by omega : i.toNat < A.length),
          drop_of_lt (by omega : i.toNat < B.length)]
        simp only
        rw [ih _ (by omega) (i + 1) true rfl, ih _ (by omega) (i + 1) c rfl, h1]
        by_cases hlt2 : i + 1 < LA
        · have hl2 := UInt32.lt_iff_toNat_lt.mp hlt2
          have h2 := add_one_toNat hlt2
          have e : i + 2 = i + 1 + 1 := by rw [UInt32.add_assoc]; rfl
          rw [dif_pos hlt2, charAt_ok (by omega), charAt_ok (by omega)]
          simp only [h1]
          rw [drop_of_lt (by omega : i.toNat + 1 < A.length), drop_of_lt (by omega : i.toNat + 1 < B.length), Levenshtein.transpositionLoop]
          have e2 : (i + 2).toNat = i.toNat + 1 + 1 := by rw [e, h2, h1]
          have ih2 := ih _ (by omega) (i + 2) true rfl
          rw [e2] at ih2
          rw [ih2]
          split
          · split
            · rfl
            · split
              · split
                · rw [if_pos (by constructor <;> assumption)]
                · rw [if_neg (by rintro ⟨_, _⟩; contradiction)]
              · rw [if_neg (by rintro ⟨_, _⟩; contradiction)]
          · rfl
        · have : ¬ i.toNat + 1 < A.length := by
            rw [UInt32.lt_iff_toNat_lt] at hlt2; omega
          have ea : A.drop (i.toNat + 1) = [] := by rw [List.drop_eq_nil_iff]; omega
          have eb : B.drop (i.toNat + 1) = [] := by rw [List.drop_eq_nil_iff]; omega
          rw [dif_neg hlt2, ea, eb]
          simp only [Levenshtein.transpositionLoop]
          cases c <;> split <;> simp
      · have : A.drop i.toNat = [] := by
          rw [List.drop_eq_nil_iff]
          rw [UInt32.lt_iff_toNat_lt] at hlt
          omega
        rw [dif_neg hlt, this]; simp [Levenshtein.transpositionLoop]

theorem lte1Ordered_ok (f : List Nat → List Nat → UInt32 → UInt32 → Bool → Except Fault Bool) (g : List Nat → List Nat → Bool → Bool)
    (A B : List Nat) (LA LB : UInt32) (hA : LA.toNat = A.length) (hB : LB.toNat = B.length) (hle : LA.toNat ≤ LB.toNat)
    (hfg : A.length = B.length → f A B LA 0 false = .ok (g A B false)) :
    lte1Ordered f A B LA LB = .ok (Levenshtein.lte1Ordered g A B) := by
  have hLB := LB.toNat_lt
  have dd : (LB - LA).toNat = LB.toNat - LA.toNat := UInt32.toNat_sub_of_le _ _ (by rw [UInt32.le_iff_toNat_le]; omega)
  have z : LA = 0 ↔ A.length = 0 := by rw [← UInt32.toNat_inj, hA]; simp
  have o : LB = 1 ↔ B.length = 1 := by rw [← UInt32.toNat_inj, hB]; simp
  have g1 : LB - LA > 1 ↔ B.length - A.length > 1 := by rw [gt_iff_lt, UInt32.lt_iff_toNat_lt, dd, hA, hB]; simp
  have g2 : LB - LA = 1 ↔ B.length - A.length = 1 := by rw [← UInt32.toNat_inj, dd, hA, hB]; simp
  unfold lte1Ordered Levenshtein.lte1Ordered
  simp only [z, o, g1, g2]
  split
  · rfl
  split
  · rfl
  split
  · rw [additionLoop_ok A B LA hA (by omega) (by omega) _ 0 0 false rfl (by simp) (by simp)]; simp
  · exact hfg (by omega)

end Fog.LevenshteinMemory
