import Verif.Model.SuperMinhash
import Verif.Spec.SuperMinhash
import Mathlib.Tactic.Linarith
import Mathlib.Tactic.Positivity
import Mathlib.Data.List.Perm.Basic

/-!
# Lemmas for SuperMinHash
-/

namespace Fog.SuperMinhash

open Fog.Spec

theorem item_eq {β : Type} {l : List β} {i : Nat} {x : β} (h : l[i]? = some x) : item l i = .ok x := by
  unfold item; rw [h]

theorem exists_item {β : Type} {l : List β} {i : Nat} (h : i < l.length) : ∃ x, l[i]? = some x :=
  ⟨l[i], List.getElem?_eq_getElem h⟩

/-! ### The shuffle -/

theorem length_swapAt (l : List Nat) (i j : Nat) : (swapAt l i j).length = l.length := by simp [swapAt]

theorem length_fisherYates (k : Nat → Nat) (m n : Nat) : (fisherYates k m n).length = m := by
  induction n with
  | zero => simp [fisherYates]
  | succ n ih => rw [fisherYates, length_swapAt, ih]

theorem getElem?_swapAt {l : List Nat} {i j : Nat} (hi : i < l.length) (hj : j < l.length) (x : Nat) :
    (swapAt l i j)[x]? = if x = j then l[i]? else if x = i then l[j]? else l[x]? := by
  unfold swapAt
  rw [List.getElem?_set, List.getElem?_set]
  simp only [List.length_set]
  by_cases h1 : x = j
  · subst h1
    simp [hj, hi]
  · by_cases h2 : x = i
    · subst h2
      simp [h1, Ne.symm h1, hi, hj]
    · simp [h1, h2, Ne.symm h1, Ne.symm h2]

theorem swapAt_perm {l : List Nat} {i j : Nat} (hi : i < l.length) (hj : j < l.length) : (swapAt l i j).Perm l := by
  rw [List.perm_iff_count]
  intro a
  unfold swapAt
  rw [List.count_set (by simpa using hj), List.count_set hi, List.getElem_set]
  simp only [List.getD_eq_getElem?_getD, List.getElem?_eq_getElem hi, List.getElem?_eq_getElem hj, Option.getD_some]
  have h1 : l[i] ∈ l := List.getElem_mem hi
  have h2 : l[j] ∈ l := List.getElem_mem hj
  by_cases hij : i = j
  · subst hij
    simp only [beq_iff_eq, if_true]
    by_cases h : l[i] = a
    · have : 0 < l.count a := List.count_pos_iff.mpr (h ▸ h1)
      simp [h]; omega
    · simp [h]
  · simp only [hij, if_false, beq_iff_eq]
    by_cases ha : l[i] = a
    · have : 0 < l.count a := List.count_pos_iff.mpr (ha ▸ h1)
      by_cases hb : l[j] = a
      · simp [ha, hb]; omega
      · simp [ha, hb]; omega
    · by_cases hb : l[j] = a
      · simp [ha, hb]
      · simp [ha, hb]

theorem fisherYates_perm {k : Nat → Nat} {m : Nat} (hk : ∀ j < m, k j < m) (n : Nat) (hn : n ≤ m) :
    (fisherYates k m n).Perm (List.range m) := by
  induction n with
  | zero => exact List.Perm.refl _
  | succ n ih =>
      rw [fisherYates]
      refine (swapAt_perm ?_ ?_).trans (ih (by omega))
      · rw [length_fisherYates]; omega
      · rw [length_fisherYates]; exact hk n (by omega)

/-- What is drawn is not changed by later turns. -/
theorem fisherYates_stable {k : Nat → Nat} {m : Nat} (hk : ∀ j < m, k j < m) (hk' : ∀ j, j ≤ k j) {j : Nat} (d : Nat) (hd : j + 1 + d ≤ m) :
    (fisherYates k m (j + 1 + d))[j]? = (fisherYates k m (j + 1))[j]? := by
  induction d with
  | zero => rfl
  | succ d ih =>
      rw [← ih (by omega), ← Nat.add_assoc, fisherYates, getElem?_swapAt]
      · have := hk' (j + 1 + d)
        rw [if_neg (by omega), if_neg (by omega)]
      · rw [length_fisherYates]; omega
      · rw [length_fisherYates]; exact hk _ (by omega)

theorem fisherYates_final {k : Nat → Nat} {m : Nat} (hk : ∀ j < m, k j < m) (hk' : ∀ j, j ≤ k j) {j : Nat} (hj : j < m) :
    (fisherYates k m m)[j]? = (fisherYates k m (j + 1))[j]? := by
  have := fisherYates_stable hk hk' (j := j) (m - (j + 1)) (by omega)
  rwa [show j + 1 + (m - (j + 1)) = m by omega] at this

theorem le_drawn (r : Nat → ℚ) (m j : Nat) : j ≤ drawn r m j := Nat.le_add_right _ _

theorem drawn_lt {r : Nat → ℚ} (h0 : ∀ j, 0 ≤ r j) (h1 : ∀ j, r j < 1) {m j : Nat} (hj : j < m) : drawn r m j < m := by
  unfold drawn
  have hd : (0 : ℚ) < (m : ℚ) - j := by
    have : (j : ℚ) < m := by exact_mod_cast hj
    linarith
  have h2 : r j * ((m : ℚ) - j) < (m : ℚ) - j := by nlinarith [h1 j]
  have h3 : ⌊r j * ((m : ℚ) - j)⌋ < ((m - j : Nat) : Int) := by
    rw [Int.floor_lt]
    push_cast [Nat.cast_sub hj.le]
    exact h2
  have h4 : 0 ≤ ⌊r j * ((m : ℚ) - j)⌋ := Int.floor_nonneg.mpr (mul_nonneg (h0 j) hd.le)
  omega

/-! ### The histogram -/

/-- The place of a value in `b`. -/
def level (m : Nat) (v : ℚ) : Nat := min ⌊v⌋.toNat (m - 1)

/-- What holds between turns. -/
structure Base (m : Nat) (s : State) : Prop where
  hl : s.h.length = m
  pl : s.p.length = m
  ql : s.q.length = m
  bl : s.b.length = m
  nonneg : ∀ v ∈ s.h, 0 ≤ v
  hist : ∀ x < m, s.b[x]? = some (((s.h.map (level m)).count x : Nat) : Int)
  top : ∀ v ∈ s.h, level m v ≤ s.a
  lt : s.a < m

theorem settle_spec (b : List Int) : ∀ a, a < b.length → (∃ x, x ≤ a ∧ ∃ y, b[x]? = some y ∧ y ≠ 0) →
    ∃ a', settle b a = .ok a' ∧ a' ≤ a ∧ ∀ x, x ≤ a → (∃ y, b[x]? = some y ∧ y ≠ 0) → x ≤ a' := by
  intro a
  induction a with
  | zero =>
      rintro h0 ⟨x, hx, y, hy, hne⟩
      obtain rfl : x = 0 := by omega
      refine ⟨0, ?_, Nat.le_refl _, fun x hx _ => hx⟩
      simp [settle, item_eq hy, hne, bind, Except.bind, pure, Except.pure]
  | succ a ih =>
      rintro h0 ⟨x, hx, y, hy, hne⟩
      obtain ⟨z, hz⟩ := exists_item h0
      by_cases h : z = 0
      · have hxa : x ≤ a := by
          rcases Nat.lt_or_ge x (a + 1) with h1 | h1
          · omega
          · obtain rfl : x = a + 1 := by omega
            rw [hz] at hy
            cases hy
            exact absurd h hne
        obtain ⟨a', h1, h2, h3⟩ := ih (by omega) ⟨x, hxa, y, hy, hne⟩
        refine ⟨a', ?_, by omega, ?_⟩
        · simp [settle, item_eq hz, h, bind, Except.bind, h1]
        · rintro x' hx' ⟨y', hy', hne'⟩
          rcases Nat.lt_or_ge x' (a + 1) with h4 | h4
          · exact h3 x' (by omega) ⟨y', hy', hne'⟩
          · obtain rfl : x' = a + 1 := by omega
            rw [hz] at hy'
            cases hy'
            exact absurd h hne'
      · refine ⟨a + 1, ?_, Nat.le_refl _, fun x hx _ => hx⟩
        simp [settle, item_eq hz, h, bind, Except.bind, pure, Except.pure]

theorem level_lt {m : Nat} (hm : 0 < m) (v : ℚ) : level m v < m := by unfold level; omega

theorem level_add {m j : Nat} (hj : j < m) {r : ℚ} (h0 : 0 ≤ r) (h1 : r < 1) : level m (r + j) = j := by
  have : ⌊r + (j : ℚ)⌋ = (j : Int) := by
    rw [Int.floor_eq_iff]
    push_cast
    constructor <;> linarith
  unfold level
  rw [this]
  simp
  omega

theorem level_ge {m j : Nat} (hj : j < m) {r v : ℚ} (h0 : 0 ≤ r) (h : r + j < v) : j ≤ level m v := by
  have : (j : Int) ≤ ⌊v⌋ := by
    rw [Int.le_floor]
    push_cast
    linarith
  unfold level
  omega

theorem improve_spec {m j pos : Nat} {r : ℚ} {s : State} (hb : Base m s) (hj : j < m) (hpos : pos < m) (h0 : 0 ≤ r) (h1 : r < 1) :
    ∃ s' v, improve m j pos r s = .ok s' ∧ Base m s' ∧ s'.p = s.p ∧ s'.q = s.q ∧ s.h[pos]? = some v ∧
      s'.h[pos]? = some (min v (r + j)) ∧ ∀ x, x ≠ pos → s'.h[x]? = s.h[x]? := by
  have hlen : pos < s.h.length := by rw [hb.hl]; exact hpos
  obtain ⟨v, hv⟩ := exists_item hlen
  have hgv : s.h[pos] = v := by rw [List.getElem?_eq_getElem hlen] at hv; exact Option.some.inj hv
  have hvm : v ∈ s.h := hgv ▸ List.getElem_mem hlen
  unfold improve
  rw [item_eq hv]
  simp only [bind, Except.bind]
  by_cases hlt : r + j < v
  · rw [if_pos hlt]
    have hget : ∀ x, (s.h.set pos (r + j))[x]? = if pos = x then some (r + (j : ℚ)) else s.h[x]? := by
      intro x
      rw [List.getElem?_set]
      by_cases h : pos = x
      · simp [h]; rw [← h]; exact hlen
      · simp [h]
    have hmin : min v (r + j) = r + j := min_eq_right hlt.le
    have hnn : ∀ w ∈ s.h.set pos (r + j), 0 ≤ w := by
      intro w hw
      rcases List.mem_or_eq_of_mem_set hw with h | rfl
      · exact hb.nonneg w h
      · have : (0 : ℚ) ≤ j := Nat.cast_nonneg j
        linarith
    have hlv := level_ge hj h0 hlt
    have hcount : ∀ x, ((s.h.set pos (r + j)).map (level m)).count x =
        ((s.h.map (level m)).count x - if level m v = x then 1 else 0) + if j = x then 1 else 0 := by
      intro x
      rw [List.map_set, List.count_set (by simpa using hlen)]
      simp [hgv, level_add hj h0 h1]
    have hpos1 : 0 < (s.h.map (level m)).count (level m v) := List.count_pos_iff.mpr (List.mem_map_of_mem hvm)
    by_cases hj2 : j < min ⌊v⌋.toNat (m - 1)
    · rw [if_pos hj2]
      have hj2' : j < level m v := hj2
      have hlm := level_lt (m := m) (by omega) v
      have hx1 := hb.hist (level m v) hlm
      have hy1 := hb.hist j hj
      have e1 : s.b[min ⌊v⌋.toNat (m - 1)]? = some (((s.h.map (level m)).count (level m v) : Nat) : Int) := hx1
      rw [item_eq e1]
      simp only
      have e2 : (s.b.set (min ⌊v⌋.toNat (m - 1)) ((((s.h.map (level m)).count (level m v) : Nat) : Int) - 1))[j]? =
          some (((s.h.map (level m)).count j : Nat) : Int) := by
        rw [List.getElem?_set_ne (by omega)]
        exact hy1
      rw [item_eq e2]
      simp only
      generalize hB : (s.b.set (min ⌊v⌋.toNat (m - 1)) ((((s.h.map (level m)).count (level m v) : Nat) : Int) - 1)).set j
        ((((s.h.map (level m)).count j : Nat) : Int) + 1) = B
      have hBl : B.length = m := by rw [← hB]; simp [hb.bl]
      have hBx : ∀ x < m, B[x]? = some (((((s.h.set pos (r + j)).map (level m)).count x : Nat)) : Int) := by
        intro x hx
        rw [hcount, ← hB, List.getElem?_set, List.getElem?_set]
        change (if j = x then _ else if level m v = x then _ else _) = _
        simp only [List.length_set, hb.bl]
        by_cases c1 : j = x
        · subst c1
          rw [if_pos rfl, if_pos hj, if_neg (by omega), if_pos rfl]
          simp
        · by_cases c2 : level m v = x
          · subst c2
            rw [if_neg c1, if_pos rfl, if_pos (show min ⌊v⌋.toNat (m - 1) < m from hlm), if_pos rfl, if_neg c1]
            congr 1
            omega
          · rw [if_neg c1, if_neg c2, if_neg c1, if_neg c2, hb.hist x hx]
            simp
      have hlevels : ∀ w ∈ s.h.set pos (r + j), level m w ≤ s.a := by
        intro w hw
        rcases List.mem_or_eq_of_mem_set hw with h | rfl
        · exact hb.top w h
        · rw [level_add hj h0 h1]
          have := hb.top v hvm
          omega
      have hne : ∀ w ∈ s.h.set pos (r + j), ∃ y, B[level m w]? = some y ∧ y ≠ 0 := by
        intro w hw
        refine ⟨_, hBx _ (level_lt (by omega) w), ?_⟩
        have : 0 < ((s.h.set pos (r + j)).map (level m)).count (level m w) := List.count_pos_iff.mpr (List.mem_map_of_mem hw)
        omega
      have hin : r + (j : ℚ) ∈ s.h.set pos (r + j) := List.mem_of_getElem? (i := pos) (by rw [hget]; simp)
      obtain ⟨a', g1, g2, g3⟩ := settle_spec B s.a (by rw [hBl]; exact hb.lt) ⟨_, hlevels _ hin, hne _ hin⟩
      simp only [g1]
      refine ⟨_, v, rfl, ⟨?_, hb.pl, hb.ql, hBl, hnn, hBx, ?_, ?_⟩, rfl, rfl, hv, ?_, ?_⟩
      · simp [hb.hl]
      · intro w hw
        exact g3 _ (hlevels w hw) (hne w hw)
      · exact Nat.lt_of_le_of_lt g2 hb.lt
      · simp only [hget, if_true]; rw [hmin]
      · intro x hx
        simp only [hget]; rw [if_neg (Ne.symm hx)]
    · rw [if_neg hj2]
      have hj2' : ¬ j < level m v := hj2
      have hlj : level m v = j := by omega
      refine ⟨_, v, rfl, ⟨?_, hb.pl, hb.ql, hb.bl, hnn, ?_, ?_, hb.lt⟩, rfl, rfl, hv, ?_, ?_⟩
      · simp [hb.hl]
      · intro x hx
        simp only
        rw [hcount, hlj, hb.hist x hx]
        by_cases c : j = x
        · subst c
          rw [hlj] at hpos1
          simp
          omega
        · simp [c]
      · intro w hw
        simp only at hw ⊢
        rcases List.mem_or_eq_of_mem_set hw with h | rfl
        · exact hb.top w h
        · rw [level_add hj h0 h1]
          have := hb.top v hvm
          omega
      · simp only [hget, if_true]; rw [hmin]
      · intro x hx
        simp only [hget]; rw [if_neg (Ne.symm hx)]
  · rw [if_neg hlt]
    refine ⟨s, v, rfl, hb, rfl, rfl, hv, ?_, fun _ _ => rfl⟩
    rw [hv, min_eq_left (not_lt.mp hlt)]

/-! ### The lazy permutation -/

/-- What `p` stands for when the token is the one at index `i`. -/
def virtual (i : Nat) (s : State) (x : Nat) : Option Nat := if s.q[x]? = some (i : Int) then s.p[x]? else some x

theorem refresh_spec {m i j : Nat} {s : State} (hb : Base m s) (hj : j < m) :
    ∃ s', refresh i j s = .ok s' ∧ Base m s' ∧ s'.h = s.h ∧ s'.a = s.a ∧ (∀ x < m, virtual i s' x = virtual i s x) ∧
      s'.q[j]? = some (i : Int) ∧ (∀ x : Nat, s.q[x]? = some (i : Int) → s'.q[x]? = some (i : Int)) ∧
      (∀ y ∈ s'.q, y ∈ s.q ∨ y = (i : Int)) := by
  have hjq : j < s.q.length := by rw [hb.ql]; exact hj
  have hjp : j < s.p.length := by rw [hb.pl]; exact hj
  obtain ⟨z, hz⟩ := exists_item hjq
  unfold refresh
  rw [item_eq hz]
  simp only [bind, Except.bind]
  by_cases h : z = (i : Int)
  · rw [if_neg (by simpa using h)]
    exact ⟨s, rfl, hb, rfl, rfl, fun _ _ => rfl, by rw [hz, h], fun _ hx => hx, fun y hy => .inl hy⟩
  · rw [if_pos h]
    refine ⟨_, rfl, ⟨hb.hl, by simp [hb.pl], by simp [hb.ql], hb.bl, hb.nonneg, hb.hist, hb.top, hb.lt⟩, rfl, rfl, ?_, ?_, ?_, ?_⟩
    · intro x hx
      unfold virtual
      simp only
      rw [List.getElem?_set, List.getElem?_set]
      by_cases c : j = x
      · subst c
        rw [if_pos rfl, if_pos hjq, if_pos rfl, if_pos rfl, if_pos hjp, hz, if_neg (by simpa using h)]
      · rw [if_neg c, if_neg c]
    · simp [hjq]
    · intro x hx
      simp only
      rw [List.getElem?_set]
      by_cases c : j = x
      · subst c; simp [hjq]
      · rw [if_neg c]; exact hx
    · intro y hy
      exact List.mem_or_eq_of_mem_set hy

theorem turn_spec {m i j : Nat} {r : Nat → ℚ} {s : State} {P : List Nat} (hb : Base m s) (hj : j < m) (h0 : ∀ j, 0 ≤ r j) (h1 : ∀ j, r j < 1)
    (hP : P.length = m) (hPm : ∀ y ∈ P, y < m) (hv : ∀ x < m, virtual i s x = P[x]?) :
    ∃ s' pos v, turn m i j (r j) s = .ok s' ∧ Base m s' ∧ (∀ x < m, virtual i s' x = (swapAt P j (drawn r m j))[x]?) ∧
      (swapAt P j (drawn r m j))[j]? = some pos ∧ s.h[pos]? = some v ∧ s'.h[pos]? = some (min v (r j + j)) ∧
      (∀ x, x ≠ pos → s'.h[x]? = s.h[x]?) ∧ (∀ y ∈ s'.q, y ∈ s.q ∨ y = (i : Int)) := by
  have hk : drawn r m j < m := drawn_lt h0 h1 hj
  unfold turn
  change ∃ s' pos v, (do
    let s ← refresh i j s
    let s ← refresh i (drawn r m j) s
    let tmp ← item s.p j
    let x ← item s.p (drawn r m j)
    let s := { s with p := (s.p.set j x).set (drawn r m j) tmp }
    let pos ← item s.p j
    improve m j pos (r j) s) = .ok s' ∧ _
  generalize drawn r m j = k at hk ⊢
  obtain ⟨s1, e1, b1, hh1, ha1, v1, q1, k1, m1⟩ := refresh_spec (i := i) hb hj
  obtain ⟨s2, e2, b2, hh2, ha2, v2, q2, k2, m2⟩ := refresh_spec (i := i) b1 hk
  have qj : s2.q[j]? = some (i : Int) := k2 j q1
  have hvir : ∀ x < m, virtual i s2 x = P[x]? := fun x hx => by rw [v2 x hx, v1 x hx, hv x hx]
  have pj : s2.p[j]? = P[j]? := by
    have := hvir j hj
    unfold virtual at this
    rwa [if_pos qj] at this
  have pk : s2.p[k]? = P[k]? := by
    have := hvir k hk
    unfold virtual at this
    rwa [if_pos q2] at this
  obtain ⟨tmp, htmp⟩ := exists_item (l := P) (i := j) (by omega)
  obtain ⟨x, hx⟩ := exists_item (l := P) (i := k) (by omega)
  rw [htmp] at pj
  rw [hx] at pk
  simp only [e1, e2, bind, Except.bind, item_eq pj, item_eq pk]
  have hsw := getElem?_swapAt (l := P) (i := j) (j := k) (by omega) (by omega)
  have hnew : ∀ y, ((s2.p.set j x).set k tmp)[y]? = if y = k then some tmp else if y = j then some x else s2.p[y]? := by
    intro y
    rw [List.getElem?_set, List.getElem?_set]
    simp only [List.length_set, b2.pl]
    by_cases c1 : y = k
    · subst c1; simp [hk]
    · by_cases c2 : y = j
      · subst c2; simp [c1, Ne.symm c1, hj]
      · simp [c1, c2, Ne.symm c1, Ne.symm c2]
  have hpos : ((s2.p.set j x).set k tmp)[j]? = some x := by
    rw [hnew]
    by_cases c : j = k
    · subst c
      rw [if_pos rfl]
      rw [htmp] at hx
      exact hx
    · rw [if_neg c, if_pos rfl]
  rw [item_eq hpos]
  simp only
  have b3 : Base m { s2 with p := (s2.p.set j x).set k tmp } :=
    ⟨b2.hl, by simp [b2.pl], b2.ql, b2.bl, b2.nonneg, b2.hist, b2.top, b2.lt⟩
  have hxm : x < m := hPm x (List.mem_of_getElem? hx)
  obtain ⟨s4, v, e4, b4, p4, q4, g1, g2, g3⟩ := improve_spec b3 hj hxm (h0 j) (h1 j)
  refine ⟨s4, x, v, e4, b4, ?_, ?_, ?_, g2, ?_, ?_⟩
  · intro y hy
    unfold virtual
    rw [q4, p4]
    simp only
    rw [hnew, hsw]
    by_cases c1 : y = k
    · subst c1
      rw [if_pos rfl, if_pos rfl, if_pos q2, htmp]
    · by_cases c2 : y = j
      · subst c2
        rw [if_pos qj, if_neg c1, if_neg c1, if_pos rfl, if_pos rfl, hx]
      · rw [if_neg c1, if_neg c1, if_neg c2, if_neg c2]
        exact hvir y hy
  · rw [hsw]
    by_cases c : j = k
    · subst c
      rw [if_pos rfl]; exact hx
    · rw [if_neg c, if_pos rfl]; exact hx
  · simpa [hh1, hh2] using g1
  · intro y hy
    have := g3 y hy
    simpa [hh1, hh2] using this
  · intro y hy
    rw [q4] at hy
    rcases m2 y hy with h | h
    · exact m1 y h
    · exact .inr h

/-! ### The loops -/

theorem inner_spec {m i : Nat} {r : Nat → ℚ} (h0 : ∀ j, 0 ≤ r j) (h1 : ∀ j, r j < 1) (n : Nat) :
    ∀ (j : Nat) (s : State), m - j = n → j ≤ m → Base m s → (∀ x < m, virtual i s x = (fisherYates (drawn r m) m j)[x]?) →
    ∃ s', inner m i r j s = .ok s' ∧ Base m s' ∧ (∀ y ∈ s'.q, y ∈ s.q ∨ y = (i : Int)) ∧
      ∀ pos < m, ∃ v v', s.h[pos]? = some v ∧ s'.h[pos]? = some v' ∧ v' ≤ v ∧
        (v' = v ∨ ∃ j', j' < m ∧ (fisherYates (drawn r m) m m)[j']? = some pos ∧ v' = r j' + j') ∧
        ∀ j', j ≤ j' → j' < m → (fisherYates (drawn r m) m m)[j']? = some pos → v' ≤ r j' + j' := by
  have hk : ∀ j < m, drawn r m j < m := fun j hj => drawn_lt h0 h1 hj
  have hk' := le_drawn r m
  induction n with
  | zero =>
      intro j s hn hjm hb hv
      have hnot : ¬ j ≤ s.a := by have := hb.lt; omega
      unfold inner
      rw [if_neg hnot]
      refine ⟨s, rfl, hb, fun y hy => .inl hy, fun pos hpos => ?_⟩
      obtain ⟨v, hv⟩ := exists_item (l := s.h) (i := pos) (by rw [hb.hl]; exact hpos)
      exact ⟨v, v, hv, hv, le_refl v, .inl rfl, fun j' h1 h2 => by omega⟩
  | succ n ih =>
      intro j s hn hjm hb hv
      unfold inner
      by_cases hja : j ≤ s.a
      · have hj : j < m := by omega
        rw [if_pos hja, if_pos hj]
        have hPm : ∀ y ∈ fisherYates (drawn r m) m j, y < m := fun y hy =>
          List.mem_range.mp ((fisherYates_perm hk j hjm).mem_iff.mp hy)
        obtain ⟨s1, pos, v, e1, b1, vir1, hpos, g1, g2, g3, g4⟩ := turn_spec hb hj h0 h1 (length_fisherYates _ m j) hPm hv
        obtain ⟨s2, e2, b2, q2, hh⟩ := ih (j + 1) s1 (by omega) (by omega) b1 vir1
        rw [e1]
        refine ⟨s2, e2, b2, ?_, ?_⟩
        · intro y hy
          rcases q2 y hy with h | h
          · exact g4 y h
          · exact .inr h
        · have hfin : (fisherYates (drawn r m) m m)[j]? = some pos := by
            rw [fisherYates_final hk hk' hj]; exact hpos
          intro x hx
          obtain ⟨w, w', k1, k2, k3, k4, k5⟩ := hh x hx
          by_cases c : x = pos
          · subst c
            rw [g2] at k1
            cases k1
            refine ⟨v, w', g1, k2, le_trans k3 (min_le_left _ _), ?_, ?_⟩
            · rcases k4 with k4 | k4
              · rcases min_choice v (r j + j) with h | h
                · exact .inl (k4.trans h)
                · exact .inr ⟨j, hj, hfin, k4.trans h⟩
              · exact .inr k4
            · intro j' l1 l2 l3
              rcases Nat.eq_or_lt_of_le l1 with rfl | l1
              · exact le_trans k3 (min_le_right _ _)
              · exact k5 j' l1 l2 l3
          · refine ⟨w, w', (g3 x c) ▸ k1, k2, k3, k4, ?_⟩
            intro j' l1 l2 l3
            rcases Nat.eq_or_lt_of_le l1 with rfl | l1
            · rw [hfin] at l3
              exact absurd (Option.some.inj l3).symm c
            · exact k5 j' l1 l2 l3
      · rw [if_neg hja]
        refine ⟨s, rfl, hb, fun y hy => .inl hy, fun pos hpos => ?_⟩
        obtain ⟨v, hv⟩ := exists_item (l := s.h) (i := pos) (by rw [hb.hl]; exact hpos)
        refine ⟨v, v, hv, hv, le_refl v, .inl rfl, fun j' l1 l2 _ => ?_⟩
        have htop := hb.top v (List.mem_of_getElem? hv)
        have hnn := hb.nonneg v (List.mem_of_getElem? hv)
        have hlev : ⌊v⌋.toNat < j' := by unfold level at htop; omega
        have hfl : ⌊v⌋ < (j' : Int) := by
          have := Int.floor_nonneg.mpr hnn
          omega
        have : v < (j' : ℚ) := by
          have := Int.floor_lt.mp hfl
          exact_mod_cast this
        have := h0 j'
        linarith

theorem outer_spec {rand : Nat → Nat → ℚ} (h0 : ∀ t j, 0 ≤ rand t j) (h1 : ∀ t j, rand t j < 1) {m : Nat} :
    ∀ (tokens : List Nat) (n : Nat) (seen : List Nat) (s : State), Base m s → (∀ y ∈ s.q, y < (n : Int)) →
    (∀ pos < m, ∃ v, s.h[pos]? = some v ∧ IsLeast (candidateValues rand m seen pos) v) →
    ∃ s', outer rand m (tokens.zipIdx n) s = .ok s' ∧ s'.h.length = m ∧
      ∀ pos < m, ∃ v, s'.h[pos]? = some v ∧ IsLeast (candidateValues rand m (seen ++ tokens) pos) v := by
  intro tokens
  induction tokens with
  | nil =>
      intro n seen s hb _ hs
      exact ⟨s, rfl, hb.hl, by simpa using hs⟩
  | cons token tokens ih =>
      intro n seen s hb hq hs
      have hvir : ∀ x < m, virtual n s x = (fisherYates (drawn (rand token) m) m 0)[x]? := by
        intro x hx
        unfold virtual
        rw [if_neg, fisherYates, List.getElem?_range hx]
        intro h
        exact absurd (hq _ (List.mem_of_getElem? h)) (lt_irrefl _)
      obtain ⟨s1, e1, b1, q1, hh⟩ := inner_spec (h0 token) (h1 token) m 0 s (by omega) (by omega) hb hvir
      have hs1 : ∀ pos < m, ∃ v, s1.h[pos]? = some v ∧ IsLeast (candidateValues rand m (seen ++ [token]) pos) v := by
        intro pos hpos
        obtain ⟨v, v', k1, k2, k3, k4, k5⟩ := hh pos hpos
        obtain ⟨w, l1, l2⟩ := hs pos hpos
        rw [k1] at l1
        cases l1
        refine ⟨v', k2, ?_, ?_⟩
        · rcases k4 with rfl | ⟨j, hj, hp, hval⟩
          · rcases l2.1 with h | ⟨t, ht, h⟩
            · exact .inl h
            · exact .inr ⟨t, by simp [ht], h⟩
          · exact .inr ⟨token, by simp, j, hj, hp, hval⟩
        · rintro u (hu | ⟨t, ht, hu⟩)
          · exact le_trans k3 (l2.2 (.inl hu))
          · rcases List.mem_append.mp ht with ht | ht
            · exact le_trans k3 (l2.2 (.inr ⟨t, ht, hu⟩))
            · obtain rfl : t = token := by simpa using ht
              obtain ⟨j, hj, hp, rfl⟩ := hu
              exact k5 j (Nat.zero_le _) hj hp
      have hq1 : ∀ y ∈ s1.q, y < ((n + 1 : Nat) : Int) := by
        intro y hy
        rcases q1 y hy with h | h
        · have := hq y h; omega
        · omega
      obtain ⟨s2, e2, b2, hs2⟩ := ih (n + 1) (seen ++ [token]) s1 b1 hq1 hs1
      refine ⟨s2, ?_, b2, by simpa using hs2⟩
      rw [List.zipIdx_cons, outer, e1]
      exact e2

theorem base_start {m : Nat} (hm : 0 < m) : Base m (start m) := by
  have hlev : level m ((m : ℚ) + 1) = m - 1 := by
    have : ⌊(m : ℚ) + 1⌋ = (m : Int) + 1 := by
      have := Int.floor_intCast (R := ℚ) ((m : Int) + 1)
      push_cast at this
      exact this
    unfold level
    rw [this]
    omega
  refine ⟨by simp [start], by simp [start], by simp [start], by simp [start], ?_, ?_, ?_, ?_⟩
  · intro v hv
    simp only [start] at hv
    rw [List.eq_of_mem_replicate hv]
    positivity
  · intro x hx
    simp only [start, List.map_replicate, hlev, List.getElem?_set, List.length_replicate, List.getElem?_replicate, List.count_replicate]
    by_cases c : m - 1 = x
    · subst c; simp [hm]
    · simp [c, hx]
  · intro v hv
    simp only [start] at hv ⊢
    rw [List.eq_of_mem_replicate hv, hlev]
  · simp only [start]; omega

end Fog.SuperMinhash
