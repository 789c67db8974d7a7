import Verif.Model.SparsificationFloat
import Verif.Props.Sparsification
import Verif.Lemmas.Binary64

/-!
# C113: floatsam sparsification in double precision
-/

namespace Fog.Props

open GraphUtils Sparsification Spec

variable {α : Type _} [DecidableEq α] {fl : ℝ → ℝ}

/-- The threshold after `k` steps, each of which is rounded. -/
def steps (fl : ℝ → ℝ) (lr : ℝ) : Nat → ℝ → ℝ
  | 0, t => t
  | k + 1, t => fl (steps fl lr k t + lr)

theorem steps_shift (lr : ℝ) (k : Nat) (t : ℝ) : steps fl lr k (fl (t + lr)) = steps fl lr (k + 1) t := by
  induction k with
  | zero => rfl
  | succ k ih => rw [steps, ih, steps]; rfl

/-- What the loop does. -/
theorem floatsam_float_loop {g : Graph α ℝ} (hg : Undirected g) (lr : ℝ) (m : Nat) : ∀ (fuel : Nat) (t : ℝ),
    (∃ k < fuel, SparsificationFloat.loop fl g lr m fuel t = .ok (some (steps fl lr k t)) ∧ Drifts g m (steps fl lr (k + 1) t) ∧
      ∀ j < k, ¬ Drifts g m (steps fl lr (j + 1) t)) ∨
    (SparsificationFloat.loop fl g lr m fuel t = .ok none ∧ ∀ j < fuel, ¬ Drifts g m (steps fl lr (j + 1) t)) := by
  intro fuel
  induction fuel with
  | zero => intro t; exact Or.inr ⟨rfl, by simp⟩
  | succ fuel ih =>
      intro t
      obtain ⟨c, hc, hiff⟩ := second_largest_iff hg (fl (t + lr)) m
      by_cases hd : Drifts g m (fl (t + lr))
      · left
        obtain ⟨n, rfl, hn⟩ := hiff.mpr hd
        refine ⟨0, Nat.succ_pos _, ?_, hd, by simp⟩
        rw [SparsificationFloat.loop]
        simp only [hc, ge_iff_le, hn, if_true]
        rfl
      · have hstep : SparsificationFloat.loop fl g lr m (fuel + 1) t = SparsificationFloat.loop fl g lr m fuel (fl (t + lr)) := by
          rw [SparsificationFloat.loop]
          simp only [hc]
          cases c with
          | none => rfl
          | some n =>
              have : ¬ m ≤ n := fun h => hd (hiff.mp ⟨n, rfl, h⟩)
              simp [this]
        have hprev : ∀ n : Nat, (∀ j : Nat, j < n → ¬ Drifts g m (steps fl lr (j + 1) (fl (t + lr)))) →
            ∀ j : Nat, j < n + 1 → ¬ Drifts g m (steps fl lr (j + 1) t) := by
          intro n h j hj
          cases j with
          | zero => exact hd
          | succ j => rw [← steps_shift]; exact h j (by omega)
        rw [hstep]
        rcases ih (fl (t + lr)) with ⟨k, hk, h1, h2, h3⟩ | ⟨h1, h2⟩
        · left
          refine ⟨k + 1, by omega, ?_, ?_, hprev k h3⟩
          · rw [h1, steps_shift]
          · rw [← steps_shift]; exact h2
        · right
          exact ⟨h1, hprev fuel h2⟩

/-- **C113** partial: when `floatsam_sparsification` stops on a graph which has edges, it returns the last threshold before the first
one at which two components have the given size, each threshold being the previous one plus the learning rate, rounded; if asked to,
it removes exactly the edges of smaller weight. Missing: it may not stop, see below. -/
theorem floatsam_float_partial (log : Nat → Nat) {g : Graph α ℝ} (hg : Undirected g) (hne : ¬ NoEdge g) (t lr : ℝ) (m : Option Nat)
    (remove : Bool) (fuel : Nat) :
    (∃ (k : Nat) (g' : Graph α ℝ), SparsificationFloat.floatsam fl log fuel g t lr m remove = .ok (some (steps fl lr k t, g')) ∧
      Drifts g (m.getD (log g.length)) (steps fl lr (k + 1) t) ∧ (∀ j < k, ¬ Drifts g (m.getD (log g.length)) (steps fl lr (j + 1) t)) ∧
      Undirected g' ∧ g'.keys = g.keys ∧ ∀ a b w, Edge g' a b w ↔ Edge g a b w ∧ (remove = true → steps fl lr k t ≤ w)) ∨
    (SparsificationFloat.floatsam fl log fuel g t lr m remove = .ok none ∧
      ∀ j < fuel, ¬ Drifts g (m.getD (log g.length)) (steps fl lr (j + 1) t)) := by
  have hall : (g.all fun p => p.2.isEmpty) = false := by
    rw [Bool.eq_false_iff]
    exact fun h => hne ((all_isEmpty_iff g).mp h)
  rcases floatsam_float_loop (fl := fl) hg lr (m.getD (log g.length)) fuel t with ⟨k, _, h1, h2, h3⟩ | ⟨h1, h2⟩
  · left
    cases remove with
    | false =>
        refine ⟨k, g, ?_, h2, h3, hg, rfl, by simp⟩
        unfold SparsificationFloat.floatsam
        simp only [hall, Bool.false_eq_true, if_false, h1]
        rfl
    | true =>
        obtain ⟨e1, e2⟩ := edgesFrom_spec g [] (by simp) hg.nodes hg.neighbors
        have hedge : ∀ u v w, (u, v, w) ∈ edgesFrom g [] → Edge g u v w := by
          intro u v w h
          obtain ⟨pre, nbrs, post, hl, hvw, _, _⟩ := (e1 u v w).mp h
          exact ⟨nbrs, by rw [hl]; simp, hvw⟩
        have huniq : ∀ {u v w w'}, Edge g u v w → Edge g u v w' → w = w' := by
          intro u v w w' h h'
          rw [edge_iff hg.nodes hg.neighbors] at h h'
          rw [h] at h'
          injection h'
        obtain ⟨g', r1, r2, r3, r4⟩ := removeEdges_spec
          (((edgesFrom g []).filter fun e : α × α × ℝ => decide (e.2.2 < steps fl lr k t)).map fun e : α × α × ℝ => (e.1, e.2.1)) g hg (by
            intro e he
            obtain ⟨⟨u, v, w⟩, hx, rfl⟩ := List.mem_map.mp he
            exact ⟨w, hedge u v w (List.mem_filter.mp hx).1⟩) (by
            exact e2.sublist (List.Sublist.map _ List.filter_sublist))
        refine ⟨k, g', ?_, h2, h3, r2, r3, ?_⟩
        · unfold SparsificationFloat.floatsam
          simp only [hall, Bool.false_eq_true, if_false, h1, if_true, r1, bind, Except.bind]
          rfl
        · intro a b w
          rw [r4]
          constructor
          · rintro ⟨hab, hn1, hn2⟩
            refine ⟨hab, fun _ => ?_⟩
            by_contra hlt
            rcases edges_complete hg hab with h | h
            · exact hn1 (List.mem_map.mpr ⟨(a, b, w), List.mem_filter.mpr ⟨h, decide_eq_true (not_le.mp hlt)⟩, rfl⟩)
            · exact hn2 (List.mem_map.mpr ⟨(b, a, w), List.mem_filter.mpr ⟨h, decide_eq_true (not_le.mp hlt)⟩, rfl⟩)
          · rintro ⟨hab, hle⟩
            have hle := hle rfl
            refine ⟨hab, ?_, ?_⟩
            · intro h
              obtain ⟨⟨u, v, w'⟩, hx, heq⟩ := List.mem_map.mp h
              obtain ⟨hx, hlt⟩ := List.mem_filter.mp hx
              injection heq with q1 q2
              simp only at q1 q2
              subst q1 q2
              have := of_decide_eq_true hlt
              rw [huniq (hedge _ _ _ hx) hab] at this
              exact absurd this (not_lt.mpr hle)
            · intro h
              obtain ⟨⟨u, v, w'⟩, hx, heq⟩ := List.mem_map.mp h
              obtain ⟨hx, hlt⟩ := List.mem_filter.mp hx
              injection heq with q1 q2
              simp only at q1 q2
              subst q1 q2
              have := of_decide_eq_true hlt
              rw [huniq (hg.symm _ _ _ (hedge _ _ _ hx)) hab] at this
              exact absurd this (not_lt.mpr hle)
  · right
    refine ⟨?_, h2⟩
    unfold SparsificationFloat.floatsam
    simp only [hall, Bool.false_eq_true, if_false, h1]

/-- A threshold which is not too large for the learning rate grows. -/
theorem step_grows (hfl : IsRounding fl) {t lr : ℝ} (hlr : (2 : ℝ) ^ (-1022 : ℤ) ≤ lr) (h0 : 0 ≤ t) (h : t ≤ 2 ^ 52 * lr) :
    t + lr / 4 ≤ fl (t + lr) := by
  have hp : 0 < lr := lt_of_lt_of_le (two_zpow_pos _) hlr
  have := hfl.relative (x := t + lr) (by linarith)
  rw [abs_le] at this
  have h1 : (t + lr) / 2 ^ 53 ≤ 3 / 4 * lr := by
    rw [div_le_iff₀ (by norm_num)]
    have : (3 / 4 * lr) * 2 ^ 53 = 3 / 2 * (2 ^ 52 * lr) := by ring
    rw [this]
    have : lr ≤ 1 / 2 * (2 ^ 52 * lr) := by
      have : (1 : ℝ) ≤ 1 / 2 * 2 ^ 52 := by norm_num
      nlinarith
    linarith
  linarith [this.1]

/-- **C113** partial: it stops when the size is at most 1, there are two nodes, the starting threshold is not negative, and no weight
is above 2 ^ 52 times the learning rate. -/
theorem floatsam_float_stops_partial (hfl : IsRounding fl) (log : Nat → Nat) {g : Graph α ℝ} (hg : Undirected g) {t lr : ℝ} (ht : 0 ≤ t)
    (hlr : (2 : ℝ) ^ (-1022 : ℤ) ≤ lr) (hw : ∀ a b w, Edge g a b w → w ≤ 2 ^ 52 * lr)
    (m : Option Nat) (hm : m.getD (log g.length) ≤ 1) (h2 : 2 ≤ g.length) (remove : Bool) :
    ∃ fuel r, SparsificationFloat.floatsam fl log fuel g t lr m remove = .ok (some r) := by
  by_cases hne : NoEdge g
  · exact ⟨0, (t, g), by unfold SparsificationFloat.floatsam; rw [if_pos ((all_isEmpty_iff g).mpr hne)]⟩
  have hp : 0 < lr := lt_of_lt_of_le (two_zpow_pos _) hlr
  -- the thresholds pass all weights
  obtain ⟨n, hn⟩ : ∃ n, 2 ^ 52 * lr < steps fl lr (n + 1) t := by
    by_contra hno
    have hle : ∀ n, steps fl lr (n + 1) t ≤ 2 ^ 52 * lr := fun n => not_lt.mp fun h => hno ⟨n, h⟩
    have hgrow : ∀ n : Nat, (n : ℝ) * (lr / 4) ≤ steps fl lr (n + 1) t := by
      intro n
      induction n with
      | zero =>
          have : 0 ≤ fl (t + lr) := hfl.nonneg (by linarith)
          simpa [steps] using this
      | succ n ih =>
          have h0 : 0 ≤ steps fl lr (n + 1) t := le_trans (by positivity) ih
          have := step_grows hfl hlr h0 (hle n)
          rw [steps]
          push_cast
          linarith
    obtain ⟨n, hn⟩ := exists_nat_gt (2 ^ 52 * lr / (lr / 4))
    rw [div_lt_iff₀ (by linarith)] at hn
    linarith [hgrow n, hle n]
  have hnone : ∀ a b, ¬ Above g (steps fl lr (n + 1) t) a b := by
    rintro a b ⟨w, hw', hle⟩
    exact absurd (lt_of_lt_of_le hn hle) (not_lt.mpr (hw _ _ _ hw'))
  have hcon : ∀ a b, Connected (Above g (steps fl lr (n + 1) t)) a b ↔ a = b := by
    intro a b
    constructor
    · intro h
      cases h with
      | refl => rfl
      | step h _ => exact absurd h (hnone _ _)
    · rintro rfl; exact .refl _
  have hdrift : Drifts g (m.getD (log g.length)) (steps fl lr (n + 1) t) := by
    match hgl : g, h2 with
    | (a, ea) :: (b, eb) :: rest, _ =>
        have hab : a ≠ b := by
          have := hg.nodes
          simp only [Dict.keys, List.map_cons, List.nodup_cons, List.mem_cons, not_or] at this
          exact this.1.1
        refine ⟨a, b, [a], [b], by simp [Dict.keys], by simp [Dict.keys], ⟨by simp, ?_⟩, ⟨by simp, ?_⟩, ?_, by simpa using hm,
          by simpa using hm⟩
        · intro x; rw [hcon]; simp [eq_comm]
        · intro x; rw [hcon]; simp [eq_comm]
        · rw [hcon]; exact hab
  rcases floatsam_float_partial (fl := fl) log hg hne t lr m remove (n + 1) with ⟨k, g', h, _⟩ | ⟨_, h⟩
  · exact ⟨n + 1, _, h⟩
  · exact absurd hdrift (h n (Nat.lt_succ_self n))

/-- The thresholds never pass a power of two of which the learning rate is less than half a unit in the last place. -/
theorem steps_stuck (hfl : IsRounding fl) {lr t : ℝ} {j : ℤ} (hj : -1000 ≤ j) (h0 : 0 ≤ lr) (hlr : lr < (2 : ℝ) ^ (j - 53)) (ht : t ≤ (2 : ℝ) ^ j) :
    ∀ k, steps fl lr k t ≤ (2 : ℝ) ^ j := by
  have hb : fl ((2 : ℝ) ^ j + lr) = (2 : ℝ) ^ j := by
    have e : (2 : ℝ) ^ j = ((2 ^ 52 : ℤ) : ℝ) * (2 : ℝ) ^ (j - 52) := by
      rw [show ((2 ^ 52 : ℤ) : ℝ) = (2 : ℝ) ^ (52 : ℤ) by norm_num, ← zpow_add₀ (by norm_num)]
      congr 1
      ring
    have h2 : (2 : ℝ) ^ (j - 52) / 2 = (2 : ℝ) ^ (j - 53) := by
      rw [show j - 52 = (j - 53) + 1 by ring, zpow_add_one₀ (by norm_num)]
      ring
    have := hfl.eq_of_near (x := (2 : ℝ) ^ j + lr) (n := 2 ^ 52) (k := j - 52) (by omega)
      (by rw [show (52 : ℤ) + (j - 52) = j by ring]; linarith) (by norm_num) (by
        rw [← e, h2, add_sub_cancel_left, abs_of_nonneg h0]
        exact hlr)
    rw [this, ← e]
  intro k
  induction k with
  | zero => exact ht
  | succ k ih =>
      rw [steps, ← hb]
      exact hfl.mono (by linarith)

/-- **C113** is false: `floatsam_sparsification` never stops on a graph which has an edge and whose nodes are linked by weights of at
least 2 ^ 54 times the learning rate, because the threshold stops growing before. -/
theorem floatsam_float_stuck (hfl : IsRounding fl) (log : Nat → Nat) {g : Graph α ℝ} (hg : Undirected g) (hne : ¬ NoEdge g) {t lr : ℝ}
    (hlr : (2 : ℝ) ^ (-1022 : ℤ) ≤ lr) (ht : t ≤ 2 ^ 53 * lr)
    (hcon : ∀ a ∈ g.keys, ∀ b ∈ g.keys, Connected (Above g (2 ^ 54 * lr)) a b) (m : Option Nat) (remove : Bool) (fuel : Nat) :
    SparsificationFloat.floatsam fl log fuel g t lr m remove = .ok none := by
  have hp : 0 < lr := lt_of_lt_of_le (two_zpow_pos _) hlr
  have hl1 := Int.zpow_log_le_self (b := 2) (r := lr) (by norm_num) hp
  have hl2 := Int.lt_zpow_succ_log_self (b := 2) (by norm_num) lr
  have hl3 : -1022 ≤ Int.log 2 lr := by
    have := Int.log_mono_right (b := 2) (two_zpow_pos (-1022)) hlr
    rwa [show (2 : ℝ) = ((2 : Nat) : ℝ) by norm_num, Int.log_zpow (by norm_num)] at this
  simp only [Nat.cast_ofNat] at hl1 hl2
  generalize Int.log 2 lr = e at hl1 hl2 hl3
  have e1 : (2 : ℝ) ^ (e + 54) = 2 ^ 54 * (2 : ℝ) ^ e := by
    rw [zpow_add₀ (by norm_num), mul_comm]
    norm_cast
  have e2 : (2 : ℝ) ^ (e + 54) = 2 ^ 53 * (2 : ℝ) ^ (e + 1) := by
    rw [e1, zpow_add_one₀ (by norm_num)]
    ring
  have hstuck := steps_stuck hfl (lr := lr) (t := t) (j := e + 54) (by omega) hp.le (by rw [show e + 54 - 53 = e + 1 by ring]; exact hl2)
    (by rw [e2]; linarith [mul_le_mul_of_nonneg_left hl2.le (show (0 : ℝ) ≤ 2 ^ 53 by norm_num)])
  rcases floatsam_float_partial (fl := fl) log hg hne t lr m remove fuel with ⟨k, g', _, hd, _⟩ | ⟨h, _⟩
  · exfalso
    obtain ⟨a, b, _, _, ha, hb, _, _, hab, _⟩ := hd
    refine hab ?_
    have hle : steps fl lr (k + 1) t ≤ 2 ^ 54 * lr := by
      refine (hstuck (k + 1)).trans ?_
      rw [e1]
      exact mul_le_mul_of_nonneg_left hl1 (by norm_num)
    have hmono : ∀ {x y}, Connected (Above g (2 ^ 54 * lr)) x y → Connected (Above g (steps fl lr (k + 1) t)) x y := by
      intro x y h
      induction h with
      | refl => exact .refl _
      | step h _ ih =>
          obtain ⟨w, h1, h2⟩ := h
          exact .step ⟨w, h1, hle.trans h2⟩ ih
    exact hmono (hcon a ha b hb)
  · exact h

/-- Two nodes and an edge. -/
def twoNodes (w : ℝ) : Graph Char ℝ := [('a', [('b', w)]), ('b', [('a', w)])]

theorem twoNodes_edge {w w' : ℝ} {a b : Char} : Edge (twoNodes w) a b w' ↔ w' = w ∧ ((a = 'a' ∧ b = 'b') ∨ (a = 'b' ∧ b = 'a')) := by
  unfold Edge twoNodes
  simp only [List.mem_cons, Prod.mk.injEq, List.not_mem_nil, or_false]
  constructor
  · rintro ⟨edges, h1, h2⟩
    rcases h1 with ⟨rfl, rfl⟩ | ⟨rfl, rfl⟩ <;>
      simp only [List.mem_cons, Prod.mk.injEq, List.not_mem_nil, or_false] at h2 <;> obtain ⟨rfl, rfl⟩ := h2 <;> simp
  · rintro ⟨rfl, ⟨rfl, rfl⟩ | ⟨rfl, rfl⟩⟩
    · exact ⟨_, Or.inl ⟨rfl, rfl⟩, by simp⟩
    · exact ⟨_, Or.inr ⟨rfl, rfl⟩, by simp⟩

theorem twoNodes_undirected (w : ℝ) : Undirected (twoNodes w) := by
  refine ⟨by simp [twoNodes, Dict.keys], ?_, ?_⟩
  · intro p hp
    simp only [twoNodes, List.mem_cons, List.not_mem_nil, or_false] at hp
    rcases hp with rfl | rfl <;> simp [Dict.keys]
  · intro a b w h
    rw [twoNodes_edge] at h ⊢
    exact ⟨h.1, h.2.symm.imp And.symm And.symm⟩

theorem twoNodes_has_edge (w : ℝ) : ¬ NoEdge (twoNodes w) := fun h => h 'a' 'b' w (twoNodes_edge.mpr ⟨rfl, Or.inl ⟨rfl, rfl⟩⟩)

/-- The default learning rate. -/
theorem default_rate (hfl : IsRounding fl) : 1 / 32 ≤ fl (1 / 20) ∧ fl (1 / 20) ≤ 1 / 16 := by
  have h1 := hfl.mono (show (1 / 32 : ℝ) ≤ 1 / 20 by norm_num)
  have h2 := hfl.mono (show (1 / 20 : ℝ) ≤ 1 / 16 by norm_num)
  have d1 : IsDouble (1 / 32) := ⟨1, -5, by norm_num, by norm_num, by norm_num⟩
  have d2 : IsDouble (1 / 16) := ⟨1, -4, by norm_num, by norm_num, by norm_num⟩
  rw [hfl.of_double d1] at h1
  rw [hfl.of_double d2] at h2
  exact ⟨h1, h2⟩

theorem rate_normal {lr : ℝ} (h : 1 / 32 ≤ lr) : (2 : ℝ) ^ (-1022 : ℤ) ≤ lr := by
  refine le_trans ?_ h
  rw [show (1 / 32 : ℝ) = (2 : ℝ) ^ (-5 : ℤ) by norm_num]
  exact zpow_le_zpow_right₀ (by norm_num) (by norm_num)

-- Two nodes linked by a weight of three, with the default arguments: it stops.
example (hfl : IsRounding fl) : ∃ fuel r, SparsificationFloat.floatsam fl (fun n => ⌊Real.log n⌋₊) fuel (twoNodes 3) 0 (fl (1 / 20)) none true =
    .ok (some r) := by
  obtain ⟨h1, _⟩ := default_rate hfl
  refine floatsam_float_stops_partial hfl _ (twoNodes_undirected 3) le_rfl (rate_normal h1) ?_ none ?_ (by simp [twoNodes]) true
  · intro a b w h
    rw [(twoNodes_edge.mp h).1]
    have : (3 : ℝ) ≤ 2 ^ 52 * (1 / 32) := by norm_num
    linarith [mul_le_mul_of_nonneg_left h1 (show (0 : ℝ) ≤ 2 ^ 52 by norm_num)]
  · have : ⌊Real.log ((twoNodes 3).length : Nat)⌋₊ = 0 := by
      rw [Nat.floor_eq_zero]
      have := Real.log_two_lt_d9
      simp only [twoNodes, List.length_cons, List.length_nil]
      norm_num
      linarith
    simp [this]

/-- **C113** is false: with the default arguments, `floatsam_sparsification` never stops on two nodes linked by a weight of 2 ^ 50,
though it would with exact numbers. -/
theorem floatsam_float_two_nodes (hfl : IsRounding fl) (remove : Bool) :
    (∀ fuel, SparsificationFloat.floatsam fl (fun n => ⌊Real.log n⌋₊) fuel (twoNodes (2 ^ 50)) 0 (fl (1 / 20)) none remove = .ok none) ∧
    ∃ fuel r, Sparsification.floatsam (fun n => ⌊Real.log n⌋₊) fuel (twoNodes (2 ^ 50)) 0 (fl (1 / 20)) none remove = .ok (some r) := by
  obtain ⟨h1, h2⟩ := default_rate hfl
  have hp : 0 < fl (1 / 20) := by linarith
  constructor
  · intro fuel
    refine floatsam_float_stuck hfl _ (twoNodes_undirected _) (twoNodes_has_edge _) (rate_normal h1) (by positivity) ?_ none remove fuel
    have hle : 2 ^ 54 * fl (1 / 20) ≤ 2 ^ 50 := by
      have := mul_le_mul_of_nonneg_left h2 (show (0 : ℝ) ≤ 2 ^ 54 by norm_num)
      have e : (2 : ℝ) ^ 54 * (1 / 16) = 2 ^ 50 := by norm_num
      linarith
    have key : ∀ x y, ((x = 'a' ∧ y = 'b') ∨ (x = 'b' ∧ y = 'a')) → Connected (Above (twoNodes (2 ^ 50)) (2 ^ 54 * fl (1 / 20))) x y :=
      fun x y h => Connected.single ⟨2 ^ 50, twoNodes_edge.mpr ⟨rfl, h⟩, hle⟩
    intro a ha b hb
    simp only [twoNodes, Dict.keys, List.map_cons, List.map_nil, List.mem_cons, List.not_mem_nil, or_false] at ha hb
    rcases ha with rfl | rfl <;> rcases hb with rfl | rfl
    · exact .refl _
    · exact key _ _ (Or.inl ⟨rfl, rfl⟩)
    · exact key _ _ (Or.inr ⟨rfl, rfl⟩)
    · exact .refl _
  · refine floatsam_stops_partial _ (twoNodes_undirected _) 0 _ hp none ?_ (by simp [twoNodes]) remove
    have : ⌊Real.log ((twoNodes (2 ^ 50)).length : Nat)⌋₊ = 0 := by
      rw [Nat.floor_eq_zero]
      have := Real.log_two_lt_d9
      simp only [twoNodes, List.length_cons, List.length_nil]
      norm_num
      linarith
    simp [this]

end Fog.Props
