import Verif.Model.SuperMinhashFloat
import Verif.Lemmas.SuperMinhash
import Verif.Lemmas.Binary64
import Verif.Spec.SuperRanks

/-!
# Lemmas on the model of `SuperMinHash` in double precision

When no sum is rounded up to the next integer, the model follows the one with exact numbers, for random numbers which draw the same
positions: all that differs is after the point in `h`.
-/

namespace Fog.SuperMinhashFloat

open Fog.Spec
open Fog.SuperMinhash (item item_eq)

variable {fl : ℝ → ℝ}

/-- The two states are the same, but for what is after the point in `h`. -/
structure Follows (s : State) (t : SuperMinhash.State) : Prop where
  p : s.p = t.p
  q : s.q = t.q
  b : s.b = t.b
  a : s.a = (t.a : Int)
  h : s.h.map (fun v => ⌊v⌋) = t.h.map (fun v => ⌊v⌋)

theorem item_ok {β : Type} {l : List β} {i : Nat} {x : β} (h : item l i = .ok x) : l[i]? = some x := by
  unfold item at h
  split at h
  · cases h
  · injection h with h; subst h; assumption

theorem refresh_follows {i j : Nat} {s : State} {t t' : SuperMinhash.State} (hf : Follows s t)
    (h : SuperMinhash.refresh i j t = .ok t') : ∃ s', refresh i j s = .ok s' ∧ Follows s' t' := by
  unfold SuperMinhash.refresh at h
  unfold refresh
  rw [hf.q]
  cases hx : item t.q j with
  | error e => simp [hx, bind, Except.bind] at h
  | ok x =>
      simp only [hx, bind, Except.bind] at h ⊢
      split at h
      · next hne =>
        simp only [pure, Except.pure, Except.ok.injEq] at h
        subst h
        refine ⟨_, if_pos hne, ?_, ?_, hf.b, hf.a, hf.h⟩ <;> simp [hf.p]
      · next hne =>
        simp only [pure, Except.pure, Except.ok.injEq] at h
        subst h
        exact ⟨_, if_neg hne, hf⟩

theorem settle_follows (b : List Int) : ∀ (a a' : Nat), SuperMinhash.settle b a = .ok a' → settle b (a : Int) = .ok (a' : Int) := by
  intro a
  have hat : ∀ a : Nat, itemAt b (a : Int) = item b a := by
    intro a
    unfold itemAt
    rw [if_pos (Int.natCast_nonneg a), Int.toNat_natCast]
  induction a with
  | zero =>
      intro a' h
      rw [SuperMinhash.settle] at h
      rw [settle, if_neg (by omega)]
      rw [hat 0]
      cases hx : item b 0 with
      | error e => simp [hx, bind, Except.bind] at h
      | ok x =>
          simp only [hx, bind, Except.bind] at h ⊢
          split at h
          · simp at h
          · next hne =>
            simp only [pure, Except.pure, Except.ok.injEq] at h
            subst h
            rw [if_neg hne]
  | succ a ih =>
      intro a' h
      rw [SuperMinhash.settle] at h
      rw [settle, if_neg (by omega), hat (a + 1)]
      cases hx : item b (a + 1) with
      | error e => simp [hx, bind, Except.bind] at h
      | ok x =>
          simp only [hx, bind, Except.bind] at h ⊢
          split at h
          · next he =>
            rw [if_pos he]
            have := ih a' h
            rwa [show ((a + 1 : Nat) : Int) - 1 = (a : Int) by omega]
          · next hne =>
            simp only [pure, Except.pure, Except.ok.injEq] at h
            subst h
            rw [if_neg hne]

theorem improve_follows {m j pos : Nat} {r : ℝ} {r' : ℚ} (h0 : 0 ≤ r') (h1 : r' < 1) (hr : ⌊fl (r + j)⌋ = (j : Int)) {s : State}
    {t t' : SuperMinhash.State} (hf : Follows s t) (h : SuperMinhash.improve m j pos r' t = .ok t') :
    ∃ s', improve fl m j pos r s = .ok s' ∧ Follows s' t' := by
  have hr' : ⌊r' + (j : ℚ)⌋ = (j : Int) := by
    rw [Int.floor_eq_iff]
    push_cast
    constructor <;> linarith
  unfold SuperMinhash.improve at h
  unfold improve
  cases hw : item t.h pos with
  | error e => simp [hw, bind, Except.bind] at h
  | ok w =>
      have hw' := item_ok hw
      obtain ⟨v, hv, hvw⟩ : ∃ v, s.h[pos]? = some v ∧ ⌊v⌋ = ⌊w⌋ := by
        have := congrArg (fun l => l[pos]?) hf.h
        simp only [List.getElem?_map, hw'] at this
        cases hv : s.h[pos]? with
        | none => simp [hv] at this
        | some v => exact ⟨v, rfl, by simpa [hv] using this⟩
      rw [item_eq hv]
      simp only [hw, bind, Except.bind] at h
      simp only
      have hset : (s.h.set pos (fl (r + j))).map (fun v => ⌊v⌋) = (t.h.set pos (r' + j)).map (fun v => ⌊v⌋) := by
        rw [List.map_set, List.map_set, hf.h, hr, hr']
      rcases lt_trichotomy (j : Int) ⌊v⌋ with hlt | heq | hgt
      · have c1 : fl (r + j) < v := by
          have h2 := Int.lt_floor_add_one (fl (r + j))
          rw [hr] at h2
          have h3 := Int.floor_le v
          have h4 : ((j : Int) : ℝ) + 1 ≤ (⌊v⌋ : ℝ) := by exact_mod_cast hlt
          linarith
        have c2 : r' + (j : ℚ) < w := by
          have h3 := Int.floor_le w
          have h4 : ((j : Int) : ℚ) + 1 ≤ (⌊w⌋ : ℚ) := by rw [← hvw]; exact_mod_cast hlt
          push_cast at h4
          linarith
        rw [if_pos c1]
        rw [if_pos c2] at h
        rw [hvw, hf.b]
        by_cases hj : j < min ⌊w⌋.toNat (m - 1)
        · rw [if_pos hj] at h ⊢
          cases hx : item t.b (min ⌊w⌋.toNat (m - 1)) with
          | error e => simp [hx] at h
          | ok x =>
              simp only [hx] at h ⊢
              cases hy : item (t.b.set (min ⌊w⌋.toNat (m - 1)) (x - 1)) j with
              | error e => simp [hy] at h
              | ok y =>
                  simp only [hy] at h ⊢
                  cases ha : SuperMinhash.settle ((t.b.set (min ⌊w⌋.toNat (m - 1)) (x - 1)).set j (y + 1)) t.a with
                  | error e => simp [ha] at h
                  | ok a =>
                      simp only [ha, pure, Except.pure, Except.ok.injEq] at h
                      subst h
                      rw [hf.a, settle_follows _ _ _ ha]
                      exact ⟨_, rfl, hf.p, hf.q, rfl, rfl, hset⟩
        · rw [if_neg hj] at h ⊢
          simp only [pure, Except.pure, Except.ok.injEq] at h
          subst h
          exact ⟨_, rfl, hf.p, hf.q, rfl, hf.a, hset⟩
      · -- the same integer: whichever is less, nothing changes but after the point
        have hj2 : ∀ x : Int, x = (j : Int) → ¬ j < min x.toNat (m - 1) := by
          rintro x rfl
          simp only [Int.toNat_natCast]
          omega
        have hkeep : s.h.map (fun v => ⌊v⌋) = (t.h.set pos (r' + j)).map (fun v => ⌊v⌋) := by
          rw [List.map_set, hr', hf.h, heq, hvw]
          apply List.ext_getElem?
          intro n
          rw [List.getElem?_set]
          split
          · next hn =>
            subst hn
            have hlt := (List.getElem?_eq_some_iff.1 hw').1
            rw [if_pos (by simpa using hlt), List.getElem?_map, hw']
            rfl
          · rfl
        have hkeep' : (s.h.set pos (fl (r + j))).map (fun v => ⌊v⌋) = t.h.map (fun v => ⌊v⌋) := by
          rw [hset, ← hkeep, hf.h]
        by_cases c2 : r' + (j : ℚ) < w
        · rw [if_pos c2, if_neg (hj2 _ (hvw ▸ heq.symm))] at h
          simp only [pure, Except.pure, Except.ok.injEq] at h
          subst h
          by_cases c1 : fl (r + j) < v
          · rw [if_pos c1, if_neg (hj2 _ heq.symm)]
            exact ⟨_, rfl, hf.p, hf.q, hf.b, hf.a, hset⟩
          · rw [if_neg c1]
            exact ⟨_, rfl, hf.p, hf.q, hf.b, hf.a, hkeep⟩
        · rw [if_neg c2] at h
          simp only [pure, Except.pure, Except.ok.injEq] at h
          subst h
          by_cases c1 : fl (r + j) < v
          · rw [if_pos c1, if_neg (hj2 _ heq.symm)]
            exact ⟨_, rfl, hf.p, hf.q, hf.b, hf.a, hkeep'⟩
          · rw [if_neg c1]
            exact ⟨_, rfl, hf⟩
      · have c1 : ¬ fl (r + j) < v := by
          have h2 := Int.floor_le (fl (r + j))
          rw [hr] at h2
          have h3 := Int.lt_floor_add_one v
          have h4 : (⌊v⌋ : ℝ) + 1 ≤ ((j : Int) : ℝ) := by exact_mod_cast hgt
          linarith
        have c2 : ¬ r' + (j : ℚ) < w := by
          have h3 := Int.lt_floor_add_one w
          have h4 : (⌊w⌋ : ℚ) + 1 ≤ ((j : Int) : ℚ) := by rw [← hvw]; exact_mod_cast hgt
          push_cast at h4
          linarith
        rw [if_neg c1]
        rw [if_neg c2] at h
        simp only [pure, Except.pure, Except.ok.injEq] at h
        subst h
        exact ⟨_, rfl, hf⟩

theorem turn_follows {m i j : Nat} {r : ℝ} {r' : ℚ} (h0 : 0 ≤ r') (h1 : r' < 1) (hr : ⌊fl (r + j)⌋ = (j : Int))
    (hk : ⌊fl (r * ((m : ℝ) - j))⌋ = ⌊r' * ((m : ℚ) - j)⌋) {s : State} {t t' : SuperMinhash.State} (hf : Follows s t)
    (h : SuperMinhash.turn m i j r' t = .ok t') : ∃ s', turn fl m i j r s = .ok s' ∧ Follows s' t' := by
  unfold SuperMinhash.turn at h
  unfold turn
  rw [hk]
  generalize j + ⌊r' * ((m : ℚ) - j)⌋.toNat = k at *
  cases e1 : SuperMinhash.refresh i j t with
  | error e => simp [e1, bind, Except.bind] at h
  | ok t1 =>
      obtain ⟨s1, d1, f1⟩ := refresh_follows hf e1
      simp only [e1, bind, Except.bind] at h
      simp only [d1]
      cases e2 : SuperMinhash.refresh i k t1 with
      | error e => simp [e2] at h
      | ok t2 =>
          obtain ⟨s2, d2, f2⟩ := refresh_follows f1 e2
          simp only [e2] at h
          simp only [d2, f2.p]
          cases e3 : item t2.p j with
          | error e => simp [e3] at h
          | ok tmp =>
              simp only [e3] at h ⊢
              cases e4 : item t2.p k with
              | error e => simp [e4] at h
              | ok x =>
                  simp only [e4] at h ⊢
                  cases e5 : item ((t2.p.set j x).set k tmp) j with
                  | error e => simp [e5] at h
                  | ok pos =>
                      simp only [e5] at h ⊢
                      exact improve_follows h0 h1 hr (s := { s2 with p := (t2.p.set j x).set k tmp })
                        (t := { t2 with p := (t2.p.set j x).set k tmp }) ⟨rfl, f2.q, f2.b, f2.a, f2.h⟩ h

theorem inner_follows {m i : Nat} {r : Nat → ℝ} {r' : Nat → ℚ} (h0 : ∀ j, 0 ≤ r' j) (h1 : ∀ j, r' j < 1)
    (hr : ∀ j < m, ⌊fl (r j + j)⌋ = (j : Int)) (hk : ∀ j < m, ⌊fl (r j * ((m : ℝ) - j))⌋ = ⌊r' j * ((m : ℚ) - j)⌋) (n : Nat) :
    ∀ (j : Nat) (s : State) (t t' : SuperMinhash.State), m - j ≤ n → Follows s t → SuperMinhash.inner m i r' j t = .ok t' →
      ∃ s', inner fl m i r j s = .ok s' ∧ Follows s' t' := by
  induction n with
  | zero =>
      intro j s t t' hn hf h
      rw [SuperMinhash.inner] at h
      rw [inner, hf.a]
      by_cases hj : j ≤ t.a
      · rw [if_pos hj, if_neg (by omega)] at h
        cases h
      · rw [if_neg hj] at h
        rw [if_neg (by omega)]
        injection h with h
        subst h
        exact ⟨s, rfl, hf⟩
  | succ n ih =>
      intro j s t t' hn hf h
      rw [SuperMinhash.inner] at h
      rw [inner, hf.a]
      by_cases hj : j ≤ t.a
      · rw [if_pos hj] at h
        rw [if_pos (by omega)]
        by_cases hm : j < m
        · rw [if_pos hm] at h ⊢
          cases e : SuperMinhash.turn m i j (r' j) t with
          | error e' => simp [e] at h
          | ok t1 =>
              obtain ⟨s1, d1, f1⟩ := turn_follows (h0 j) (h1 j) (hr j hm) (hk j hm) hf e
              simp only [e] at h
              simp only [d1]
              exact ih (j + 1) s1 t1 t' (by omega) f1 h
        · rw [if_neg hm] at h
          cases h
      · rw [if_neg hj] at h
        rw [if_neg (by omega)]
        injection h with h
        subst h
        exact ⟨s, rfl, hf⟩

theorem outer_follows {m : Nat} {rand : Nat → Nat → ℝ} {rand' : Nat → Nat → ℚ} (h0 : ∀ t j, 0 ≤ rand' t j) (h1 : ∀ t j, rand' t j < 1)
    (tokens : List (Nat × Nat)) (hr : ∀ t ∈ tokens, ∀ j < m, ⌊fl (rand t.1 j + j)⌋ = (j : Int))
    (hk : ∀ t ∈ tokens, ∀ j < m, ⌊fl (rand t.1 j * ((m : ℝ) - j))⌋ = ⌊rand' t.1 j * ((m : ℚ) - j)⌋) :
    ∀ (s : State) (t t' : SuperMinhash.State), Follows s t → SuperMinhash.outer rand' m tokens t = .ok t' →
      ∃ s', outer fl rand m tokens s = .ok s' ∧ Follows s' t' := by
  induction tokens with
  | nil =>
      intro s t t' hf h
      rw [SuperMinhash.outer] at h
      injection h with h
      subst h
      exact ⟨s, rfl, hf⟩
  | cons token tokens ih =>
      obtain ⟨token, i⟩ := token
      intro s t t' hf h
      rw [SuperMinhash.outer] at h
      rw [outer]
      cases e : SuperMinhash.inner m i (rand' token) 0 t with
      | error e' => simp [e] at h
      | ok t1 =>
          obtain ⟨s1, d1, f1⟩ := inner_follows (h0 token) (h1 token) (hr (token, i) (by simp)) (hk (token, i) (by simp)) m 0 s t t1 (by omega) hf e
          simp only [e] at h
          simp only [d1]
          exact ih (fun t ht => hr t (by simp [ht])) (fun t ht => hk t (by simp [ht])) s1 t1 t' f1 h

theorem start_follows {m : Nat} (hm : 0 < m) : Follows (start m) (SuperMinhash.start m) := by
  refine ⟨rfl, rfl, rfl, ?_, ?_⟩
  · simp only [start, SuperMinhash.start]; omega
  · simp only [start, SuperMinhash.start, List.map_replicate]
    congr 1
    have h1 := Int.floor_intCast (R := ℝ) ((m : Int) + 1)
    have h2 := Int.floor_intCast (R := ℚ) ((m : Int) + 1)
    push_cast at h1 h2
    rw [h1, h2]

/-! ### The numbers -/

theorem random_nonneg {r : ℝ} (h : IsRandomNumber r) : 0 ≤ r := by
  obtain ⟨k, _, rfl⟩ := h
  positivity

theorem random_le {r : ℝ} (h : IsRandomNumber r) : r ≤ 1 - 1 / 2 ^ 53 := by
  obtain ⟨k, hk, rfl⟩ := h
  have : (k : ℝ) + 1 ≤ 2 ^ 53 := by exact_mod_cast hk
  rw [div_le_iff₀ (by positivity)]
  rw [sub_mul, one_mul, div_mul_cancel₀ _ (by positivity)]
  linarith

theorem rounded_product_lt (hfl : IsRounding fl) {r : ℝ} (hr : IsRandomNumber r) {n : ℝ} (hn : 1 ≤ n) : fl (r * n) < n := by
  have h0 := random_nonneg hr
  have h1 := random_le hr
  rcases lt_or_ge (r * n) ((2 : ℝ) ^ (-1022 : ℤ)) with h | h
  · have h2 := hfl.mono h.le
    rw [hfl.of_double (isDouble_zpow (by norm_num))] at h2
    have h3 : (2 : ℝ) ^ (-1022 : ℤ) < 1 := zpow_lt_one_of_neg₀ (by norm_num) (by norm_num)
    linarith
  · have h2 := (abs_le.mp (hfl.relative h)).2
    have h3 : r * n ≤ (1 - 1 / 2 ^ 53) * n := mul_le_mul_of_nonneg_right h1 (by linarith)
    have h4 : fl (r * n) ≤ (1 - 1 / 2 ^ 53) * n * (1 + 1 / 2 ^ 53) := by
      calc fl (r * n) ≤ r * n * (1 + 1 / 2 ^ 53) := by linarith
        _ ≤ _ := mul_le_mul_of_nonneg_right h3 (by positivity)
    have h5 : (1 - 1 / 2 ^ 53) * n * (1 + 1 / 2 ^ 53) = n - n / 2 ^ 106 := by ring
    rw [h5] at h4
    have h6 : 0 < n / 2 ^ 106 := by positivity
    linarith

theorem roundedDraw_lt (hfl : IsRounding fl) {r : ℝ} (hr : IsRandomNumber r) {m j : Nat} (hj : j < m) : roundedDraw fl r m j < m := by
  have h1 : (j : ℝ) + 1 ≤ m := by exact_mod_cast hj
  have h2 := rounded_product_lt hfl hr (n := (m : ℝ) - j) (by linarith)
  have h3 : ⌊fl (r * ((m : ℝ) - j))⌋ < (m : Int) - j := by
    rw [Int.floor_lt]
    push_cast
    exact h2
  unfold roundedDraw
  omega

/-- Exact numbers which draw the same positions. -/
noncomputable def alike (fl : ℝ → ℝ) (m : Nat) (rand : Nat → Nat → ℝ) (token j : Nat) : ℚ :=
  if j < m then (⌊fl (rand token j * ((m : ℝ) - j))⌋ : ℚ) / ((m : ℚ) - j) else 0

theorem alike_lawful (hfl : IsRounding fl) {m : Nat} {rand : Nat → Nat → ℝ} (hr : ∀ t j, IsRandomNumber (rand t j)) (token j : Nat) :
    0 ≤ alike fl m rand token j ∧ alike fl m rand token j < 1 := by
  unfold alike
  split
  · next hj =>
    have h1 : (j : ℝ) + 1 ≤ m := by exact_mod_cast hj
    have h1' : (j : ℚ) + 1 ≤ m := by exact_mod_cast hj
    have h2 := rounded_product_lt hfl (hr token j) (n := (m : ℝ) - j) (by linarith)
    have h3 : ⌊fl (rand token j * ((m : ℝ) - j))⌋ < (m : Int) - j := by
      rw [Int.floor_lt]
      push_cast
      exact h2
    have h4 : (0 : Int) ≤ ⌊fl (rand token j * ((m : ℝ) - j))⌋ := by
      rw [Int.floor_nonneg]
      exact hfl.nonneg (mul_nonneg (random_nonneg (hr token j)) (by linarith))
    have h3' : (⌊fl (rand token j * ((m : ℝ) - j))⌋ : ℚ) < (m : ℚ) - j := by exact_mod_cast h3
    have h4' : (0 : ℚ) ≤ (⌊fl (rand token j * ((m : ℝ) - j))⌋ : ℚ) := by exact_mod_cast h4
    refine ⟨div_nonneg h4' (by linarith), ?_⟩
    rwa [div_lt_one (by linarith)]
  · norm_num

theorem alike_floor {m : Nat} {rand : Nat → Nat → ℝ} (token : Nat) {j : Nat} (hj : j < m) :
    ⌊fl (rand token j * ((m : ℝ) - j))⌋ = ⌊alike fl m rand token j * ((m : ℚ) - j)⌋ := by
  unfold alike
  have h1' : (j : ℚ) + 1 ≤ m := by exact_mod_cast hj
  rw [if_pos hj, div_mul_cancel₀ _ (by linarith), Int.floor_intCast]

theorem drawn_alike {m : Nat} {rand : Nat → Nat → ℝ} (token : Nat) {j : Nat} (hj : j < m) :
    Spec.drawn (alike fl m rand token) m j = roundedDraw fl (rand token j) m j := by
  unfold Spec.drawn roundedDraw
  rw [alike_floor token hj]

theorem fisherYates_congr {k k' : Nat → Nat} {m n : Nat} (h : ∀ j < n, k j = k' j) : fisherYates k m n = fisherYates k' m n := by
  induction n with
  | zero => rfl
  | succ n ih =>
      simp only [fisherYates]
      rw [ih (fun j hj => h j (by omega)), h n (by omega)]

theorem floor_sum (hfl : IsRounding fl) {r : ℝ} (hr : IsRandomNumber r) {j : Nat} (hj : j ≤ 2 ^ 53) (h : fl (r + j) < j + 1) :
    ⌊fl (r + j)⌋ = (j : Int) := by
  rw [Int.floor_eq_iff]
  push_cast
  refine ⟨?_, h⟩
  have := hfl.mono (show (j : ℝ) ≤ r + j by linarith [random_nonneg hr])
  rwa [hfl.nat hj] at this

/-! ### Without any condition on the sums, nothing is raised -/

theorem itemAt_eq {b : List Int} {a : Nat} {x : Int} (h : b[a]? = some x) : itemAt b (a : Int) = .ok x := by
  unfold itemAt
  rw [if_pos (Int.natCast_nonneg a), Int.toNat_natCast, item_eq h]

/-- Nothing is above zero after `a`. -/
def Above (b : List Int) (a : Int) : Prop := ∀ (i : Nat) (x : Int), b[i]? = some x → a < (i : Int) → x ≤ 0

theorem sum_nonpos_of {b : List Int} (h : ∀ x ∈ b, x ≤ 0) : b.sum ≤ 0 := by
  induction b with
  | nil => simp
  | cons x b ih =>
      rw [List.sum_cons]
      have h1 := h x (by simp)
      have h2 := ih (fun y hy => h y (by simp [hy]))
      omega

theorem settle_total {b : List Int} (hs : 0 < b.sum) : ∀ a : Nat, a < b.length → Above b a →
    ∃ a' : Nat, settle b (a : Int) = .ok (a' : Int) ∧ a' ≤ a ∧ Above b a' := by
  intro a
  induction a with
  | zero =>
      intro hl ha
      obtain ⟨x, hx⟩ := SuperMinhash.exists_item hl
      rw [settle, if_neg (by omega), itemAt_eq hx]
      simp only
      by_cases h : x = 0
      · exfalso
        have := sum_nonpos_of (b := b) (by
          intro y hy
          obtain ⟨i, hi⟩ := List.mem_iff_getElem?.mp hy
          rcases Nat.eq_zero_or_pos i with rfl | hp
          · rw [hx] at hi; injection hi with hi; omega
          · exact ha i y hi (by exact_mod_cast hp))
        omega
      · rw [if_neg h]
        exact ⟨0, rfl, le_refl _, ha⟩
  | succ a ih =>
      intro hl ha
      obtain ⟨x, hx⟩ := SuperMinhash.exists_item hl
      rw [settle, if_neg (by omega), itemAt_eq hx]
      simp only
      by_cases h : x = 0
      · rw [if_pos h, show ((a + 1 : Nat) : Int) - 1 = (a : Int) by omega]
        obtain ⟨a', e, h1, h2⟩ := ih (by omega) (by
          intro i y hi hlt
          rcases Nat.lt_or_ge (a + 1) i with hlt' | hge
          · exact ha i y hi (by exact_mod_cast hlt')
          · have : i = a + 1 := by omega
            subst this
            rw [hx] at hi; injection hi with hi; omega)
        exact ⟨a', e, by omega, h2⟩
      · rw [if_neg h]
        exact ⟨a + 1, rfl, le_refl _, ha⟩

/-- What holds at each step. -/
structure Sane (m : Nat) (s : State) : Prop where
  lh : s.h.length = m
  lp : s.p.length = m
  lq : s.q.length = m
  lb : s.b.length = m
  p : ∀ x ∈ s.p, x < m
  h : ∀ v ∈ s.h, 0 ≤ v ∧ v ≤ (m : ℝ) + 1
  b : s.b.sum = m
  a : ∃ a : Nat, s.a = a ∧ a < m
  above : Above s.b s.a

theorem mem_set_of {β : Type} {P : β → Prop} {l : List β} (h : ∀ x ∈ l, P x) {i : Nat} {y : β} (hy : P y) : ∀ x ∈ l.set i y, P x := by
  intro x hx
  rcases List.mem_or_eq_of_mem_set hx with hx | rfl
  · exact h x hx
  · exact hy

theorem refresh_total {m i j : Nat} {s : State} (hs : Sane m s) (hj : j < m) : ∃ s', refresh i j s = .ok s' ∧ Sane m s' ∧ s'.a = s.a := by
  obtain ⟨x, hx⟩ := SuperMinhash.exists_item (l := s.q) (i := j) (by rw [hs.lq]; exact hj)
  unfold refresh
  rw [item_eq hx]
  simp only
  split
  · exact ⟨_, rfl, ⟨hs.lh, by simp [hs.lp], by simp [hs.lq], hs.lb, mem_set_of hs.p hj, hs.h, hs.b, hs.a, hs.above⟩, rfl⟩
  · exact ⟨s, rfl, hs, rfl⟩

theorem sum_set_of {b : List Int} {i : Nat} {x y : Int} (h : b[i]? = some x) : (b.set i y).sum = b.sum - x + y := by
  induction b generalizing i with
  | nil => simp at h
  | cons z b ih =>
      cases i with
      | zero =>
          simp at h
          subst h
          simp only [List.set_cons_zero, List.sum_cons]
          omega
      | succ i =>
          simp only [List.getElem?_cons_succ] at h
          simp only [List.set_cons_succ, List.sum_cons, ih h]
          omega

theorem improve_total {m j pos : Nat} {r : ℝ} (hj : j < m) (hpos : pos < m) (h0 : 0 ≤ fl (r + j)) {s : State} (hs : Sane m s)
    (hja : (j : Int) ≤ s.a) : ∃ s', improve fl m j pos r s = .ok s' ∧ Sane m s' := by
  obtain ⟨v, hv⟩ := SuperMinhash.exists_item (l := s.h) (i := pos) (by rw [hs.lh]; exact hpos)
  unfold improve
  rw [item_eq hv]
  simp only
  split
  · next hlt =>
    have hh : ∀ w ∈ s.h.set pos (fl (r + j)), 0 ≤ w ∧ w ≤ (m : ℝ) + 1 :=
      mem_set_of hs.h ⟨h0, hlt.le.trans (hs.h v (List.mem_of_getElem? hv)).2⟩
    split
    · next hj2 =>
      generalize he : min ⌊v⌋.toNat (m - 1) = j2 at hj2 ⊢
      have hl2 : j2 < m := by omega
      obtain ⟨x, hx⟩ := SuperMinhash.exists_item (l := s.b) (i := j2) (by rw [hs.lb]; exact hl2)
      rw [item_eq hx]
      simp only
      obtain ⟨y, hy⟩ := SuperMinhash.exists_item (l := s.b.set j2 (x - 1)) (i := j) (by rw [List.length_set, hs.lb]; exact hj)
      rw [item_eq hy]
      simp only
      have hsum : ((s.b.set j2 (x - 1)).set j (y + 1)).sum = m := by
        rw [sum_set_of hy, sum_set_of hx, hs.b]
        omega
      have hab : Above ((s.b.set j2 (x - 1)).set j (y + 1)) s.a := by
        intro i z hz hi
        rw [List.getElem?_set_ne (by omega), List.getElem?_set] at hz
        split at hz
        · next e =>
          subst e
          split at hz
          · injection hz with hz
            have := hs.above _ _ hx hi
            omega
          · cases hz
        · exact hs.above _ _ hz hi
      obtain ⟨a, ea, hal⟩ := hs.a
      rw [ea] at hab ⊢
      obtain ⟨a', e', hle, hab'⟩ := settle_total (by rw [hsum]; omega) a (by simp [hs.lb]; exact hal) hab
      rw [e']
      exact ⟨_, rfl, ⟨by simp [hs.lh], hs.lp, hs.lq, by simp [hs.lb], hs.p, hh, hsum, ⟨a', rfl, by omega⟩, hab'⟩⟩
    · exact ⟨_, rfl, ⟨by simp [hs.lh], hs.lp, hs.lq, hs.lb, hs.p, hh, hs.b, hs.a, hs.above⟩⟩
  · exact ⟨s, rfl, hs⟩

theorem turn_total {m i j : Nat} {r : ℝ} (hj : j < m) (hk : roundedDraw fl r m j < m) (h0 : 0 ≤ fl (r + j)) {s : State} (hs : Sane m s)
    (hja : (j : Int) ≤ s.a) : ∃ s', turn fl m i j r s = .ok s' ∧ Sane m s' := by
  unfold roundedDraw at hk
  unfold turn
  generalize j + ⌊fl (r * ((m : ℝ) - j))⌋.toNat = k at *
  obtain ⟨s1, e1, h1, a1⟩ := refresh_total (i := i) hs hj
  obtain ⟨s2, e2, h2, a2⟩ := refresh_total (i := i) h1 hk
  simp only [e1, e2]
  obtain ⟨tmp, ht⟩ := SuperMinhash.exists_item (l := s2.p) (i := j) (by rw [h2.lp]; exact hj)
  obtain ⟨x, hx⟩ := SuperMinhash.exists_item (l := s2.p) (i := k) (by rw [h2.lp]; exact hk)
  obtain ⟨pos, hp⟩ := SuperMinhash.exists_item (l := (s2.p.set j x).set k tmp) (i := j) (by simp [h2.lp]; exact hj)
  rw [item_eq ht]
  simp only
  rw [item_eq hx]
  simp only
  rw [item_eq hp]
  simp only
  have hlt : ∀ y ∈ (s2.p.set j x).set k tmp, y < m :=
    mem_set_of (mem_set_of h2.p (h2.p x (List.mem_of_getElem? hx))) (h2.p tmp (List.mem_of_getElem? ht))
  exact improve_total hj (hlt pos (List.mem_of_getElem? hp)) h0
    (s := { s2 with p := (s2.p.set j x).set k tmp }) ⟨h2.lh, by simp [h2.lp], h2.lq, h2.lb, hlt, h2.h, h2.b, h2.a, h2.above⟩ (by
      show (j : Int) ≤ s2.a
      rw [a2, a1]; exact hja)

theorem inner_total {m i : Nat} {r : Nat → ℝ} (hk : ∀ j < m, roundedDraw fl (r j) m j < m) (h0 : ∀ j < m, 0 ≤ fl (r j + j)) (n : Nat) :
    ∀ (j : Nat) (s : State), m - j ≤ n → Sane m s → ∃ s', inner fl m i r j s = .ok s' ∧ Sane m s' := by
  induction n with
  | zero =>
      intro j s hn hs
      obtain ⟨a, ea, ha⟩ := hs.a
      rw [inner, if_neg (by omega)]
      exact ⟨s, rfl, hs⟩
  | succ n ih =>
      intro j s hn hs
      rw [inner]
      by_cases hj : (j : Int) ≤ s.a
      · obtain ⟨a, ea, ha⟩ := hs.a
        have hm : j < m := by omega
        obtain ⟨s1, e1, h1⟩ := turn_total (i := i) hm (hk j hm) (h0 j hm) hs hj
        rw [if_pos hj, if_pos hm, e1]
        exact ih (j + 1) s1 (by omega) h1
      · rw [if_neg hj]
        exact ⟨s, rfl, hs⟩

theorem outer_total {m : Nat} {rand : Nat → Nat → ℝ} (hk : ∀ t, ∀ j < m, roundedDraw fl (rand t j) m j < m)
    (h0 : ∀ t, ∀ j < m, 0 ≤ fl (rand t j + j)) (tokens : List (Nat × Nat)) :
    ∀ s : State, Sane m s → ∃ s', outer fl rand m tokens s = .ok s' ∧ Sane m s' := by
  induction tokens with
  | nil => exact fun s hs => ⟨s, rfl, hs⟩
  | cons token tokens ih =>
      obtain ⟨token, i⟩ := token
      intro s hs
      obtain ⟨s1, e1, h1⟩ := inner_total (i := i) (hk token) (h0 token) m 0 s (by omega) hs
      rw [outer, e1]
      exact ih s1 h1

theorem start_sane {m : Nat} (hm : 0 < m) : Sane m (start m) := by
  have h0 : (List.replicate m (0 : Int))[m - 1]? = some 0 := by
    rw [List.getElem?_replicate, if_pos (by omega)]
  refine ⟨by simp [start], by simp [start], by simp [start], by simp [start], ?_, ?_, ?_, ⟨m - 1, by simp only [start]; omega, by omega⟩, ?_⟩
  · intro x hx
    rw [List.eq_of_mem_replicate hx]
    exact hm
  · intro v hv
    rw [List.eq_of_mem_replicate hv]
    exact ⟨by positivity, le_refl _⟩
  · show ((List.replicate m (0 : Int)).set (m - 1) (m : Int)).sum = m
    rw [sum_set_of h0]
    simp
  · intro i x hx hi
    have := (List.getElem?_eq_some_iff.mp hx).1
    simp only [start, List.length_set, List.length_replicate] at this hi
    omega

end Fog.SuperMinhashFloat
