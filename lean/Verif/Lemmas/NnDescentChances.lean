import Verif.Lemmas.NnDescent
import Verif.Lemmas.QuickjoinChances
import Mathlib.Algebra.BigOperators.Intervals

/-!
# How long the initial samples of `nn_descent` take when the indices are drawn
-/

namespace Fog.NnDescent

open Fog.Spec

variable {α K F : Type} [LinearOrder K]

/-- The indices whose neighbors are to be drawn, and what was drawn for the first of them. -/
abbrev Drawing := List Nat × List Nat

/-- What a draw changes (nn_descent.py l. 32-41, 116-120). -/
def drawOnce (k : Nat) : Drawing → Nat → Drawing
  | ([], S), _ => ([], S)
  | (i :: is, S), j =>
      let S' := if j = i ∨ j ∈ S then S else S ++ [j]
      if S'.length < k then (i :: is, S') else (is, [])

/-- After `s` draws. -/
def after (draws : Nat → Nat) (N k : Nat) : Nat → Nat → Drawing → Drawing
  | 0, _, st => st
  | s + 1, t, st => after draws N k s (t + 1) (drawOnce k st (draws t % N))

/-- The draws used among the next `s` ones. -/
def used (draws : Nat → Nat) (N k : Nat) : Nat → Nat → Drawing → Nat
  | 0, _, _ => 0
  | s + 1, t, st => (if st.1 = [] then 0 else 1) + used draws N k s (t + 1) (drawOnce k st (draws t % N))

/-- The mean number of draws until a sample of `m` items has `k` ones. -/
noncomputable def toGo (N k m : Nat) : ℝ := ∑ x ∈ Finset.Ico m k, (N : ℝ) / (N - 1 - x)

/-- The mean number of draws until all samples are over. -/
noncomputable def meanDraws (N k : Nat) : Drawing → ℝ
  | ([], _) => 0
  | (_ :: is, S) => toGo N k S.length + is.length * toGo N k 0

/-- The indices are below `N`, and the sample has not all its items. -/
def Sound (N k : Nat) (st : Drawing) : Prop :=
  (∀ i ∈ st.1, i < N) ∧ ∀ i ∈ st.1.head?, Drawn N i st.2 ∧ st.2.length < k

theorem drawn_nil (N i : Nat) : Drawn N i [] := ⟨List.nodup_nil, by simp⟩

theorem drawOnce_sound {N k : Nat} (hk : 0 < k) {st : Drawing} (h : Sound N k st) {j : Nat} (hj : j < N) : Sound N k (drawOnce k st j) := by
  match st with
  | ([], S) => exact h
  | (i :: is, S) =>
      obtain ⟨h1, h2⟩ := h
      obtain ⟨hS, hl⟩ := h2 i (by simp)
      have hS' : Drawn N i (if j = i ∨ j ∈ S then S else S ++ [j]) := by
        by_cases hji : j = i
        · rw [if_pos (Or.inl hji)]; exact hS
        · have := hS.add hj hji
          by_cases hm : j ∈ S
          · rw [if_pos (Or.inr hm)]; exact hS
          · rw [if_neg (by simp [hji, hm])]; rwa [if_neg hm] at this
      simp only [drawOnce]
      generalize (if j = i ∨ j ∈ S then S else S ++ [j]) = S' at hS' ⊢
      split
      · next hlt => exact ⟨h1, fun i' hi' => by
          simp only [List.head?_cons, Option.mem_def, Option.some.injEq] at hi'
          subst hi'
          exact ⟨hS', hlt⟩⟩
      · exact ⟨fun x hx => h1 x (by simp [show x ∈ is from hx]), fun i' hi' => ⟨drawn_nil N i', by simpa using hk⟩⟩

theorem toGo_nonneg {N k : Nat} (hk : k < N) (m : Nat) : 0 ≤ toGo N k m := by
  unfold toGo
  apply Finset.sum_nonneg
  intro x hx
  rw [Finset.mem_Ico] at hx
  apply div_nonneg (by positivity)
  have : (x : ℝ) + 1 ≤ N := by exact_mod_cast (show x + 1 ≤ N by omega)
  linarith

theorem meanDraws_nonneg {N k : Nat} (hk : k < N) (st : Drawing) : 0 ≤ meanDraws N k st := by
  match st with
  | ([], S) => exact le_refl _
  | (i :: is, S) =>
      have h1 := toGo_nonneg hk S.length
      have h2 := toGo_nonneg hk 0
      simp only [meanDraws]
      positivity

theorem toGo_step {N k m : Nat} (h : m < k) : toGo N k m = (N : ℝ) / (N - 1 - m) + toGo N k (m + 1) := by
  unfold toGo
  rw [Finset.sum_eq_sum_Ico_succ_bot h]

theorem toGo_last {N k : Nat} : toGo N k k = 0 := by
  unfold toGo
  simp

/-- A draw which is new brings the end nearer by what its item takes in the mean. -/
theorem meanDraws_next {N k : Nat} (i : Nat) (is S : List Nat) (hl : S.length < k) (j : Nat) :
    meanDraws N k (drawOnce k (i :: is, S) j) =
      meanDraws N k (i :: is, S) - if j = i ∨ j ∈ S then 0 else (N : ℝ) / (N - 1 - S.length) := by
  simp only [drawOnce]
  by_cases h : j = i ∨ j ∈ S
  · rw [if_pos h, if_pos h, if_pos hl]; ring
  · rw [if_neg h, if_neg h]
    simp only [List.length_append, List.length_singleton]
    by_cases h' : S.length + 1 < k
    · rw [if_pos h']
      simp only [meanDraws, List.length_append, List.length_singleton]
      rw [toGo_step hl]
      ring
    · rw [if_neg h']
      have hk : k = S.length + 1 := by omega
      have h0 : meanDraws N k (is, []) = is.length * toGo N k 0 := by
        cases is with
        | nil => simp [meanDraws]
        | cons a l => simp only [meanDraws, List.length_nil, List.length_cons]; push_cast; ring
      rw [h0]
      simp only [meanDraws]
      rw [toGo_step hl, ← hk, toGo_last]
      ring

/-- As many draws are new as there are indices which are not those of the sample. -/
theorem share_new {N i : Nat} (hi : i < N) {S : List Nat} (hS : Drawn N i S) :
    average (fun j : Fin N => if j.val = i ∨ j.val ∈ S then (0 : ℝ) else 1) = (N - 1 - S.length) / N := by
  classical
  have hnd : (i :: S).Nodup := List.nodup_cons.mpr ⟨fun h => (hS.2 i h).2 rfl, hS.1⟩
  have hcard : ((Finset.univ : Finset (Fin N)).filter fun j => j.val = i ∨ j.val ∈ S).card = S.length + 1 := by
    have : ((Finset.univ : Finset (Fin N)).filter fun j => j.val = i ∨ j.val ∈ S).image Fin.val = (i :: S).toFinset := by
      ext x
      simp only [Finset.mem_image, Finset.mem_filter, Finset.mem_univ, true_and, List.mem_toFinset, List.mem_cons]
      constructor
      · rintro ⟨j, hj, rfl⟩; exact hj
      · intro hx
        have hxN : x < N := by
          rcases hx with rfl | hx
          · exact hi
          · exact (hS.2 x hx).1
        exact ⟨⟨x, hxN⟩, hx, rfl⟩
    rw [← Finset.card_image_of_injective _ Fin.val_injective, this, List.toFinset_card_of_nodup hnd, List.length_cons]
  unfold average
  rw [Fintype.card_fin]
  congr 1
  have hsum : ∑ j : Fin N, (if j.val = i ∨ j.val ∈ S then (0 : ℝ) else 1) =
      ∑ j : Fin N, (1 - if j.val = i ∨ j.val ∈ S then (1 : ℝ) else 0) := by
    apply Finset.sum_congr rfl
    intro j _
    split <;> simp
  rw [hsum, Finset.sum_sub_distrib, Finset.sum_boole, hcard]
  simp
  ring

/-- One draw in the mean brings the end nearer by one draw. -/
theorem average_once {N k : Nat} (hk : k < N) {st : Drawing} (h : Sound N k st) :
    average (fun j : Fin N => meanDraws N k (drawOnce k st j.val)) = meanDraws N k st - if st.1 = [] then 0 else 1 := by
  have : Nonempty (Fin N) := ⟨⟨0, by omega⟩⟩
  match st with
  | ([], S) => simp only [drawOnce]; rw [average_const]; simp
  | (i :: is, S) =>
      obtain ⟨hS, hl⟩ := h.2 i (by simp)
      have hi := h.1 i (by simp)
      simp only [meanDraws_next i is S hl]
      rw [Fog.LeastRank.average_sub, average_const, if_neg (by simp)]
      congr 1
      have hpos : (0 : ℝ) < N - 1 - S.length := by
        simp only at hl
        have : (S.length : ℝ) + 2 ≤ N := by exact_mod_cast (show S.length + 2 ≤ N by omega)
        linarith
      have hN : (0 : ℝ) < N := by exact_mod_cast (show 0 < N by omega)
      have : (fun j : Fin N => if j.val = i ∨ j.val ∈ S then (0 : ℝ) else (N : ℝ) / (N - 1 - S.length)) =
          fun j : Fin N => (N : ℝ) / (N - 1 - S.length) * if j.val = i ∨ j.val ∈ S then (0 : ℝ) else 1 := by
        funext j
        split <;> simp
      rw [this, average_mul, share_new hi hS]
      field_simp

/-- `s` draws, then whatever comes. -/
def stream {N s : Nat} (o : Fin s → Fin N) (rest : Nat → Nat) : Nat → Nat := fun t => if h : t < s then (o ⟨t, h⟩).val else rest t

theorem after_shift (draws : Nat → Nat) (N k : Nat) : ∀ (s t : Nat) (st : Drawing),
    after draws N k s (t + 1) st = after (fun t => draws (t + 1)) N k s t st := by
  intro s
  induction s with
  | zero => intro t st; rfl
  | succ s ih => intro t st; simp only [after]; rw [ih]

theorem used_shift (draws : Nat → Nat) (N k : Nat) : ∀ (s t : Nat) (st : Drawing),
    used draws N k s (t + 1) st = used (fun t => draws (t + 1)) N k s t st := by
  intro s
  induction s with
  | zero => intro t st; rfl
  | succ s ih => intro t st; simp only [used]; rw [ih]

theorem stream_cons {N s : Nat} (j : Fin N) (o : Fin s → Fin N) (rest : Nat → Nat) :
    (fun t => stream (Fin.cons j o : Fin (s + 1) → Fin N) rest (t + 1)) = stream o fun t => rest (t + 1) := by
  funext t
  unfold stream
  by_cases h : t < s
  · rw [dif_pos h, dif_pos (by omega)]
    rfl
  · rw [dif_neg h, dif_neg (by omega)]

theorem stream_zero {N s : Nat} (j : Fin N) (o : Fin s → Fin N) (rest : Nat → Nat) :
    stream (Fin.cons j o : Fin (s + 1) → Fin N) rest 0 % N = j.val := by
  unfold stream
  rw [dif_pos (by omega)]
  exact Nat.mod_eq_of_lt j.isLt

/-- The draws used and those to come make the mean number of draws, whatever the number of those seen. -/
theorem average_used {N k : Nat} (hk0 : 0 < k) (hk : k < N) : ∀ (s : Nat) (rest : Nat → Nat) (st : Drawing), Sound N k st →
    average (fun o : Fin s → Fin N => (used (stream o rest) N k s 0 st : ℝ)) +
      average (fun o : Fin s → Fin N => meanDraws N k (after (stream o rest) N k s 0 st)) = meanDraws N k st := by
  have : Nonempty (Fin N) := ⟨⟨0, by omega⟩⟩
  intro s
  induction s with
  | zero =>
      intro rest st _
      simp only [used, after]
      rw [average_const, average_const]
      simp
  | succ s ih =>
      intro rest st hst
      rw [average_cons, average_cons]
      simp only [used, after, used_shift, after_shift, stream_cons, stream_zero, Nat.cast_add]
      have h1 : ∀ j : Fin N, average (fun o : Fin s → Fin N =>
          (((if st.1 = [] then 0 else 1 : Nat) : ℝ) + (used (stream o fun t => rest (t + 1)) N k s 0 (drawOnce k st j.val) : ℝ))) =
          ((if st.1 = [] then 0 else 1 : Nat) : ℝ) +
            average (fun o : Fin s → Fin N => (used (stream o fun t => rest (t + 1)) N k s 0 (drawOnce k st j.val) : ℝ)) := by
        intro j
        rw [average_add, average_const]
      simp only [h1]
      rw [average_add, average_const, add_assoc, ← average_add]
      simp only [fun j : Fin N => ih (fun t => rest (t + 1)) _ (drawOnce_sound hk0 hst j.isLt)]
      rw [average_once hk hst]
      split <;> simp

theorem after_over (draws : Nat → Nat) (N k : Nat) : ∀ (s t : Nat) (st : Drawing), st.1 = [] → after draws N k s t st = st := by
  intro s
  induction s with
  | zero => intro t st _; rfl
  | succ s ih =>
      rintro t ⟨is, S⟩ h
      simp only at h
      subst h
      simp only [after, drawOnce]
      exact ih _ _ rfl

/-- When it is not over, all draws were used. -/
theorem used_all (draws : Nat → Nat) (N k : Nat) : ∀ (s t : Nat) (st : Drawing), (after draws N k s t st).1 ≠ [] →
    used draws N k s t st = s := by
  intro s
  induction s with
  | zero => intro t st _; rfl
  | succ s ih =>
      intro t st h
      have hne : st.1 ≠ [] := by
        intro h0
        rw [after_over _ _ _ _ _ _ h0] at h
        exact h h0
      simp only [after] at h
      simp only [used, if_neg hne]
      rw [ih _ _ h]
      omega

/-- `sample` ends by the time the drawing is over. -/
theorem sample_after {draws : Nat → Nat} {N k i : Nat} (hN : 0 < N) (is : List Nat) : ∀ (s t : Nat) (S : List Nat), S.length < k →
    (after draws N k s t (i :: is, S)).1 = [] →
    ∃ u S', u ≤ s ∧ sample draws N k i (s + 1) t S = some (S', t + u) ∧ (after draws N k (s - u) (t + u) (is, [])).1 = [] := by
  intro s
  induction s with
  | zero => intro t S _ h; simp [after] at h
  | succ s ih =>
      intro t S hl h
      simp only [after, drawOnce] at h
      rw [sample, if_pos hl]
      simp only
      rw [randint_zero draws t hN]
      generalize draws t % N = j at h ⊢
      have hS' : (if j = i then sample draws N k i (s + 1) (t + 1) S
          else sample draws N k i (s + 1) (t + 1) (if j ∈ S then S else S ++ [j])) =
          sample draws N k i (s + 1) (t + 1) (if j = i ∨ j ∈ S then S else S ++ [j]) := by
        by_cases hji : j = i
        · rw [if_pos hji, if_pos (Or.inl hji)]
        · rw [if_neg hji]
          congr 1
          by_cases hm : j ∈ S
          · rw [if_pos hm, if_pos (Or.inr hm)]
          · rw [if_neg hm, if_neg (by simp [hji, hm])]
      rw [hS']
      generalize (if j = i ∨ j ∈ S then S else S ++ [j]) = S' at h ⊢
      by_cases hl' : S'.length < k
      · rw [if_pos hl'] at h
        obtain ⟨u, S'', hu, h1, h2⟩ := ih (t + 1) S' hl' h
        refine ⟨u + 1, S'', by omega, ?_, ?_⟩
        · rw [h1]; congr 2; omega
        · rw [show s + 1 - (u + 1) = s - u by omega, show t + (u + 1) = t + 1 + u by omega]; exact h2
      · rw [if_neg hl'] at h
        refine ⟨1, S', by omega, ?_, ?_⟩
        · rw [sample, if_neg hl']
        · exact h

/-- The initial samples are made by the time the drawing is over. -/
theorem initial_after {heapq : Heapq (Neighbor K F)} (hq : Lawful heapq) {setOrd : List Nat → List Nat} (hset : ∀ l, (setOrd l).Perm l)
    {draws : Nat → Nat} {V : List α} (similarity : α → α → K) (flag : F) {k : Nat} :
    ∀ (is : List Nat) (s t : Nat), (∀ i ∈ is, i < V.length) → (k = 0 ∨ (after draws V.length k s t (is, [])).1 = []) →
    ∃ x, initial heapq setOrd draws V similarity flag k (s + 1) is t = .ok (some x) := by
  intro is
  induction is with
  | nil => intro s t _ _; exact ⟨([], t), rfl⟩
  | cons i is ih =>
      intro s t his h
      have hsample : ∃ u S', u ≤ s ∧ sample draws V.length k i (s + 1) t [] = some (S', t + u) ∧
          (k = 0 ∨ (after draws V.length k (s - u) (t + u) (is, [])).1 = []) := by
        by_cases hk : k = 0
        · exact ⟨0, [], by omega, by rw [sample, if_neg (by simp [hk])]; rfl, Or.inl hk⟩
        · rcases h with h | h
          · exact absurd h hk
          · obtain ⟨u, S', h1, h2, h3⟩ := sample_after (Nat.zero_lt_of_lt (his i (by simp))) is s t [] (by simpa using Nat.pos_of_ne_zero hk) h
            exact ⟨u, S', h1, h2, Or.inr h3⟩
      obtain ⟨u, S, hu, hs, h'⟩ := hsample
      obtain ⟨x, hx⟩ := ih (s - u) (t + u) (fun j hj => his j (by simp [hj])) h'
      have hx := initial_mono (show s - u + 1 ≤ s + 1 by omega) hx
      have := initial_spec hq hset (P := fun _ => True) (fun _ => trivial) (draws := draws) (similarity := similarity) (flag := flag) (k := k)
        (fuel := s + 1) (t := t) his
      rcases this with h | ⟨B, t', h, _⟩
      · exfalso
        rw [initial, hs] at h
        simp only [bind, Except.bind, hx] at h
        split at h
        · simp at h
        · simp [pure, Except.pure] at h
      · exact ⟨_, h⟩

theorem used_over (draws : Nat → Nat) (N k : Nat) : ∀ (s t : Nat) (S : List Nat), used draws N k s t ([], S) = 0 := by
  intro s
  induction s with
  | zero => intro t S; rfl
  | succ s ih => intro t S; simp only [used, drawOnce, ih]; rfl

/-- Where `sample` leaves the generator tells how many draws it used. -/
theorem sample_used {draws : Nat → Nat} {N k i : Nat} (hN : 0 < N) (is : List Nat) : ∀ (fuel t : Nat) (S S' : List Nat) (t' : Nat),
    S.length < k → sample draws N k i fuel t S = some (S', t') →
    t < t' ∧ ∀ s, used draws N k s t (i :: is, S) = if s ≤ t' - t then s else t' - t + used draws N k (s - (t' - t)) t' (is, []) := by
  intro fuel
  induction fuel with
  | zero => intro t S S' t' _ h; simp [sample] at h
  | succ fuel ih =>
      intro t S S' t' hl h
      rw [sample, if_pos hl] at h
      simp only at h
      rw [randint_zero draws t hN] at h
      have hS' : (if draws t % N = i then sample draws N k i fuel (t + 1) S
          else sample draws N k i fuel (t + 1) (if draws t % N ∈ S then S else S ++ [draws t % N])) =
          sample draws N k i fuel (t + 1) (if draws t % N = i ∨ draws t % N ∈ S then S else S ++ [draws t % N]) := by
        by_cases hji : draws t % N = i
        · rw [if_pos hji, if_pos (Or.inl hji)]
        · rw [if_neg hji]
          congr 1
          by_cases hm : draws t % N ∈ S
          · rw [if_pos hm, if_pos (Or.inr hm)]
          · rw [if_neg hm, if_neg (by simp [hji, hm])]
      rw [hS'] at h
      have hstep : ∀ s, used draws N k (s + 1) t (i :: is, S) = 1 + used draws N k s (t + 1)
          (if (if draws t % N = i ∨ draws t % N ∈ S then S else S ++ [draws t % N]).length < k
            then (i :: is, if draws t % N = i ∨ draws t % N ∈ S then S else S ++ [draws t % N]) else (is, [])) := by
        intro s
        simp only [used, drawOnce]
        rw [if_neg (by simp)]
      generalize (if draws t % N = i ∨ draws t % N ∈ S then S else S ++ [draws t % N]) = S1 at h hstep
      by_cases hl' : S1.length < k
      · obtain ⟨h1, h2⟩ := ih (t + 1) S1 S' t' hl' h
        refine ⟨by omega, fun s => ?_⟩
        cases s with
        | zero => simp [used]
        | succ s =>
            rw [hstep, if_pos hl', h2]
            by_cases hs : s ≤ t' - (t + 1)
            · rw [if_pos hs, if_pos (by omega)]; omega
            · rw [if_neg hs, if_neg (by omega), show s + 1 - (t' - t) = s - (t' - (t + 1)) by omega]; omega
      · have ht : t' = t + 1 := by
          cases fuel with
          | zero => simp [sample] at h
          | succ fuel =>
              rw [sample, if_neg hl'] at h
              injection h with h
              injection h with _ h
              exact h.symm
        subst ht
        refine ⟨by omega, fun s => ?_⟩
        cases s with
        | zero => simp [used]
        | succ s =>
            rw [hstep, if_neg hl', show t + 1 - t = 1 by omega]
            by_cases hs : s = 0
            · subst hs; simp [used]
            · rw [if_neg (by omega), Nat.add_sub_cancel]

/-- Where the initial samples leave the generator tells how many draws they used. -/
theorem initial_used {heapq : Heapq (Neighbor K F)} {setOrd : List Nat → List Nat} {draws : Nat → Nat} {V : List α} (hV : 0 < V.length)
    {similarity : α → α → K} {flag : F} {k : Nat} (hk : 0 < k) {fuel : Nat} :
    ∀ (is : List Nat) (t : Nat) (B : List (List (Neighbor K F))) (t' : Nat),
    initial heapq setOrd draws V similarity flag k fuel is t = .ok (some (B, t')) →
    t ≤ t' ∧ ∀ s, used draws V.length k s t (is, []) = min s (t' - t) := by
  intro is
  induction is with
  | nil =>
      intro t B t' h
      rw [initial] at h
      injection h with h
      injection h with h
      injection h with _ h
      subst h
      exact ⟨le_refl _, fun s => by rw [used_over]; omega⟩
  | cons i is ih =>
      intro t B t' h
      rw [initial] at h
      cases hs : sample draws V.length k i fuel t [] with
      | none => rw [hs] at h; simp at h
      | some x =>
          obtain ⟨S, t1⟩ := x
          rw [hs] at h
          simp only [bind, Except.bind] at h
          split at h
          · simp at h
          · split at h
            · simp at h
            · next r hr =>
                cases r with
                | none => simp [pure, Except.pure] at h
                | some r =>
                    obtain ⟨B1, t2⟩ := r
                    simp only [pure, Except.pure] at h
                    injection h with h
                    injection h with h
                    injection h with _ h
                    subst h
                    obtain ⟨h1, h2⟩ := ih t1 B1 t2 hr
                    obtain ⟨h3, h4⟩ := sample_used hV is fuel t [] S t1 (by simpa using hk) hs
                    refine ⟨by omega, fun s => ?_⟩
                    rw [h4, h2]
                    split <;> omega

end Fog.NnDescent
