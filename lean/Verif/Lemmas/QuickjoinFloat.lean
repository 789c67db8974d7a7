import Verif.Model.QuickjoinFloat
import Verif.Lemmas.Quickjoin
import Verif.Lemmas.Binary64

/-!
# Lemmas about quickjoin in double precision
-/

namespace Fog.QuickjoinFloat

open Fog.Spec Fog.ClusteringUtils Fog.Quickjoin

variable {α : Type _} {fl : ℝ → ℝ}

theorem rounded_le (hfl : IsRounding fl) {x d : ℝ} (hd : IsDouble d) (h : x ≤ d) : fl x ≤ d := by
  have := hfl.mono h
  rwa [hfl.of_double hd] at this

theorem le_rounded (hfl : IsRounding fl) {x d : ℝ} (hd : IsDouble d) (h : d ≤ x) : d ≤ fl x := by
  have := hfl.mono h
  rwa [hfl.of_double hd] at this

theorem partition_eq (distance : α → α → ℝ) (p : α) (radius rho : ℝ) (S : List α) :
    partition fl distance p radius rho S =
      ⟨S.filter fun x => decide (distance p x < rho), S.filter fun x => !decide (distance p x < rho),
        S.filter fun x => decide (distance p x < rho) && decide (fl (rho - radius) ≤ distance p x),
        S.filter fun x => !decide (distance p x < rho) && decide (distance p x ≤ fl (rho + radius))⟩ := by
  induction S with
  | nil => rfl
  | cons x S ih =>
      simp only [partition, ih]
      by_cases h : distance p x < rho <;> by_cases h1 : fl (rho - radius) ≤ distance p x <;>
        by_cases h2 : distance p x ≤ fl (rho + radius) <;> simp [h, h1, h2]

/-- Splitting a block in two and joining the windows loses no pair of close items, and invents none. -/
theorem covers_self (hfl : IsRounding fl) {distance : α → α → ℝ} (hdd : ∀ a b, IsDouble (distance a b)) (hs : ∀ a b, distance a b = distance b a)
    (ht : ∀ a b c, distance a c ≤ distance a b + distance b c) (p : α) (radius rho : ℝ) (S : List α) {a b : α}
    (h : distance a b ≤ radius) :
    let P := partition fl distance p radius rho S
    Covers (S, none) a b ↔ Covers (P.Lw, some P.Gw) a b ∨ Covers (P.L, none) a b ∨ Covers (P.G, none) a b := by
  intro P
  simp only [P, partition_eq, Covers, twoItems_filter, List.mem_filter]
  have h1 := ht p a b
  have h2 := ht p b a
  have h3 := hs a b
  constructor
  · intro hab
    obtain ⟨ha, hb⟩ := hab.mem
    by_cases ha' : distance p a < rho <;> by_cases hb' : distance p b < rho
    · exact Or.inr (Or.inl ⟨hab, by simpa using ha', by simpa using hb'⟩)
    · left; left
      have h4 : fl (rho - radius) ≤ distance p a := rounded_le hfl (hdd _ _) (by linarith [not_lt.mp hb'])
      have h5 : distance p b ≤ fl (rho + radius) := le_rounded hfl (hdd _ _) (by linarith)
      simp [ha, hb, ha', hb', h4, h5]
    · left; right
      have h4 : fl (rho - radius) ≤ distance p b := rounded_le hfl (hdd _ _) (by linarith [not_lt.mp ha'])
      have h5 : distance p a ≤ fl (rho + radius) := le_rounded hfl (hdd _ _) (by linarith)
      simp [ha, hb, ha', hb', h4, h5]
    · exact Or.inr (Or.inr ⟨hab, by simpa using ha', by simpa using hb'⟩)
  · rintro ((⟨⟨ha, ha'⟩, hb, hb'⟩ | ⟨⟨hb, hb'⟩, ha, ha'⟩) | ⟨hab, _⟩ | ⟨hab, _⟩)
    · refine twoItems_of_ne ha hb ?_
      rintro rfl; simp at ha' hb'; linarith [ha'.1, hb'.1]
    · refine twoItems_of_ne ha hb ?_
      rintro rfl; simp at ha' hb'; linarith [ha'.1, hb'.1]
    · exact hab
    · exact hab

/-- The same for two lists. -/
theorem covers_win (hfl : IsRounding fl) {distance : α → α → ℝ} (hdd : ∀ a b, IsDouble (distance a b)) (hs : ∀ a b, distance a b = distance b a)
    (ht : ∀ a b c, distance a c ≤ distance a b + distance b c) (p : α) (radius rho : ℝ) (S1 S2 : List α) {a b : α}
    (h : distance a b ≤ radius) :
    let P1 := partition fl distance p radius rho S1
    let P2 := partition fl distance p radius rho S2
    Covers (S1, some S2) a b ↔ Covers (P1.Gw, some P2.Lw) a b ∨ Covers (P1.Lw, some P2.Gw) a b ∨
      Covers (P1.G, some P2.G) a b ∨ Covers (P1.L, some P2.L) a b := by
  intro P1 P2
  simp only [P1, P2, partition_eq, Covers, List.mem_filter]
  have h1 := ht p a b
  have h2 := ht p b a
  have h3 := hs a b
  have key : (distance p a < rho ∧ distance p b < rho) ∨ (¬ distance p a < rho ∧ ¬ distance p b < rho) ∨
      (distance p a < rho ∧ ¬ distance p b < rho ∧ fl (rho - radius) ≤ distance p a ∧ distance p b ≤ fl (rho + radius)) ∨
      (¬ distance p a < rho ∧ distance p b < rho ∧ fl (rho - radius) ≤ distance p b ∧ distance p a ≤ fl (rho + radius)) := by
    by_cases ha' : distance p a < rho <;> by_cases hb' : distance p b < rho
    · exact Or.inl ⟨ha', hb'⟩
    · exact Or.inr (Or.inr (Or.inl ⟨ha', hb', rounded_le hfl (hdd _ _) (by linarith [not_lt.mp hb']), le_rounded hfl (hdd _ _) (by linarith)⟩))
    · exact Or.inr (Or.inr (Or.inr ⟨ha', hb', rounded_le hfl (hdd _ _) (by linarith [not_lt.mp ha']), le_rounded hfl (hdd _ _) (by linarith)⟩))
    · exact Or.inr (Or.inl ⟨ha', hb'⟩)
  rcases key with ⟨ha, hb⟩ | ⟨ha, hb⟩ | ⟨ha, hb, h4, h5⟩ | ⟨ha, hb, h4, h5⟩ <;> simp [*] <;> grind

/-- A block found holds pairs of the stack only: whatever the distance. -/
theorem covers_sound (fl : ℝ → ℝ) {distance : α → α → ℝ} (p : α) (radius rho : ℝ) {a b : α} :
    (∀ S : List α, Covers ((partition fl distance p radius rho S).Lw, some (partition fl distance p radius rho S).Gw) a b ∨
      Covers ((partition fl distance p radius rho S).L, none) a b ∨
      Covers ((partition fl distance p radius rho S).G, none) a b → Covers (S, none) a b) ∧
    (∀ S1 S2 : List α,
      Covers ((partition fl distance p radius rho S1).Gw, some (partition fl distance p radius rho S2).Lw) a b ∨
      Covers ((partition fl distance p radius rho S1).Lw, some (partition fl distance p radius rho S2).Gw) a b ∨
      Covers ((partition fl distance p radius rho S1).G, some (partition fl distance p radius rho S2).G) a b ∨
      Covers ((partition fl distance p radius rho S1).L, some (partition fl distance p radius rho S2).L) a b →
      Covers (S1, some S2) a b) := by
  constructor
  · intro S
    simp only [partition_eq, Covers, twoItems_filter, List.mem_filter]
    rintro ((⟨⟨ha, ha'⟩, hb, hb'⟩ | ⟨⟨hb, hb'⟩, ha, ha'⟩) | ⟨hab, _⟩ | ⟨hab, _⟩)
    · refine twoItems_of_ne ha hb ?_
      rintro rfl; simp at ha' hb'; exact absurd ha'.1 (not_lt.mpr hb'.1)
    · refine twoItems_of_ne ha hb ?_
      rintro rfl; simp at ha' hb'; exact absurd hb'.1 (not_lt.mpr ha'.1)
    · exact hab
    · exact hab
  · intro S1 S2
    simp only [partition_eq, Covers, List.mem_filter]
    grind

theorem blocks_sound {distance : α → α → ℝ} {radius beta : ℝ} {block_size : Nat} {pivots : Pivots α} {fuel step : Nat}
    {stack out : List (Block α)} (h : blocks fl distance radius beta block_size pivots fuel step stack = some out) {a b : α}
    (hout : Covered out a b) : Covered stack a b := by
  induction fuel generalizing step stack out with
  | zero => simp [blocks] at h
  | succ fuel ih =>
      match stack, h with
      | [], h => simp [blocks] at h; subst h; exact hout
      | (S, none) :: stack, h =>
          simp only [blocks] at h
          split at h
          · rw [Option.map_eq_some_iff] at h
            obtain ⟨out', h1, rfl⟩ := h
            rw [covered_cons] at hout ⊢
            exact hout.imp id (ih h1)
          · split at h
            · cases h
            · split at h
              · next p1 p2 _ _ =>
                  have := ih h hout
                  simp only [covered_cons] at this ⊢
                  have hc := (covers_sound fl (distance := distance) p1 radius (fl (beta * distance p1 p2)) (a := a) (b := b)).1 S
                  grind
              · cases h
      | (S1, some S2) :: stack, h =>
          simp only [blocks] at h
          split at h
          · split at h
            · rw [covered_cons]; exact Or.inr (ih h hout)
            · rw [Option.map_eq_some_iff] at h
              obtain ⟨out', h1, rfl⟩ := h
              rw [covered_cons] at hout ⊢
              exact hout.imp id (ih h1)
          · split at h
            · cases h
            · split at h
              · next p1 p2 _ _ =>
                  have := ih h hout
                  simp only [covered_cons] at this ⊢
                  have hc :=
                    (covers_sound fl (distance := distance) p1 radius (fl (beta * distance p1 p2)) (a := a) (b := b)).2 S1 S2
                  grind
              · cases h

theorem blocks_complete (hfl : IsRounding fl) {distance : α → α → ℝ} (hdd : ∀ a b, IsDouble (distance a b)) (hs : ∀ a b, distance a b = distance b a)
    (ht : ∀ a b c, distance a c ≤ distance a b + distance b c) {radius beta : ℝ} {block_size : Nat} {pivots : Pivots α}
    {fuel step : Nat} {stack out : List (Block α)}
    (h : blocks fl distance radius beta block_size pivots fuel step stack = some out) {a b : α}
    (hab : distance a b ≤ radius) (hstack : Covered stack a b) : Covered out a b := by
  induction fuel generalizing step stack out with
  | zero => simp [blocks] at h
  | succ fuel ih =>
      match stack, h with
      | [], h => simp [blocks] at h; subst h; exact hstack
      | (S, none) :: stack, h =>
          simp only [blocks] at h
          split at h
          · rw [Option.map_eq_some_iff] at h
            obtain ⟨out', h1, rfl⟩ := h
            rw [covered_cons] at hstack ⊢
            exact hstack.imp id (ih h1)
          · split at h
            · cases h
            · split at h
              · next p1 p2 _ _ =>
                  apply ih h
                  simp only [covered_cons] at hstack ⊢
                  have hc := covers_self hfl hdd hs ht p1 radius (fl (beta * distance p1 p2)) S hab
                  simp only at hc
                  rw [hc] at hstack
                  grind
              · cases h
      | (S1, some S2) :: stack, h =>
          simp only [blocks] at h
          split at h
          · split at h
            · next hempty =>
                rw [covered_cons] at hstack
                rcases hstack with hc | hc
                · exfalso
                  simp only [Covers] at hc
                  rcases hempty with h0 | h0
                  · rw [List.length_eq_zero_iff] at h0; subst h0; simp at hc
                  · rw [List.length_eq_zero_iff] at h0; subst h0; simp at hc
                · exact ih h hc
            · rw [Option.map_eq_some_iff] at h
              obtain ⟨out', h1, rfl⟩ := h
              rw [covered_cons] at hstack ⊢
              exact hstack.imp id (ih h1)
          · split at h
            · cases h
            · split at h
              · next p1 p2 _ _ =>
                  apply ih h
                  simp only [covered_cons] at hstack ⊢
                  have hc := covers_win hfl hdd hs ht p1 radius (fl (beta * distance p1 p2)) S1 S2 hab
                  simp only at hc
                  rw [hc] at hstack
                  grind
              · cases h

theorem blocks_separate {distance : α → α → ℝ} {radius beta : ℝ} {block_size : Nat} {pivots : Pivots α} {fuel step : Nat}
    {stack out : List (Block α)} (h : blocks fl distance radius beta block_size pivots fuel step stack = some out)
    (hstack : ∀ block ∈ stack, Separate block) : ∀ block ∈ out, Separate block := by
  induction fuel generalizing step stack out with
  | zero => simp [blocks] at h
  | succ fuel ih =>
      match stack, h with
      | [], h => simp [blocks] at h; subst h; exact hstack
      | (S, none) :: stack, h =>
          rw [List.forall_mem_cons] at hstack
          simp only [blocks] at h
          split at h
          · rw [Option.map_eq_some_iff] at h
            obtain ⟨out', h1, rfl⟩ := h
            rw [List.forall_mem_cons]
            exact ⟨hstack.1, ih h1 hstack.2⟩
          · split at h
            · cases h
            · split at h
              · refine ih h ?_
                simp only [List.forall_mem_cons]
                refine ⟨?_, trivial, trivial, hstack.2⟩
                simp only [Separate, partition_eq, List.mem_filter]
                grind
              · cases h
      | (S1, some S2) :: stack, h =>
          rw [List.forall_mem_cons] at hstack
          simp only [blocks] at h
          split at h
          · split at h
            · exact ih h hstack.2
            · rw [Option.map_eq_some_iff] at h
              obtain ⟨out', h1, rfl⟩ := h
              rw [List.forall_mem_cons]
              exact ⟨hstack.1, ih h1 hstack.2⟩
          · split at h
            · cases h
            · split at h
              · refine ih h ?_
                have h0 := hstack.1
                simp only [List.forall_mem_cons]
                refine ⟨?_, ?_, ?_, ?_, hstack.2⟩ <;>
                · simp only [Separate, partition_eq, List.mem_filter] at h0 ⊢
                  grind
              · cases h

/-- With trees. -/
theorem partition_sizes (distance : α → α → ℝ) (p : α) (radius rho : ℝ) (S : List α) :
    let P := partition fl distance p radius rho S
    P.L.length ≤ S.length ∧ P.G.length ≤ S.length ∧ P.L.length + P.G.length = S.length ∧ P.Lw.length ≤ P.L.length ∧
      P.Gw.length ≤ P.G.length := by
  intro P
  simp only [P, partition_eq]
  have h := length_filter_split (fun x => decide (distance p x < rho)) S
  refine ⟨List.length_filter_le _ _, List.length_filter_le _ _, h, length_filter_imp ?_ _, length_filter_imp ?_ _⟩
  · intro x hx; simp only [Bool.and_eq_true] at hx; exact hx.1
  · intro x hx; simp only [Bool.and_eq_true] at hx; exact hx.1

/-- Two items of a list make both parts smaller than the list. -/
theorem partition_smaller (hfl : IsRounding fl) {distance : α → α → ℝ} (hdd : ∀ a b, IsDouble (distance a b)) (hd : IsMetric distance) {radius beta : ℝ}
    (hb : ∀ x y, x ≠ y → (2 : ℝ) ^ (-1022 : ℤ) ≤ beta * distance x y) (hb' : beta ≤ 1) {x y : α} (hne : x ≠ y) {S : List α} (hx : x ∈ S) (hy : y ∈ S) :
    let P := partition fl distance x radius (fl (beta * distance x y)) S
    P.L.length < S.length ∧ P.G.length < S.length := by
  intro P
  simp only [P, partition_eq]
  have hpos := hd.pos x y hne
  constructor
  · apply length_filter_lt hy
    have : beta * distance x y ≤ 1 * distance x y := mul_le_mul_of_nonneg_right hb' hpos.le
    simp only [decide_eq_false_iff_not, not_lt]
    exact rounded_le hfl (hdd _ _) (by linarith)
  · apply length_filter_lt hx
    have : 0 < fl (beta * distance x y) :=
      lt_of_lt_of_le (two_zpow_pos (-1022)) (le_rounded hfl (isDouble_zpow (by norm_num)) (hb x y hne))
    simp only [Bool.not_eq_false', decide_eq_true_eq, hd.self]
    exact this

theorem noRepeat_parts {distance : α → α → ℝ} {p : α} {radius rho : ℝ} {S : List α} (h : S.Nodup) :
    let P := partition fl distance p radius rho S
    P.L.Nodup ∧ P.G.Nodup ∧ P.Lw.Nodup ∧ P.Gw.Nodup := by
  intro P
  simp only [P, partition_eq]
  exact ⟨h.filter _, h.filter _, h.filter _, h.filter _⟩

theorem blocks_terminates (hfl : IsRounding fl) {distance : α → α → ℝ} (hdd : ∀ a b, IsDouble (distance a b)) (hd : IsMetric distance) {radius beta : ℝ}
    (hb : ∀ x y, x ≠ y → (2 : ℝ) ^ (-1022 : ℤ) ≤ beta * distance x y) (hb' : beta ≤ 1) {block_size : Nat} (hbs : 2 ≤ block_size) {pivots : Pivots α}
    (hp : SameSide pivots) (fuel : Nat) : ∀ (step : Nat) (stack : List (Block α)),
    (∀ block ∈ stack, NoRepeat block) → weights stack < fuel →
    ∃ out, blocks fl distance radius beta block_size pivots fuel step stack = some out := by
  induction fuel with
  | zero => intro step stack _ h; omega
  | succ fuel ih =>
      intro step stack hstack hfuel
      match stack with
      | [] => exact ⟨[], rfl⟩
      | (S, none) :: stack =>
          rw [List.forall_mem_cons] at hstack
          have hS : S.Nodup := hstack.1
          simp only [weights, weight] at hfuel
          have hpos := pow_pos' S.length
          simp only [blocks]
          split
          · obtain ⟨out, h⟩ := ih (step + 1) stack hstack.2 (by omega)
            exact ⟨_, by rw [h]; rfl⟩
          · next hN =>
              rw [if_neg (by omega)]
              obtain ⟨h1, h2, h3⟩ := hp.1 step S (by omega)
              rw [List.getElem?_eq_getElem h1, List.getElem?_eq_getElem h2]
              simp only
              have hne : S[(pivots step (S, none)).1] ≠ S[(pivots step (S, none)).2] := by
                intro h; exact h3 ((List.getElem_inj hS).mp h)
              have hm := partition_smaller hfl hdd hd (radius := radius) hb hb' hne (List.getElem_mem h1) (List.getElem_mem h2)
              have hsz := partition_sizes (fl := fl) distance S[(pivots step (S, none)).1] radius
                (fl (beta * distance S[(pivots step (S, none)).1] S[(pivots step (S, none)).2])) S
              have hnr := noRepeat_parts (fl := fl) (distance := distance) (p := S[(pivots step (S, none)).1]) (radius := radius)
                (rho := fl (beta * distance S[(pivots step (S, none)).1] S[(pivots step (S, none)).2])) hS
              generalize partition fl distance S[(pivots step (S, none)).1] radius
                (fl (beta * distance S[(pivots step (S, none)).1] S[(pivots step (S, none)).2])) S = P at *
              simp only at hm hsz hnr
              apply ih
              · simp only [List.forall_mem_cons]
                exact ⟨⟨hnr.2.2.1, hnr.2.2.2⟩, hnr.1, hnr.2.1, hstack.2⟩
              · simp only [weights, weight]
                have h5 := pow_le_of_lt hm.1
                have h6 := pow_le_of_lt hm.2
                have h7 := pow_mono (show P.Lw.length + P.Gw.length ≤ S.length by omega)
                omega
      | (S1, some S2) :: stack =>
          rw [List.forall_mem_cons] at hstack
          have hS : S1.Nodup ∧ S2.Nodup := hstack.1
          simp only [weights, weight] at hfuel
          have hpos := pow_pos' (S1.length + S2.length)
          simp only [blocks]
          split
          · split
            · exact ih (step + 1) stack hstack.2 (by omega)
            · obtain ⟨out, h⟩ := ih (step + 1) stack hstack.2 (by omega)
              exact ⟨_, by rw [h]; rfl⟩
          · next hN =>
              rw [if_neg (by omega)]
              obtain ⟨h3, hside⟩ := hp.2 step S1 S2 (by omega)
              generalize pivots step (S1, some S2) = pv at *
              obtain ⟨p1, p2⟩ := pv
              simp only at h3 hside ⊢
              have hget : ∃ x y, (if p1 < S1.length then S1[p1]? else S2[p1 - S1.length]?) = some x ∧
                  (if p2 < S1.length then S1[p2]? else S2[p2 - S1.length]?) = some y ∧ x ≠ y ∧
                  ((x ∈ S1 ∧ y ∈ S1) ∨ (x ∈ S2 ∧ y ∈ S2)) := by
                rcases hside with ⟨h1, h2⟩ | ⟨h1, h1', h2, h2'⟩
                · rw [if_pos h1, if_pos h2, List.getElem?_eq_getElem h1, List.getElem?_eq_getElem h2]
                  refine ⟨_, _, rfl, rfl, ?_, Or.inl ⟨List.getElem_mem h1, List.getElem_mem h2⟩⟩
                  intro h; exact h3 ((List.getElem_inj hS.1).mp h)
                · have h1'' : p1 - S1.length < S2.length := by omega
                  have h2'' : p2 - S1.length < S2.length := by omega
                  rw [if_neg (by omega), if_neg (by omega), List.getElem?_eq_getElem h1'',
                    List.getElem?_eq_getElem h2'']
                  refine ⟨_, _, rfl, rfl, ?_, Or.inr ⟨List.getElem_mem h1'', List.getElem_mem h2''⟩⟩
                  intro h
                  have := (List.getElem_inj hS.2).mp h
                  omega
              obtain ⟨x, y, hx, hy, hne, hmem⟩ := hget
              rw [hx, hy]
              simp only
              have hsz1 := partition_sizes (fl := fl) distance x radius (fl (beta * distance x y)) S1
              have hsz2 := partition_sizes (fl := fl) distance x radius (fl (beta * distance x y)) S2
              have hnr1 := noRepeat_parts (fl := fl) (distance := distance) (p := x) (radius := radius)
                (rho := fl (beta * distance x y)) hS.1
              have hnr2 := noRepeat_parts (fl := fl) (distance := distance) (p := x) (radius := radius)
                (rho := fl (beta * distance x y)) hS.2
              have hm : ((partition fl distance x radius (fl (beta * distance x y)) S1).L.length < S1.length ∧
                  (partition fl distance x radius (fl (beta * distance x y)) S1).G.length < S1.length) ∨
                  ((partition fl distance x radius (fl (beta * distance x y)) S2).L.length < S2.length ∧
                  (partition fl distance x radius (fl (beta * distance x y)) S2).G.length < S2.length) := by
                rcases hmem with ⟨h1, h2⟩ | ⟨h1, h2⟩
                · exact Or.inl (partition_smaller hfl hdd hd hb hb' hne h1 h2)
                · exact Or.inr (partition_smaller hfl hdd hd hb hb' hne h1 h2)
              generalize partition fl distance x radius (fl (beta * distance x y)) S1 = P1 at *
              generalize partition fl distance x radius (fl (beta * distance x y)) S2 = P2 at *
              simp only at hm hsz1 hsz2 hnr1 hnr2
              apply ih
              · simp only [List.forall_mem_cons]
                exact ⟨⟨hnr1.2.2.2, hnr2.2.2.1⟩, ⟨hnr1.2.2.1, hnr2.2.2.2⟩, ⟨hnr1.2.1, hnr2.2.1⟩, ⟨hnr1.1, hnr2.1⟩,
                  hstack.2⟩
              · simp only [weights, weight]
                have h4 := pow_le_of_lt (show P1.Gw.length + P2.Lw.length < S1.length + S2.length by omega)
                have h5 := pow_le_of_lt (show P1.Lw.length + P2.Gw.length < S1.length + S2.length by omega)
                have h6 := pow_le_of_lt (show P1.G.length + P2.G.length < S1.length + S2.length by omega)
                have h7 := pow_le_of_lt (show P1.L.length + P2.L.length < S1.length + S2.length by omega)
                omega

end Fog.QuickjoinFloat
