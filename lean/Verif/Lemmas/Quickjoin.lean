import Verif.Model.Quickjoin
import Verif.Spec.Metric
import Verif.Lemmas.Passjoin
import Mathlib.Tactic.Linarith

/-!
# Lemmas about quickjoin
-/

namespace Fog.Spec

variable {α : Type _}

theorem TwoItems.mem {l : List α} {a b : α} (h : TwoItems l a b) : a ∈ l ∧ b ∈ l := by
  rcases h with h | h
  · exact ⟨h.subset (by simp), h.subset (by simp)⟩
  · exact ⟨h.subset (by simp), h.subset (by simp)⟩

theorem twoItems_of_ne {l : List α} {a b : α} (ha : a ∈ l) (hb : b ∈ l) (h : a ≠ b) : TwoItems l a b := by
  induction l with
  | nil => cases ha
  | cons x l ih =>
      rw [twoItems_cons]
      rcases List.mem_cons.mp ha with ha' | ha'
      · rcases List.mem_cons.mp hb with hb' | hb'
        · exact absurd (ha'.trans hb'.symm) h
        · exact Or.inl ⟨ha', hb'⟩
      · rcases List.mem_cons.mp hb with hb' | hb'
        · exact Or.inr (Or.inl ⟨hb', ha'⟩)
        · exact Or.inr (Or.inr (ih ha' hb'))

theorem twoItems_filter {q : α → Bool} {l : List α} {a b : α} :
    TwoItems (l.filter q) a b ↔ TwoItems l a b ∧ q a = true ∧ q b = true := by
  induction l with
  | nil => simp [TwoItems]
  | cons x l ih =>
      rw [List.filter_cons, twoItems_cons]
      split
      · next h =>
          rw [twoItems_cons, ih, List.mem_filter, List.mem_filter]
          grind
      · next h =>
          rw [ih]
          grind

end Fog.Spec

namespace Fog.Quickjoin

open Fog.Spec Fog.ClusteringUtils

variable {α K : Type _} [Field K] [LinearOrder K]

theorem partition_eq (distance : α → α → K) (p : α) (radius rho : K) (S : List α) :
    partition distance p radius rho S =
      ⟨S.filter fun x => decide (distance p x < rho), S.filter fun x => !decide (distance p x < rho),
        S.filter fun x => decide (distance p x < rho) && decide (rho - radius ≤ distance p x),
        S.filter fun x => !decide (distance p x < rho) && decide (distance p x ≤ rho + radius)⟩ := by
  induction S with
  | nil => rfl
  | cons x S ih =>
      simp only [partition, ih]
      by_cases h : distance p x < rho <;> by_cases h1 : rho - radius ≤ distance p x <;>
        by_cases h2 : distance p x ≤ rho + radius <;> simp [h, h1, h2]

/-- The pairs a block is to compare. -/
def Covers : Block α → α → α → Prop
  | (S, none), a, b => TwoItems S a b
  | (S1, some S2), a, b => (a ∈ S1 ∧ b ∈ S2) ∨ (b ∈ S1 ∧ a ∈ S2)

/-- The pairs of a list of blocks. -/
def Covered (bs : List (Block α)) (a b : α) : Prop := ∃ block ∈ bs, Covers block a b

theorem covered_cons {block : Block α} {bs : List (Block α)} {a b : α} :
    Covered (block :: bs) a b ↔ Covers block a b ∨ Covered bs a b := by simp [Covered]

/-- Splitting a block in two and joining the windows loses no pair of close items, and invents none. -/
theorem covers_self [IsStrictOrderedRing K] {distance : α → α → K} (hs : ∀ a b, distance a b = distance b a)
    (ht : ∀ a b c, distance a c ≤ distance a b + distance b c) (p : α) (radius rho : K) (S : List α) {a b : α}
    (h : distance a b ≤ radius) :
    let P := partition distance p radius rho S
    Covers (S, none) a b ↔ Covers (P.Lw, some P.Gw) a b ∨ Covers (P.L, none) a b ∨ Covers (P.G, none) a b := by
  intro P
  simp only [P, partition_eq, Covers, twoItems_filter, List.mem_filter]
  have h1 := ht p a b
  have h2 := ht p b a
  have h3 := hs a b
  constructor
  · intro hab
    obtain ⟨ha, hb⟩ := hab.mem
    by_cases ha' : distance p a < rho <;> by_cases hb' : distance p b < rho
    · exact Or.inr (Or.inl ⟨hab, by simpa using ha', by simpa using hb'⟩)
    · left; left
      have h4 : rho - radius ≤ distance p a := by linarith [not_lt.mp hb']
      have h5 : distance p b ≤ rho + radius := by linarith
      simp [ha, hb, ha', hb', h4, h5]
    · left; right
      have h4 : rho - radius ≤ distance p b := by linarith [not_lt.mp ha']
      have h5 : distance p a ≤ rho + radius := by linarith
      simp [ha, hb, ha', hb', h4, h5]
    · exact Or.inr (Or.inr ⟨hab, by simpa using ha', by simpa using hb'⟩)
  · rintro ((⟨⟨ha, ha'⟩, hb, hb'⟩ | ⟨⟨hb, hb'⟩, ha, ha'⟩) | ⟨hab, _⟩ | ⟨hab, _⟩)
    · refine twoItems_of_ne ha hb ?_
      rintro rfl; simp at ha' hb'; linarith [ha'.1, hb'.1]
    · refine twoItems_of_ne ha hb ?_
      rintro rfl; simp at ha' hb'; linarith [ha'.1, hb'.1]
    · exact hab
    · exact hab

/-- The same for two lists. -/
theorem covers_win [IsStrictOrderedRing K] {distance : α → α → K} (hs : ∀ a b, distance a b = distance b a)
    (ht : ∀ a b c, distance a c ≤ distance a b + distance b c) (p : α) (radius rho : K) (S1 S2 : List α) {a b : α}
    (h : distance a b ≤ radius) :
    let P1 := partition distance p radius rho S1
    let P2 := partition distance p radius rho S2
    Covers (S1, some S2) a b ↔ Covers (P1.Gw, some P2.Lw) a b ∨ Covers (P1.Lw, some P2.Gw) a b ∨
      Covers (P1.G, some P2.G) a b ∨ Covers (P1.L, some P2.L) a b := by
  intro P1 P2
  simp only [P1, P2, partition_eq, Covers, List.mem_filter]
  have h1 := ht p a b
  have h2 := ht p b a
  have h3 := hs a b
  have key : (distance p a < rho ∧ distance p b < rho) ∨ (¬ distance p a < rho ∧ ¬ distance p b < rho) ∨
      (distance p a < rho ∧ ¬ distance p b < rho ∧ rho - radius ≤ distance p a ∧ distance p b ≤ rho + radius) ∨
      (¬ distance p a < rho ∧ distance p b < rho ∧ rho - radius ≤ distance p b ∧ distance p a ≤ rho + radius) := by
    by_cases ha' : distance p a < rho <;> by_cases hb' : distance p b < rho
    · exact Or.inl ⟨ha', hb'⟩
    · exact Or.inr (Or.inr (Or.inl ⟨ha', hb', by linarith [not_lt.mp hb'], by linarith⟩))
    · exact Or.inr (Or.inr (Or.inr ⟨ha', hb', by linarith [not_lt.mp ha'], by linarith⟩))
    · exact Or.inr (Or.inl ⟨ha', hb'⟩)
  rcases key with ⟨ha, hb⟩ | ⟨ha, hb⟩ | ⟨ha, hb, h4, h5⟩ | ⟨ha, hb, h4, h5⟩ <;> simp [*] <;> grind

/-- A block found holds pairs of the stack only: whatever the distance. -/
theorem covers_sound {distance : α → α → K} (p : α) (radius rho : K) {a b : α} :
    (∀ S : List α, Covers ((partition distance p radius rho S).Lw, some (partition distance p radius rho S).Gw) a b ∨
      Covers ((partition distance p radius rho S).L, none) a b ∨
      Covers ((partition distance p radius rho S).G, none) a b → Covers (S, none) a b) ∧
    (∀ S1 S2 : List α,
      Covers ((partition distance p radius rho S1).Gw, some (partition distance p radius rho S2).Lw) a b ∨
      Covers ((partition distance p radius rho S1).Lw, some (partition distance p radius rho S2).Gw) a b ∨
      Covers ((partition distance p radius rho S1).G, some (partition distance p radius rho S2).G) a b ∨
      Covers ((partition distance p radius rho S1).L, some (partition distance p radius rho S2).L) a b →
      Covers (S1, some S2) a b) := by
  constructor
  · intro S
    simp only [partition_eq, Covers, twoItems_filter, List.mem_filter]
    rintro ((⟨⟨ha, ha'⟩, hb, hb'⟩ | ⟨⟨hb, hb'⟩, ha, ha'⟩) | ⟨hab, _⟩ | ⟨hab, _⟩)
    · refine twoItems_of_ne ha hb ?_
      rintro rfl; simp at ha' hb'; exact absurd ha'.1 (not_lt.mpr hb'.1)
    · refine twoItems_of_ne ha hb ?_
      rintro rfl; simp at ha' hb'; exact absurd hb'.1 (not_lt.mpr ha'.1)
    · exact hab
    · exact hab
  · intro S1 S2
    simp only [partition_eq, Covers, List.mem_filter]
    grind

theorem blocks_sound {distance : α → α → K} {radius beta : K} {block_size : Nat} {pivots : Pivots α} {fuel step : Nat}
    {stack out : List (Block α)} (h : blocks distance radius beta block_size pivots fuel step stack = some out) {a b : α}
    (hout : Covered out a b) : Covered stack a b := by
  induction fuel generalizing step stack out with
  | zero => simp [blocks] at h
  | succ fuel ih =>
      match stack, h with
      | [], h => simp [blocks] at h; subst h; exact hout
      | (S, none) :: stack, h =>
          simp only [blocks] at h
          split at h
          · rw [Option.map_eq_some_iff] at h
            obtain ⟨out', h1, rfl⟩ := h
            rw [covered_cons] at hout ⊢
            exact hout.imp id (ih h1)
          · split at h
            · cases h
            · split at h
              · next p1 p2 _ _ =>
                  have := ih h hout
                  simp only [covered_cons] at this ⊢
                  have hc := (covers_sound (distance := distance) p1 radius (beta * distance p1 p2) (a := a) (b := b)).1 S
                  grind
              · cases h
      | (S1, some S2) :: stack, h =>
          simp only [blocks] at h
          split at h
          · split at h
            · rw [covered_cons]; exact Or.inr (ih h hout)
            · rw [Option.map_eq_some_iff] at h
              obtain ⟨out', h1, rfl⟩ := h
              rw [covered_cons] at hout ⊢
              exact hout.imp id (ih h1)
          · split at h
            · cases h
            · split at h
              · next p1 p2 _ _ =>
                  have := ih h hout
                  simp only [covered_cons] at this ⊢
                  have hc :=
                    (covers_sound (distance := distance) p1 radius (beta * distance p1 p2) (a := a) (b := b)).2 S1 S2
                  grind
              · cases h

theorem blocks_complete [IsStrictOrderedRing K] {distance : α → α → K} (hs : ∀ a b, distance a b = distance b a)
    (ht : ∀ a b c, distance a c ≤ distance a b + distance b c) {radius beta : K} {block_size : Nat} {pivots : Pivots α}
    {fuel step : Nat} {stack out : List (Block α)}
    (h : blocks distance radius beta block_size pivots fuel step stack = some out) {a b : α}
    (hab : distance a b ≤ radius) (hstack : Covered stack a b) : Covered out a b := by
  induction fuel generalizing step stack out with
  | zero => simp [blocks] at h
  | succ fuel ih =>
      match stack, h with
      | [], h => simp [blocks] at h; subst h; exact hstack
      | (S, none) :: stack, h =>
          simp only [blocks] at h
          split at h
          · rw [Option.map_eq_some_iff] at h
            obtain ⟨out', h1, rfl⟩ := h
            rw [covered_cons] at hstack ⊢
            exact hstack.imp id (ih h1)
          · split at h
            · cases h
            · split at h
              · next p1 p2 _ _ =>
                  apply ih h
                  simp only [covered_cons] at hstack ⊢
                  have hc := covers_self hs ht p1 radius (beta * distance p1 p2) S hab
                  simp only at hc
                  rw [hc] at hstack
                  grind
              · cases h
      | (S1, some S2) :: stack, h =>
          simp only [blocks] at h
          split at h
          · split at h
            · next hempty =>
                rw [covered_cons] at hstack
                rcases hstack with hc | hc
                · exfalso
                  simp only [Covers] at hc
                  rcases hempty with h0 | h0
                  · rw [List.length_eq_zero_iff] at h0; subst h0; simp at hc
                  · rw [List.length_eq_zero_iff] at h0; subst h0; simp at hc
                · exact ih h hc
            · rw [Option.map_eq_some_iff] at h
              obtain ⟨out', h1, rfl⟩ := h
              rw [covered_cons] at hstack ⊢
              exact hstack.imp id (ih h1)
          · split at h
            · cases h
            · split at h
              · next p1 p2 _ _ =>
                  apply ih h
                  simp only [covered_cons] at hstack ⊢
                  have hc := covers_win hs ht p1 radius (beta * distance p1 p2) S1 S2 hab
                  simp only at hc
                  rw [hc] at hstack
                  grind
              · cases h

/-! ### Pairs of a block -/

theorem mem_bruteforce {S1 S2 : List α} {distance : α → α → K} {radius : K} {a b : α} :
    (a, b) ∈ bruteforce S1 S2 distance radius ↔ a ∈ S1 ∧ b ∈ S2 ∧ distance a b ≤ radius := by
  unfold bruteforce
  simp only [List.mem_flatMap, List.mem_filterMap]
  grind

theorem mem_selfBruteforce {S : List α} {distance : α → α → K} {radius : K} {a b : α} :
    (a, b) ∈ selfBruteforce S distance radius ↔ [a, b].Sublist S ∧ distance a b ≤ radius := by
  induction S with
  | nil => simp [selfBruteforce]
  | cons x S ih =>
      rw [selfBruteforce, List.mem_append, ih, Fog.KeyCollision.pair_sublist_cons, List.mem_filterMap]
      grind

/-- Without trees. -/
theorem linked_blockPairs [DecidableEq α] {solver : Solver α K} (hv : solver.vp_tree = false) {distance : α → α → K}
    (hs : ∀ a b, distance a b = distance b a) {radius : K} (block : Block α) (a b : α) :
    Linked (blockPairs solver distance radius block) a b ↔ Covers block a b ∧ distance a b ≤ radius := by
  have := hs a b
  unfold Linked
  match block with
  | (S, none) => simp only [blockPairs, hv, Bool.false_eq_true, if_false, mem_selfBruteforce, Covers, TwoItems]; grind
  | (S1, some S2) => simp only [blockPairs, hv, Bool.false_eq_true, if_false, mem_bruteforce, Covers]; grind

/-- What is expected of vantage point trees. -/
def LawfulNeighbors (neighbors : Neighbors α K) (distance : α → α → K) : Prop :=
  ∀ S A radius B, B ∈ neighbors S A radius ↔ B ∈ S ∧ distance A B ≤ radius

theorem mem_vptree {neighbors : Neighbors α K} {distance : α → α → K} (hn : LawfulNeighbors neighbors distance)
    {S1 S2 : List α} {radius : K} {a b : α} :
    (a, b) ∈ vptree neighbors S1 S2 distance radius ↔
      (if S1.length > S2.length then a ∈ S1 ∧ b ∈ S2 else a ∈ S2 ∧ b ∈ S1) ∧ distance a b ≤ radius := by
  have key : ∀ S1 S2 : List α, ((a, b) ∈ (match S1 with
      | [B] => S2.filterMap fun A => if distance A B ≤ radius then some (A, B) else none
      | S1 => S2.flatMap fun A => (neighbors S1 A radius).map fun B => (A, B))) ↔
      (a ∈ S2 ∧ b ∈ S1) ∧ distance a b ≤ radius := by
    intro S1 S2
    split
    · simp only [List.mem_filterMap, List.mem_singleton]; grind
    · simp only [List.mem_flatMap, List.mem_map, hn _ _ _ _]; grind
  unfold vptree
  by_cases h : S1.length > S2.length
  · simp only [h, if_true]; exact key _ _
  · simp only [h, if_false]; exact key _ _

theorem mem_selfVptree [DecidableEq α] {neighbors : Neighbors α K} {distance : α → α → K}
    (hn : LawfulNeighbors neighbors distance) {ident : α → Nat} {S : List α} {radius : K} {a b : α} :
    (a, b) ∈ selfVptree neighbors ident S radius ↔
      TwoItems S a b ∧ a ≠ b ∧ distance a b ≤ radius ∧ ident a < ident b := by
  unfold selfVptree
  split
  · next h =>
      match S, h with
      | [x], _ => rw [twoItems_cons]; simp [TwoItems]
  · simp only [List.mem_flatMap, List.mem_filterMap, hn _ _ _ _]
    constructor
    · rintro ⟨A, hA, B, ⟨hB, hd⟩, h⟩
      split at h
      · cases h
      · next hne =>
          split at h
          · cases h; exact ⟨twoItems_of_ne hA hB hne, hne, hd, by assumption⟩
          · cases h
    · rintro ⟨h1, h2, h3, h4⟩
      exact ⟨a, h1.mem.1, b, ⟨h1.mem.2, h3⟩, by simp [h2, h4]⟩

/-- Two lists without a common item. -/
def Separate : Block α → Prop
  | (_, none) => True
  | (S1, some S2) => ∀ x ∈ S1, x ∉ S2

theorem blocks_separate {distance : α → α → K} {radius beta : K} {block_size : Nat} {pivots : Pivots α} {fuel step : Nat}
    {stack out : List (Block α)} (h : blocks distance radius beta block_size pivots fuel step stack = some out)
    (hstack : ∀ block ∈ stack, Separate block) : ∀ block ∈ out, Separate block := by
  induction fuel generalizing step stack out with
  | zero => simp [blocks] at h
  | succ fuel ih =>
      match stack, h with
      | [], h => simp [blocks] at h; subst h; exact hstack
      | (S, none) :: stack, h =>
          rw [List.forall_mem_cons] at hstack
          simp only [blocks] at h
          split at h
          · rw [Option.map_eq_some_iff] at h
            obtain ⟨out', h1, rfl⟩ := h
            rw [List.forall_mem_cons]
            exact ⟨hstack.1, ih h1 hstack.2⟩
          · split at h
            · cases h
            · split at h
              · refine ih h ?_
                simp only [List.forall_mem_cons]
                refine ⟨?_, trivial, trivial, hstack.2⟩
                simp only [Separate, partition_eq, List.mem_filter]
                grind
              · cases h
      | (S1, some S2) :: stack, h =>
          rw [List.forall_mem_cons] at hstack
          simp only [blocks] at h
          split at h
          · split at h
            · exact ih h hstack.2
            · rw [Option.map_eq_some_iff] at h
              obtain ⟨out', h1, rfl⟩ := h
              rw [List.forall_mem_cons]
              exact ⟨hstack.1, ih h1 hstack.2⟩
          · split at h
            · cases h
            · split at h
              · refine ih h ?_
                have h0 := hstack.1
                simp only [List.forall_mem_cons]
                refine ⟨?_, ?_, ?_, ?_, hstack.2⟩ <;>
                · simp only [Separate, partition_eq, List.mem_filter] at h0 ⊢
                  grind
              · cases h

/-- With trees. -/
theorem linked_blockPairs_vptree [DecidableEq α] {solver : Solver α K} (hv : solver.vp_tree = true)
    {distance : α → α → K} (hn : LawfulNeighbors solver.neighbors distance) (hi : Function.Injective solver.ident)
    (hs : ∀ a b, distance a b = distance b a) {radius : K} (block : Block α) (hsep : Separate block) (a b : α) :
    Linked (blockPairs solver distance radius block) a b ↔ Covers block a b ∧ a ≠ b ∧ distance a b ≤ radius := by
  have := hs a b
  have hi' : a ≠ b → solver.ident a < solver.ident b ∨ solver.ident b < solver.ident a :=
    fun hne => Nat.lt_or_gt_of_ne fun h => hne (hi h)
  unfold Linked
  match block, hsep with
  | (S, none), _ =>
      simp only [blockPairs, hv, if_true, mem_selfVptree hn, Covers]
      have : TwoItems S a b ↔ TwoItems S b a := ⟨TwoItems.symm, TwoItems.symm⟩
      grind
  | (S1, some S2), hsep =>
      simp only [blockPairs, hv, if_true, mem_vptree hn, Covers]
      simp only [Separate] at hsep
      grind

/-! ### Termination -/

/-- Fuel enough for a block when each step makes it smaller. -/
def weight : Block α → Nat
  | (S, none) => 2 * 5 ^ S.length
  | (S1, some S2) => 5 ^ (S1.length + S2.length)

/-- Fuel enough for a stack. -/
def weights : List (Block α) → Nat
  | [] => 0
  | block :: stack => weight block + weights stack

/-- No list has a repetition. -/
def NoRepeat : Block α → Prop
  | (S, none) => S.Nodup
  | (S1, some S2) => S1.Nodup ∧ S2.Nodup

/-- Pivots are in range and different, and for two lists both are in the same one. -/
def SameSide (pivots : Pivots α) : Prop :=
  (∀ t (S : List α), 2 ≤ S.length →
    (pivots t (S, none)).1 < S.length ∧ (pivots t (S, none)).2 < S.length ∧
      (pivots t (S, none)).1 ≠ (pivots t (S, none)).2) ∧
  ∀ t (S1 S2 : List α), 3 ≤ S1.length + S2.length →
    (pivots t (S1, some S2)).1 ≠ (pivots t (S1, some S2)).2 ∧
      (((pivots t (S1, some S2)).1 < S1.length ∧ (pivots t (S1, some S2)).2 < S1.length) ∨
      (S1.length ≤ (pivots t (S1, some S2)).1 ∧ (pivots t (S1, some S2)).1 < S1.length + S2.length ∧
        S1.length ≤ (pivots t (S1, some S2)).2 ∧ (pivots t (S1, some S2)).2 < S1.length + S2.length))

theorem length_filter_lt {q : α → Bool} {l : List α} {a : α} (h : a ∈ l) (hq : q a = false) :
    (l.filter q).length < l.length := by
  induction l with
  | nil => cases h
  | cons x l ih =>
      rw [List.filter_cons]
      rcases List.mem_cons.mp h with rfl | h
      · rw [if_neg (by simp [hq])]
        have := List.length_filter_le q l
        simp only [List.length_cons]; omega
      · have := ih h
        split <;> simp only [List.length_cons] <;> omega

theorem length_filter_split (q : α → Bool) (l : List α) :
    (l.filter q).length + (l.filter fun x => !q x).length = l.length := by
  induction l with
  | nil => rfl
  | cons x l ih =>
      by_cases h : q x = true
      · simp [h]; omega
      · simp [h]; omega

theorem length_filter_imp {q r : α → Bool} (h : ∀ x, q x = true → r x = true) (l : List α) :
    (l.filter q).length ≤ (l.filter r).length := by
  induction l with
  | nil => simp
  | cons x l ih =>
      rw [List.filter_cons, List.filter_cons]
      by_cases h1 : q x = true
      · rw [if_pos h1, if_pos (h x h1)]; simp only [List.length_cons]; omega
      · rw [if_neg h1]; split <;> (try simp only [List.length_cons]) <;> omega

/-- Sizes of the parts. -/
theorem partition_sizes (distance : α → α → K) (p : α) (radius rho : K) (S : List α) :
    let P := partition distance p radius rho S
    P.L.length ≤ S.length ∧ P.G.length ≤ S.length ∧ P.L.length + P.G.length = S.length ∧ P.Lw.length ≤ P.L.length ∧
      P.Gw.length ≤ P.G.length := by
  intro P
  simp only [P, partition_eq]
  have h := length_filter_split (fun x => decide (distance p x < rho)) S
  refine ⟨List.length_filter_le _ _, List.length_filter_le _ _, h, length_filter_imp ?_ _, length_filter_imp ?_ _⟩
  · intro x hx; simp only [Bool.and_eq_true] at hx; exact hx.1
  · intro x hx; simp only [Bool.and_eq_true] at hx; exact hx.1

/-- Two items of a list make both parts smaller than the list. -/
theorem partition_smaller [IsStrictOrderedRing K] {distance : α → α → K} (hd : IsMetric distance) {radius beta : K}
    (hb : 0 < beta) (hb' : beta ≤ 1) {x y : α} (hne : x ≠ y) {S : List α} (hx : x ∈ S) (hy : y ∈ S) :
    let P := partition distance x radius (beta * distance x y) S
    P.L.length < S.length ∧ P.G.length < S.length := by
  intro P
  simp only [P, partition_eq]
  have hpos := hd.pos x y hne
  constructor
  · apply length_filter_lt hy
    have : beta * distance x y ≤ 1 * distance x y := mul_le_mul_of_nonneg_right hb' hpos.le
    simp only [decide_eq_false_iff_not, not_lt]
    linarith
  · apply length_filter_lt hx
    have : 0 < beta * distance x y := mul_pos hb hpos
    simp only [Bool.not_eq_false', decide_eq_true_eq, hd.self]
    exact this

theorem noRepeat_parts {distance : α → α → K} {p : α} {radius rho : K} {S : List α} (h : S.Nodup) :
    let P := partition distance p radius rho S
    P.L.Nodup ∧ P.G.Nodup ∧ P.Lw.Nodup ∧ P.Gw.Nodup := by
  intro P
  simp only [P, partition_eq]
  exact ⟨h.filter _, h.filter _, h.filter _, h.filter _⟩

theorem pow_le_of_lt {a b : Nat} (h : a < b) : 5 * 5 ^ a ≤ 5 ^ b := by
  rw [← Nat.pow_succ']
  exact Nat.pow_le_pow_right (by omega) h

theorem pow_mono {a b : Nat} (h : a ≤ b) : 5 ^ a ≤ 5 ^ b := Nat.pow_le_pow_right (by omega) h

theorem pow_pos' (a : Nat) : 1 ≤ 5 ^ a := Nat.one_le_pow _ _ (by omega)

theorem blocks_terminates [IsStrictOrderedRing K] {distance : α → α → K} (hd : IsMetric distance) {radius beta : K}
    (hb : 0 < beta) (hb' : beta ≤ 1) {block_size : Nat} (hbs : 2 ≤ block_size) {pivots : Pivots α}
    (hp : SameSide pivots) (fuel : Nat) : ∀ (step : Nat) (stack : List (Block α)),
    (∀ block ∈ stack, NoRepeat block) → weights stack < fuel →
    ∃ out, blocks distance radius beta block_size pivots fuel step stack = some out := by
  induction fuel with
  | zero => intro step stack _ h; omega
  | succ fuel ih =>
      intro step stack hstack hfuel
      match stack with
      | [] => exact ⟨[], rfl⟩
      | (S, none) :: stack =>
          rw [List.forall_mem_cons] at hstack
          have hS : S.Nodup := hstack.1
          simp only [weights, weight] at hfuel
          have hpos := pow_pos' S.length
          simp only [blocks]
          split
          · obtain ⟨out, h⟩ := ih (step + 1) stack hstack.2 (by omega)
            exact ⟨_, by rw [h]; rfl⟩
          · next hN =>
              rw [if_neg (by omega)]
              obtain ⟨h1, h2, h3⟩ := hp.1 step S (by omega)
              rw [List.getElem?_eq_getElem h1, List.getElem?_eq_getElem h2]
              simp only
              have hne : S[(pivots step (S, none)).1] ≠ S[(pivots step (S, none)).2] := by
                intro h; exact h3 ((List.getElem_inj hS).mp h)
              have hm := partition_smaller hd (radius := radius) hb hb' hne (List.getElem_mem h1) (List.getElem_mem h2)
              have hsz := partition_sizes distance S[(pivots step (S, none)).1] radius
                (beta * distance S[(pivots step (S, none)).1] S[(pivots step (S, none)).2]) S
              have hnr := noRepeat_parts (distance := distance) (p := S[(pivots step (S, none)).1]) (radius := radius)
                (rho := beta * distance S[(pivots step (S, none)).1] S[(pivots step (S, none)).2]) hS
              generalize partition distance S[(pivots step (S, none)).1] radius
                (beta * distance S[(pivots step (S, none)).1] S[(pivots step (S, none)).2]) S = P at *
              simp only at hm hsz hnr
              apply ih
              · simp only [List.forall_mem_cons]
                exact ⟨⟨hnr.2.2.1, hnr.2.2.2⟩, hnr.1, hnr.2.1, hstack.2⟩
              · simp only [weights, weight]
                have h5 := pow_le_of_lt hm.1
                have h6 := pow_le_of_lt hm.2
                have h7 := pow_mono (show P.Lw.length + P.Gw.length ≤ S.length by omega)
                omega
      | (S1, some S2) :: stack =>
          rw [List.forall_mem_cons] at hstack
          have hS : S1.Nodup ∧ S2.Nodup := hstack.1
          simp only [weights, weight] at hfuel
          have hpos := pow_pos' (S1.length + S2.length)
          simp only [blocks]
          split
          · split
            · exact ih (step + 1) stack hstack.2 (by omega)
            · obtain ⟨out, h⟩ := ih (step + 1) stack hstack.2 (by omega)
              exact ⟨_, by rw [h]; rfl⟩
          · next hN =>
              rw [if_neg (by omega)]
              obtain ⟨h3, hside⟩ := hp.2 step S1 S2 (by omega)
              generalize pivots step (S1, some S2) = pv at *
              obtain ⟨p1, p2⟩ := pv
              simp only at h3 hside ⊢
              have hget : ∃ x y, (if p1 < S1.length then S1[p1]? else S2[p1 - S1.length]?) = some x ∧
                  (if p2 < S1.length then S1[p2]? else S2[p2 - S1.length]?) = some y ∧ x ≠ y ∧
                  ((x ∈ S1 ∧ y ∈ S1) ∨ (x ∈ S2 ∧ y ∈ S2)) := by
                rcases hside with ⟨h1, h2⟩ | ⟨h1, h1', h2, h2'⟩
                · rw [if_pos h1, if_pos h2, List.getElem?_eq_getElem h1, List.getElem?_eq_getElem h2]
                  refine ⟨_, _, rfl, rfl, ?_, Or.inl ⟨List.getElem_mem h1, List.getElem_mem h2⟩⟩
                  intro h; exact h3 ((List.getElem_inj hS.1).mp h)
                · have h1'' : p1 - S1.length < S2.length := by omega
                  have h2'' : p2 - S1.length < S2.length := by omega
                  rw [if_neg (by omega), if_neg (by omega), List.getElem?_eq_getElem h1'',
                    List.getElem?_eq_getElem h2'']
                  refine ⟨_, _, rfl, rfl, ?_, Or.inr ⟨List.getElem_mem h1'', List.getElem_mem h2''⟩⟩
                  intro h
                  have := (List.getElem_inj hS.2).mp h
                  omega
              obtain ⟨x, y, hx, hy, hne, hmem⟩ := hget
              rw [hx, hy]
              simp only
              have hsz1 := partition_sizes distance x radius (beta * distance x y) S1
              have hsz2 := partition_sizes distance x radius (beta * distance x y) S2
              have hnr1 := noRepeat_parts (distance := distance) (p := x) (radius := radius)
                (rho := beta * distance x y) hS.1
              have hnr2 := noRepeat_parts (distance := distance) (p := x) (radius := radius)
                (rho := beta * distance x y) hS.2
              have hm : ((partition distance x radius (beta * distance x y) S1).L.length < S1.length ∧
                  (partition distance x radius (beta * distance x y) S1).G.length < S1.length) ∨
                  ((partition distance x radius (beta * distance x y) S2).L.length < S2.length ∧
                  (partition distance x radius (beta * distance x y) S2).G.length < S2.length) := by
                rcases hmem with ⟨h1, h2⟩ | ⟨h1, h2⟩
                · exact Or.inl (partition_smaller hd hb hb' hne h1 h2)
                · exact Or.inr (partition_smaller hd hb hb' hne h1 h2)
              generalize partition distance x radius (beta * distance x y) S1 = P1 at *
              generalize partition distance x radius (beta * distance x y) S2 = P2 at *
              simp only at hm hsz1 hsz2 hnr1 hnr2
              apply ih
              · simp only [List.forall_mem_cons]
                exact ⟨⟨hnr1.2.2.2, hnr2.2.2.1⟩, ⟨hnr1.2.2.1, hnr2.2.2.2⟩, ⟨hnr1.2.1, hnr2.2.1⟩, ⟨hnr1.1, hnr2.1⟩,
                  hstack.2⟩
              · simp only [weights, weight]
                have h4 := pow_le_of_lt (show P1.Gw.length + P2.Lw.length < S1.length + S2.length by omega)
                have h5 := pow_le_of_lt (show P1.Lw.length + P2.Gw.length < S1.length + S2.length by omega)
                have h6 := pow_le_of_lt (show P1.G.length + P2.G.length < S1.length + S2.length by omega)
                have h7 := pow_le_of_lt (show P1.L.length + P2.L.length < S1.length + S2.length by omega)
                omega

/-- A block of equal items is never done with. -/
theorem blocks_diverges {distance : α → α → K} {radius beta : K} {block_size : Nat} {pivots : Pivots α} {a : α} {n : Nat}
    (ha : distance a a = 0) (hn : block_size < n) (fuel : Nat) : ∀ (step : Nat) (stack : List (Block α)),
    (List.replicate n a, none) ∈ stack → blocks distance radius beta block_size pivots fuel step stack = none := by
  induction fuel with
  | zero => intro step stack _; rfl
  | succ fuel ih =>
      intro step stack hmem
      match stack with
      | [] => cases hmem
      | (S, none) :: stack =>
          simp only [blocks]
          rcases List.mem_cons.mp hmem with h | h
          · have hS : S = List.replicate n a := by cases h; rfl
            subst hS
            rw [if_neg (by simp; omega)]
            split
            · rfl
            · split
              · next p1 p2 h1 h2 =>
                  have e1 : p1 = a := List.eq_of_mem_replicate (List.mem_of_getElem? h1)
                  have e2 : p2 = a := List.eq_of_mem_replicate (List.mem_of_getElem? h2)
                  subst e1 e2
                  apply ih
                  rw [partition_eq]
                  simp only [ha, mul_zero]
                  have : (List.replicate n p2).filter (fun x => !decide (distance p2 x < 0)) = List.replicate n p2 := by
                    rw [List.filter_eq_self]
                    intro x hx
                    rw [List.eq_of_mem_replicate hx]
                    simp [ha]
                  rw [this]
                  simp
              · rfl
          · split
            · rw [ih _ _ h]; rfl
            · split
              · rfl
              · split
                · exact ih _ _ (by simp [h])
                · rfl
      | (S1, some S2) :: stack =>
          have h : (List.replicate n a, none) ∈ stack := by simpa using hmem
          simp only [blocks]
          split
          · split
            · exact ih _ _ h
            · rw [ih _ _ h]; rfl
          · split
            · rfl
            · split
              · exact ih _ _ (by simp [h])
              · rfl

end Fog.Quickjoin
