import Verif.Props.KeyLevenshtein
import Mathlib.Data.List.Chain

/-!
# C10: exactly which strings of a same length, multiple of three, share a block of levenshtein_2d_blocks
-/

namespace Fog.Props

open Fog.Spec Fog.KeyLevenshtein

variable {α : Type _}

theorem blocks_slice_getElem? (s : List α) (i j p : ℕ) : (slice s i j)[p]? = if p < j - i then s[i + p]? else none := by
  unfold slice
  rw [List.getElem?_drop, List.getElem?_take]
  by_cases h : p < j - i
  · rw [if_pos h, if_pos (by omega)]
  · rw [if_neg h, if_neg (by omega)]

/-- C10: two strings of the same length, a multiple of three, share a block exactly when one of their thirds is the same. -/
theorem levenshtein_2d_blocks_same_length (f1 f2 f3 : α) (h12 : f1 ≠ f2) (h13 : f1 ≠ f3) (h23 : f2 ≠ f3) (A B : List α) (h : ℕ)
    (hA : A.length = 3 * h) (hB : B.length = 3 * h) :
    ∃ x y, levenshtein2dBlocks false f1 f2 f3 A = .ok x ∧ levenshtein2dBlocks false f1 f2 f3 B = .ok y ∧
      ((∃ k, k ∈ x ∧ k ∈ y) ↔ ∃ r < 3, ∀ p, r * h ≤ p → p < (r + 1) * h → A[p]? = B[p]?) := by
  have hx : ∀ S : List α, S.length = 3 * h →
      levenshtein2dBlocks false f1 f2 f3 S = .ok [f1 :: S.take h, f2 :: slice S h (h * 2), f3 :: S.drop (h * 2)] := by
    intro S hS
    unfold levenshtein2dBlocks
    have h1 : 3 * h % 3 = 0 := by omega
    have h2 : 3 * h / 3 = h := by omega
    simp [hS, h1, h2]
  refine ⟨_, _, hx A hA, hx B hB, ?_⟩
  have e1 : A.take h = B.take h ↔ ∀ p, 0 * h ≤ p → p < (0 + 1) * h → A[p]? = B[p]? := by
    constructor
    · intro he p _ hp
      have := congrArg (fun l => l[p]?) he
      simpa [List.getElem?_take, show p < h by omega] using this
    · intro he
      apply List.ext_getElem?
      intro p
      rw [List.getElem?_take, List.getElem?_take]
      split
      · exact he p (by omega) (by omega)
      · rfl
  have e2 : slice A h (h * 2) = slice B h (h * 2) ↔ ∀ p, 1 * h ≤ p → p < (1 + 1) * h → A[p]? = B[p]? := by
    constructor
    · intro he p hp1 hp2
      have := congrArg (fun l => l[p - h]?) he
      simp only [blocks_slice_getElem?] at this
      rw [if_pos (by omega), if_pos (by omega), show h + (p - h) = p by omega] at this
      exact this
    · intro he
      apply List.ext_getElem?
      intro p
      rw [blocks_slice_getElem?, blocks_slice_getElem?]
      split
      · exact he (h + p) (by omega) (by omega)
      · rfl
  have e3 : A.drop (h * 2) = B.drop (h * 2) ↔ ∀ p, 2 * h ≤ p → p < (2 + 1) * h → A[p]? = B[p]? := by
    constructor
    · intro he p hp1 hp2
      have := congrArg (fun l => l[p - h * 2]?) he
      simp only [List.getElem?_drop] at this
      rwa [show h * 2 + (p - h * 2) = p by omega] at this
    · intro he
      apply List.ext_getElem?
      intro p
      rw [List.getElem?_drop, List.getElem?_drop]
      by_cases hp : h * 2 + p < 3 * h
      · exact he _ (by omega) (by omega)
      · rw [List.getElem?_eq_none (by omega), List.getElem?_eq_none (by omega)]
  constructor
  · rintro ⟨k, hk1, hk2⟩
    simp only [List.mem_cons, List.not_mem_nil, or_false] at hk1 hk2
    rcases hk1 with rfl | rfl | rfl
    · rcases hk2 with h1 | h1 | h1
      · exact ⟨0, by omega, e1.mp (List.cons.inj h1).2⟩
      · exact absurd (List.cons.inj h1).1 h12
      · exact absurd (List.cons.inj h1).1 h13
    · rcases hk2 with h1 | h1 | h1
      · exact absurd (List.cons.inj h1).1 h12.symm
      · exact ⟨1, by omega, e2.mp (List.cons.inj h1).2⟩
      · exact absurd (List.cons.inj h1).1 h23
    · rcases hk2 with h1 | h1 | h1
      · exact absurd (List.cons.inj h1).1 h13.symm
      · exact absurd (List.cons.inj h1).1 h23.symm
      · exact ⟨2, by omega, e3.mp (List.cons.inj h1).2⟩
  · rintro ⟨r, hr, he⟩
    match r, hr with
    | 0, _ => exact ⟨f1 :: A.take h, by simp, by rw [e1.mpr he]; simp⟩
    | 1, _ => exact ⟨f2 :: slice A h (h * 2), by simp, by rw [e2.mpr he]; simp⟩
    | 2, _ => exact ⟨f3 :: A.drop (h * 2), by simp, by rw [e3.mpr he]; simp⟩

/-- C10: a letter `c` is taken away and a letter `d` is put further, the length being a multiple of three. A block is shared exactly when
in some third each letter between the two places is the same as the next one. -/
theorem levenshtein_2d_blocks_shift (f1 f2 f3 : α) (h12 : f1 ≠ f2) (h13 : f1 ≠ f3) (h23 : f2 ≠ f3) (u v w : List α) (c d : α) (h : ℕ)
    (hn : u.length + v.length + w.length + 1 = 3 * h) :
    ∃ x y, levenshtein2dBlocks false f1 f2 f3 (u ++ c :: v ++ w) = .ok x ∧ levenshtein2dBlocks false f1 f2 f3 (u ++ v ++ d :: w) = .ok y ∧
      ((∃ k, k ∈ x ∧ k ∈ y) ↔ ∃ r < 3, ∀ p, r * h ≤ u.length + p → u.length + p < (r + 1) * h → p ≤ v.length →
        (c :: v ++ [d])[p]? = (c :: v ++ [d])[p + 1]?) := by
  obtain ⟨x, y, hx, hy, hiff⟩ := levenshtein_2d_blocks_same_length f1 f2 f3 h12 h13 h23 (u ++ c :: v ++ w) (u ++ v ++ d :: w) h
    (by simp; omega) (by simp; omega)
  refine ⟨x, y, hx, hy, hiff.trans ?_⟩
  have hin : ∀ p, p ≤ v.length → (u ++ c :: v ++ w)[u.length + p]? = (c :: v ++ [d])[p]? ∧
      (u ++ v ++ d :: w)[u.length + p]? = (c :: v ++ [d])[p + 1]? := by
    intro p hp
    constructor
    · rw [List.append_assoc, List.getElem?_append_right (by omega), show u.length + p - u.length = p by omega,
        List.getElem?_append_left (by simp; omega), List.getElem?_append_left (by simp; omega)]
    · rw [List.append_assoc, List.getElem?_append_right (by omega), show u.length + p - u.length = p by omega, List.cons_append,
        List.getElem?_cons_succ]
      rcases Nat.lt_or_eq_of_le hp with hp | rfl
      · rw [List.getElem?_append_left hp, List.getElem?_append_left hp]
      · simp
  have hout : ∀ p, p < u.length ∨ u.length + v.length < p → (u ++ c :: v ++ w)[p]? = (u ++ v ++ d :: w)[p]? := by
    rintro p (hp | hp)
    · rw [List.append_assoc, List.append_assoc, List.getElem?_append_left hp, List.getElem?_append_left hp]
    · rw [List.getElem?_append_right (by simp; omega), List.getElem?_append_right (by simp; omega)]
      simp only [List.length_append, List.length_cons]
      rw [show p - (u.length + v.length) = (p - (u.length + (v.length + 1))) + 1 by omega, List.getElem?_cons_succ]
  constructor
  · rintro ⟨r, hr, he⟩
    refine ⟨r, hr, fun p h1 h2 h3 => ?_⟩
    have := he (u.length + p) h1 h2
    rwa [(hin p h3).1, (hin p h3).2] at this
  · rintro ⟨r, hr, he⟩
    refine ⟨r, hr, fun p h1 h2 => ?_⟩
    by_cases hp : p < u.length ∨ u.length + v.length < p
    · exact hout p hp
    · have h4 := hin (p - u.length) (by omega)
      rw [show u.length + (p - u.length) = p by omega] at h4
      rw [h4.1, h4.2]
      exact he _ (by omega) (by omega) (by omega)

/-- C10: when no letter between the two places is the same as the next one, a block is shared exactly when one of the places is not in the
third at its end. -/
theorem levenshtein_2d_blocks_shift_plain (f1 f2 f3 : α) (h12 : f1 ≠ f2) (h13 : f1 ≠ f3) (h23 : f2 ≠ f3) (u v w : List α) (c d : α)
    (h : ℕ) (hn : u.length + v.length + w.length + 1 = 3 * h) (hc : (c :: v ++ [d]).IsChain (· ≠ ·)) :
    ∃ x y, levenshtein2dBlocks false f1 f2 f3 (u ++ c :: v ++ w) = .ok x ∧ levenshtein2dBlocks false f1 f2 f3 (u ++ v ++ d :: w) = .ok y ∧
      ((∃ k, k ∈ x ∧ k ∈ y) ↔ h ≤ u.length ∨ h ≤ w.length) := by
  obtain ⟨x, y, hx, hy, hiff⟩ := levenshtein_2d_blocks_shift f1 f2 f3 h12 h13 h23 u v w c d h hn
  refine ⟨x, y, hx, hy, hiff.trans ?_⟩
  have hne : ∀ p, p ≤ v.length → (c :: v ++ [d])[p]? ≠ (c :: v ++ [d])[p + 1]? := by
    intro p hp he
    rw [List.isChain_iff_getElem] at hc
    have hl : (c :: v ++ [d]).length = v.length + 2 := by simp
    have h1 := hc p (by omega)
    rw [List.getElem?_eq_getElem (by omega), List.getElem?_eq_getElem (by omega)] at he
    exact h1 (Option.some.inj he)
  constructor
  · rintro ⟨r, hr, he⟩
    by_contra hcon
    push Not at hcon
    obtain ⟨h1, h2⟩ := hcon
    match r, hr with
    | 0, _ => exact hne 0 (by omega) (he 0 (by omega) (by omega) (by omega))
    | 1, _ => exact hne (h - u.length) (by omega) (he _ (by omega) (by omega) (by omega))
    | 2, _ => exact hne (2 * h - u.length) (by omega) (he _ (by omega) (by omega) (by omega))
  · rintro (h1 | h1)
    · exact ⟨0, by omega, fun p h2 h3 h4 => by omega⟩
    · exact ⟨2, by omega, fun p h2 h3 h4 => by omega⟩

theorem align_zero {A B : List α} (h : Align A B 0) : A = B := by
  generalize hn : 0 = n at h
  induction h with
  | nil => rfl
  | keep x _ ih => rw [ih hn]
  | sub | del | ins => omega

theorem align_one_longer {A B : List α} (h : Align A B 1) (hl : B.length = A.length + 1) : ∃ p y q, A = p ++ q ∧ B = p ++ y :: q := by
  generalize hn : 1 = n at h
  induction h with
  | nil => omega
  | keep x _ ih =>
    obtain ⟨p, y, q, rfl, rfl⟩ := ih (by simpa using hl) hn
    exact ⟨x :: p, y, q, rfl, rfl⟩
  | sub x y h' _ =>
    obtain rfl := Nat.succ.inj hn
    rw [align_zero h'] at hl
    simp at hl
  | del x h' _ =>
    obtain rfl := Nat.succ.inj hn
    rw [align_zero h'] at hl
    simp at hl
    omega
  | ins y h' _ =>
    obtain rfl := Nat.succ.inj hn
    exact ⟨[], y, _, rfl, by rw [align_zero h']; rfl⟩

theorem align_one_shorter {A B : List α} (h : Align A B 1) (hl : A.length = B.length + 1) : ∃ p y q, B = p ++ q ∧ A = p ++ y :: q := by
  generalize hn : 1 = n at h
  induction h with
  | nil => omega
  | keep x _ ih =>
    obtain ⟨p, y, q, rfl, rfl⟩ := ih (by simpa using hl) hn
    exact ⟨x :: p, y, q, rfl, rfl⟩
  | sub x y h' _ =>
    obtain rfl := Nat.succ.inj hn
    rw [align_zero h'] at hl
    simp at hl
  | ins x h' _ =>
    obtain rfl := Nat.succ.inj hn
    rw [align_zero h'] at hl
    simp at hl
    omega
  | del y h' _ =>
    obtain rfl := Nat.succ.inj hn
    exact ⟨[], y, _, rfl, by rw [align_zero h']; rfl⟩

theorem differ_refl (n : ℕ) : (A : List α) → Differ n A A
  | [] => .nil n
  | x :: A => .same x (differ_refl n A)

theorem differ_succ {n : ℕ} {A B : List α} (h : Differ n A B) : Differ (n + 1) A B := by
  induction h with
  | nil n => exact .nil _
  | same x _ ih => exact .same x ih
  | diff x y _ ih => exact .diff x y ih

theorem align_one_same {A B : List α} (h : Align A B 1) (hl : A.length = B.length) : Differ 1 A B := by
  generalize hn : 1 = n at h
  induction h with
  | nil => exact .nil _
  | keep x _ ih => exact .same x (ih (by simpa using hl) hn)
  | sub x y h' _ =>
    obtain rfl := Nat.succ.inj hn
    rw [align_zero h']
    exact .diff x y (differ_refl 0 _)
  | ins x h' _ =>
    obtain rfl := Nat.succ.inj hn
    rw [align_zero h'] at hl
    simp at hl
  | del y h' _ =>
    obtain rfl := Nat.succ.inj hn
    rw [align_zero h'] at hl
    simp at hl

theorem align_two_same {A B : List α} (h : Align A B 2) (hl : A.length = B.length) :
    Differ 2 A B ∨ (∃ u c v d w, A = u ++ c :: v ++ w ∧ B = u ++ v ++ d :: w) ∨
      ∃ u c v d w, B = u ++ c :: v ++ w ∧ A = u ++ v ++ d :: w := by
  generalize hn : 2 = n at h
  induction h with
  | nil => omega
  | keep x _ ih =>
    rcases ih (by simpa using hl) hn with h | ⟨u, c, v, d, w, rfl, rfl⟩ | ⟨u, c, v, d, w, rfl, rfl⟩
    · exact .inl (.same x h)
    · exact .inr (.inl ⟨x :: u, c, v, d, w, rfl, rfl⟩)
    · exact .inr (.inr ⟨x :: u, c, v, d, w, rfl, rfl⟩)
  | sub x y h' _ =>
    obtain rfl := Nat.succ.inj hn
    exact .inl (.diff x y (align_one_same h' (by simpa using hl)))
  | del x h' _ =>
    obtain rfl := Nat.succ.inj hn
    obtain ⟨p, y, q, rfl, rfl⟩ := align_one_longer h' (by simpa using hl.symm)
    exact .inr (.inl ⟨[], x, p, y, q, rfl, rfl⟩)
  | ins x h' _ =>
    obtain rfl := Nat.succ.inj hn
    obtain ⟨p, y, q, rfl, rfl⟩ := align_one_shorter h' (by simpa using hl)
    exact .inr (.inr ⟨[], x, p, y, q, rfl, rfl⟩)

/-- Two strings of the same length within two edits differ in two places at most, or one letter is taken away and another put further, or
the other way around. -/
theorem withinEdits_two_same_length {A B : List α} (hl : A.length = B.length) (h : WithinEdits 2 A B) :
    Differ 2 A B ∨ (∃ u c v d w, A = u ++ c :: v ++ w ∧ B = u ++ v ++ d :: w) ∨
      ∃ u c v d w, B = u ++ c :: v ++ w ∧ A = u ++ v ++ d :: w := by
  obtain ⟨k, hk, ha⟩ := withinEdits_iff.mp h
  rcases (by omega : k = 0 ∨ k = 1 ∨ k = 2) with rfl | rfl | rfl
  · exact .inl (align_zero ha ▸ differ_refl 2 A)
  · exact .inl (differ_succ (align_one_same ha hl))
  · exact align_two_same ha hl

/-- C10, the case the theorems above leave out, made exact: two strings within two edits of a same length, a multiple of three, share no block
exactly when one letter is taken away and another put further, and each third holds, between the two places, a letter which is not the same as
the next one. -/
theorem levenshtein_2d_blocks_missed_partial (f1 f2 f3 : α) (h12 : f1 ≠ f2) (h13 : f1 ≠ f3) (h23 : f2 ≠ f3) (A B : List α) (h : ℕ)
    (hA : A.length = 3 * h) (hB : B.length = 3 * h) (hw : WithinEdits 2 A B) :
    ∃ x y, levenshtein2dBlocks false f1 f2 f3 A = .ok x ∧ levenshtein2dBlocks false f1 f2 f3 B = .ok y ∧
      ((¬ ∃ k, k ∈ x ∧ k ∈ y) ↔ ∃ u c v d w,
        ((A = u ++ c :: v ++ w ∧ B = u ++ v ++ d :: w) ∨ (B = u ++ c :: v ++ w ∧ A = u ++ v ++ d :: w)) ∧
        ∀ r < 3, ∃ p, r * h ≤ u.length + p ∧ u.length + p < (r + 1) * h ∧ p ≤ v.length ∧
          (c :: v ++ [d])[p]? ≠ (c :: v ++ [d])[p + 1]?) := by
  obtain ⟨x, y, hx, hy, -⟩ := levenshtein_2d_blocks_same_length f1 f2 f3 h12 h13 h23 A B h hA hB
  refine ⟨x, y, hx, hy, ?_⟩
  have key : ∀ {A B : List α} {x y : List (List α)} (u : List α) (c : α) (v : List α) (d : α) (w : List α), A.length = 3 * h →
      levenshtein2dBlocks false f1 f2 f3 A = .ok x → levenshtein2dBlocks false f1 f2 f3 B = .ok y → A = u ++ c :: v ++ w →
      B = u ++ v ++ d :: w → ((¬ ∃ k, k ∈ x ∧ k ∈ y) ↔ ∀ r < 3, ∃ p, r * h ≤ u.length + p ∧ u.length + p < (r + 1) * h ∧ p ≤ v.length ∧
          (c :: v ++ [d])[p]? ≠ (c :: v ++ [d])[p + 1]?) := by
    rintro A B x y u c v d w hA hx hy rfl rfl
    obtain ⟨x', y', hx', hy', hiff⟩ := levenshtein_2d_blocks_shift f1 f2 f3 h12 h13 h23 u v w c d h
      (by simp only [List.length_append, List.length_cons] at hA; omega)
    rw [hx] at hx'
    rw [hy] at hy'
    obtain rfl := Except.ok.inj hx'
    obtain rfl := Except.ok.inj hy'
    rw [hiff]
    push Not
    exact Iff.rfl
  constructor
  · intro hno
    rcases withinEdits_two_same_length (hA.trans hB.symm) hw with hd | ⟨u, c, v, d, w, h1, h2⟩ | ⟨u, c, v, d, w, h1, h2⟩
    · exact absurd (levenshtein_2d_blocks_substitutions_partial false f1 f2 f3 A B x y hd hx hy) hno
    · exact ⟨u, c, v, d, w, .inl ⟨h1, h2⟩, (key u c v d w hA hx hy h1 h2).mp hno⟩
    · exact ⟨u, c, v, d, w, .inr ⟨h1, h2⟩, (key u c v d w hB hy hx h1 h2).mp fun ⟨k, h3, h4⟩ => hno ⟨k, h4, h3⟩⟩
  · rintro ⟨u, c, v, d, w, ⟨h1, h2⟩ | ⟨h1, h2⟩, hp⟩
    · exact (key u c v d w hA hx hy h1 h2).mpr hp
    · exact fun ⟨k, h3, h4⟩ => (key u c v d w hB hy hx h1 h2).mpr hp ⟨k, h4, h3⟩

/-- "abcdef" and "abdexf": a letter is taken from the second third and one put in the last; the first third is shared. -/
example : WithinEdits 2 (cps "abcdef") (cps "abdexf") ∧ (cps "abcdef").length = 3 * 2 ∧ (cps "abdexf").length = 3 * 2 ∧
    cps "abcdef" = cps "ab" ++ 99 :: cps "de" ++ cps "f" ∧ cps "abdexf" = cps "ab" ++ cps "de" ++ 120 :: cps "f" ∧
    (99 :: cps "de" ++ [120]).IsChain (· ≠ ·) ∧ 2 ≤ (cps "ab").length :=
  ⟨⟨2, Nat.le_refl 2, .cons (.delete (cps "ab") (cps "def") 99) (.cons (.insert (cps "abde") (cps "f") 120) (.nil _))⟩, by decide, by decide,
    by decide, by decide, by decide, by decide⟩

/-- "abcdef" and "bcdefx" share no block. -/
example : WithinEdits 2 (cps "abcdef") (cps "bcdefx") ∧ (cps "abcdef").length = 3 * 2 ∧ (cps "bcdefx").length = 3 * 2 ∧
    ∀ r < 3, ∃ p, r * 2 ≤ ([] : List Nat).length + p ∧ ([] : List Nat).length + p < (r + 1) * 2 ∧ p ≤ (cps "bcdef").length ∧
      (97 :: cps "bcdef" ++ [120])[p]? ≠ (97 :: cps "bcdef" ++ [120])[p + 1]? :=
  ⟨⟨2, Nat.le_refl 2, .cons (.delete [] (cps "bcdef") 97) (.cons (.insert (cps "bcdef") [] 120) (.nil _))⟩, by decide, by decide,
    fun r hr => ⟨2 * r, by simp; omega, by simp; omega, by
      have : (cps "bcdef").length = 5 := by decide
      omega, by
      match r, hr with
      | 0, _ => decide
      | 1, _ => decide
      | 2, _ => decide⟩⟩

end Fog.Props
