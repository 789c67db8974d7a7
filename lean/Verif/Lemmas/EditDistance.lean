import Verif.Spec.EditDistance

/-!
# Alignments and the recursive edit distance

`Align a b n`: an alignment of `a` and `b` with `n` edits.  `lev` is the recursive edit distance.
Both are tied to the specification by `isEditDistance_lev`.
-/

namespace Fog
open Spec

variable {α : Type _}

/-- Alignments of two strings with their number of edits. -/
inductive Align : List α → List α → Nat → Prop
  | nil : Align [] [] 0
  | keep {a b n} (x : α) : Align a b n → Align (x :: a) (x :: b) n
  | sub {a b n} (x y : α) : Align a b n → Align (x :: a) (y :: b) (n + 1)
  | del {a b n} (x : α) : Align a b n → Align (x :: a) b (n + 1)
  | ins {a b n} (y : α) : Align a b n → Align a (y :: b) (n + 1)

namespace Align

theorem refl : (a : List α) → Align a a 0
  | [] => .nil
  | x :: a => .keep x (refl a)

theorem symm {a b : List α} {n} (h : Align a b n) : Align b a n := by
  induction h with
  | nil => exact .nil
  | keep x _ ih => exact .keep x ih
  | sub x y _ ih => exact .sub y x ih
  | del x _ ih => exact .ins x ih
  | ins y _ ih => exact .del y ih

theorem append {a b c d : List α} {n m} (h : Align a b n) (k : Align c d m) :
    Align (a ++ c) (b ++ d) (n + m) := by
  induction h with
  | nil => simpa using k
  | keep x _ ih => exact .keep x ih
  | @sub a b n x y _ ih =>
      have := Align.sub x y ih
      rw [show n + 1 + m = n + m + 1 by omega]; exact this
  | @del a b n x _ ih =>
      have := Align.del x ih
      rw [show n + 1 + m = n + m + 1 by omega]; exact this
  | @ins a b n x _ ih =>
      have := Align.ins x ih
      rw [show n + 1 + m = n + m + 1 by omega]; exact this

theorem all_ins : (b : List α) → Align [] b b.length
  | [] => .nil
  | y :: b => .ins y (all_ins b)

theorem all_del (a : List α) : Align a [] a.length := (all_ins a).symm

theorem length_le {a b : List α} {n} (h : Align a b n) :
    a.length ≤ b.length + n ∧ b.length ≤ a.length + n := by
  induction h <;> simp only [List.length_cons, List.length_nil] at * <;> omega

theorem eq_of_zero {a b : List α} (h : Align a b 0) : a = b := by
  generalize hn : 0 = n at h
  induction h with
  | nil => rfl
  | keep x _ ih => rw [ih hn]
  | sub => omega
  | del => omega
  | ins => omega

/-- Splitting an alignment along a split of its right side. -/
theorem split {a : List α} {n} : ∀ (u v : List α), Align a (u ++ v) n →
    ∃ a1 a2 n1 n2, a = a1 ++ a2 ∧ Align a1 u n1 ∧ Align a2 v n2 ∧ n = n1 + n2 := by
  intro u v h
  generalize hb : u ++ v = b at h
  induction h generalizing u with
  | nil =>
      obtain ⟨rfl, rfl⟩ := List.append_eq_nil_iff.mp hb
      exact ⟨[], [], 0, 0, rfl, .nil, .nil, rfl⟩
  | @keep a b n x h ih =>
      cases u with
      | nil =>
          simp only [List.nil_append] at hb
          subst hb
          exact ⟨[], x :: a, 0, n, rfl, .nil, .keep x h, by omega⟩
      | cons c u =>
          simp only [List.cons_append, List.cons.injEq] at hb
          obtain ⟨rfl, hb⟩ := hb
          obtain ⟨a1, a2, n1, n2, rfl, h1, h2, rfl⟩ := ih u hb
          exact ⟨c :: a1, a2, n1, n2, rfl, .keep c h1, h2, rfl⟩
  | @sub a b n x y h ih =>
      cases u with
      | nil =>
          simp only [List.nil_append] at hb
          subst hb
          exact ⟨[], x :: a, 0, n + 1, rfl, .nil, .sub x y h, by omega⟩
      | cons c u =>
          simp only [List.cons_append, List.cons.injEq] at hb
          obtain ⟨rfl, hb⟩ := hb
          obtain ⟨a1, a2, n1, n2, rfl, h1, h2, rfl⟩ := ih u hb
          exact ⟨x :: a1, a2, n1 + 1, n2, rfl, .sub x c h1, h2, by omega⟩
  | @del a b n x h ih =>
      obtain ⟨a1, a2, n1, n2, rfl, h1, h2, rfl⟩ := ih u hb
      exact ⟨x :: a1, a2, n1 + 1, n2, rfl, .del x h1, h2, by omega⟩
  | @ins a b n y h ih =>
      cases u with
      | nil =>
          simp only [List.nil_append] at hb
          subst hb
          exact ⟨[], a, 0, n + 1, rfl, .nil, .ins y h, by omega⟩
      | cons c u =>
          simp only [List.cons_append, List.cons.injEq] at hb
          obtain ⟨rfl, hb⟩ := hb
          obtain ⟨a1, a2, n1, n2, rfl, h1, h2, rfl⟩ := ih u hb
          exact ⟨a1, a2, n1 + 1, n2, rfl, .ins c h1, h2, by omega⟩

/-- Dropping the first character of the right side costs at most one more edit. -/
theorem drop_right {a b : List α} {n} (x : α) (h : Align a (x :: b) n) :
    ∃ m, m ≤ n + 1 ∧ Align a b m := by
  generalize hc : x :: b = c at h
  induction h with
  | nil => cases hc
  | keep y h _ =>
      cases hc
      exact ⟨_, by omega, .del x h⟩
  | sub y z h _ =>
      cases hc
      exact ⟨_, by omega, .del y h⟩
  | del y h ih =>
      obtain ⟨m, hm, h'⟩ := ih hc
      exact ⟨m + 1, by omega, .del y h'⟩
  | ins y h _ =>
      cases hc
      exact ⟨_, by omega, h⟩

/-- Changing the first character of the right side costs at most one more edit. -/
theorem subst_right {a b : List α} {n} (x y : α) (h : Align a (x :: b) n) :
    ∃ m, m ≤ n + 1 ∧ Align a (y :: b) m := by
  generalize hc : x :: b = c at h
  induction h with
  | nil => cases hc
  | keep z h _ =>
      cases hc
      exact ⟨_, by omega, .sub x y h⟩
  | sub z w h _ =>
      cases hc
      exact ⟨_, by omega, .sub z y h⟩
  | del z h ih =>
      obtain ⟨m, hm, h'⟩ := ih hc
      exact ⟨m + 1, by omega, .del z h'⟩
  | ins z h _ =>
      cases hc
      exact ⟨_, by omega, .ins y h⟩

/-- One more edit of the right side costs at most one. -/
theorem edit_right {a b c : List α} {n} (h : Align a b n) (e : Edit b c) :
    ∃ m, m ≤ n + 1 ∧ Align a c m := by
  cases e with
  | insert u v x =>
      obtain ⟨a1, a2, n1, n2, rfl, h1, h2, rfl⟩ := split u v h
      exact ⟨n1 + (n2 + 1), by omega, h1.append (.ins x h2)⟩
  | delete u v x =>
      obtain ⟨a1, a2, n1, n2, rfl, h1, h2, rfl⟩ := split u (x :: v) h
      obtain ⟨m, hm, h3⟩ := drop_right x h2
      exact ⟨n1 + m, by omega, h1.append h3⟩
  | subst u v x y =>
      obtain ⟨a1, a2, n1, n2, rfl, h1, h2, rfl⟩ := split u (x :: v) h
      obtain ⟨m, hm, h3⟩ := subst_right x y h2
      exact ⟨n1 + m, by omega, h1.append h3⟩

end Align

/-! ### Chains of edits -/

theorem Edit.cons {a b : List α} (x : α) (h : Edit a b) : Edit (x :: a) (x :: b) := by
  cases h with
  | insert u v c => exact Edit.insert (x :: u) v c
  | delete u v c => exact Edit.delete (x :: u) v c
  | subst u v c d => exact Edit.subst (x :: u) v c d

theorem Edit.symm {a b : List α} (h : Edit a b) : Edit b a := by
  cases h with
  | insert u v c => exact Edit.delete u v c
  | delete u v c => exact Edit.insert u v c
  | subst u v c d => exact Edit.subst u v d c

theorem DEdit.symm {a b : List α} (h : DEdit a b) : DEdit b a := by
  cases h with
  | edit h => exact .edit (Edit.symm h)
  | swap u v c d => exact .swap u v d c

theorem Chain.cons_edit {n} {a b : List α} (x : α) (h : Chain Edit n a b) :
    Chain Edit n (x :: a) (x :: b) := by
  induction h with
  | nil a => exact .nil _
  | cons e _ ih => exact .cons (Edit.cons x e) ih

theorem Align.chain {a b : List α} {n} (h : Align a b n) : Chain Edit n a b := by
  induction h with
  | nil => exact .nil _
  | keep x _ ih => exact Chain.cons_edit x ih
  | @sub a b n x y _ ih => exact .cons (Edit.subst [] a x y) (Chain.cons_edit y ih)
  | @del a b n x _ ih => exact .cons (Edit.delete [] a x) ih
  | @ins a b n y _ ih => exact .cons (Edit.insert [] a y) (Chain.cons_edit y ih)

theorem align_of_chain' {n} {b c : List α} (h : Chain Edit n b c) :
    ∀ (a : List α) (k : Nat), Align a b k → ∃ m, m ≤ k + n ∧ Align a c m := by
  induction h with
  | nil b => intro a k h; exact ⟨k, by omega, h⟩
  | cons e _ ih =>
      intro a k h
      obtain ⟨m, hm, h1⟩ := h.edit_right e
      obtain ⟨m', hm', h2⟩ := ih a m h1
      exact ⟨m', by omega, h2⟩

theorem align_of_chain {n} {a b : List α} (h : Chain Edit n a b) :
    ∃ m, m ≤ n ∧ Align a b m := by
  obtain ⟨m, hm, h⟩ := align_of_chain' h a 0 (Align.refl a)
  exact ⟨m, by omega, h⟩

theorem withinEdits_iff {n} {a b : List α} :
    WithinEdits n a b ↔ ∃ m, m ≤ n ∧ Align a b m := by
  constructor
  · rintro ⟨m, hm, h⟩
    obtain ⟨k, hk, h⟩ := align_of_chain h
    exact ⟨k, by omega, h⟩
  · rintro ⟨m, hm, h⟩
    exact ⟨m, hm, h.chain⟩

/-! ### The recursive edit distance -/

variable [DecidableEq α]

/-- Recursive edit distance. -/
def lev : List α → List α → Nat
  | [], b => b.length
  | a, [] => a.length
  | x :: a, y :: b =>
      min (lev a b + if x = y then 0 else 1) (min (lev a (y :: b)) (lev (x :: a) b) + 1)
termination_by a b => a.length + b.length

@[simp] theorem lev_nil_left (b : List α) : lev [] b = b.length := by simp [lev]
@[simp] theorem lev_nil_right (a : List α) : lev a [] = a.length := by cases a <;> simp [lev]
theorem lev_cons_cons (x y : α) (a b : List α) : lev (x :: a) (y :: b) =
    min (lev a b + if x = y then 0 else 1) (min (lev a (y :: b)) (lev (x :: a) b) + 1) := by
  rw [lev]

theorem align_lev : ∀ (a b : List α), Align a b (lev a b)
  | [], b => by simpa using Align.all_ins b
  | x :: a, [] => by simpa using Align.all_del (x :: a)
  | x :: a, y :: b => by
      have h1 := align_lev a b
      have h2 := align_lev a (y :: b)
      have h3 := align_lev (x :: a) b
      rw [lev_cons_cons]
      rcases Nat.le_total (lev a b + if x = y then 0 else 1)
        (min (lev a (y :: b)) (lev (x :: a) b) + 1) with h | h
      · rw [Nat.min_eq_left h]
        split
        · rename_i e; subst e; exact .keep x h1
        · exact .sub x y h1
      · rw [Nat.min_eq_right h]
        rcases Nat.le_total (lev a (y :: b)) (lev (x :: a) b) with h' | h'
        · rw [Nat.min_eq_left h']; exact .del x h2
        · rw [Nat.min_eq_right h']; exact .ins y h3
termination_by a b => a.length + b.length

theorem lev_le_of_align {a b : List α} {n} (h : Align a b n) : lev a b ≤ n := by
  induction h with
  | nil => simp
  | keep x _ ih => rw [lev_cons_cons]; simp only [if_true]; omega
  | sub x y _ ih =>
      rw [lev_cons_cons]
      split <;> omega
  | @del a b n x _ ih =>
      cases b with
      | nil => simp at *; omega
      | cons y b => rw [lev_cons_cons]; omega
  | @ins a b n y _ ih =>
      cases a with
      | nil => simp at *; omega
      | cons x a => rw [lev_cons_cons]; omega

theorem isEditDistance_lev (a b : List α) : IsEditDistance a b (lev a b) := by
  refine ⟨(align_lev a b).chain, fun m h => ?_⟩
  obtain ⟨k, hk, h⟩ := align_of_chain h
  exact Nat.le_trans (lev_le_of_align h) hk

theorem isEditDistance_iff {a b : List α} {n} : IsEditDistance a b n ↔ n = lev a b := by
  constructor
  · rintro ⟨h1, h2⟩
    have h3 := (isEditDistance_lev a b)
    exact Nat.le_antisymm (h2 _ h3.1) (h3.2 _ h1)
  · rintro rfl; exact isEditDistance_lev a b

theorem withinEdits_iff_lev {n} {a b : List α} : WithinEdits n a b ↔ lev a b ≤ n := by
  rw [withinEdits_iff]
  constructor
  · rintro ⟨m, hm, h⟩; exact Nat.le_trans (lev_le_of_align h) hm
  · intro h; exact ⟨_, h, align_lev a b⟩

theorem lev_comm (a b : List α) : lev a b = lev b a :=
  Nat.le_antisymm (lev_le_of_align (align_lev b a).symm) (lev_le_of_align (align_lev a b).symm)

theorem lev_self (a : List α) : lev a a = 0 := Nat.le_zero.mp (lev_le_of_align (Align.refl a))

theorem eq_of_lev_eq_zero {a b : List α} (h : lev a b = 0) : a = b := by
  have := align_lev a b
  rw [h] at this
  exact this.eq_of_zero

theorem lev_triangle (a b c : List α) : lev a c ≤ lev a b + lev b c := by
  obtain ⟨m, hm, h⟩ := align_of_chain' (align_lev b c).chain a _ (align_lev a b)
  exact Nat.le_trans (lev_le_of_align h) hm

theorem lev_append_le (a b c d : List α) : lev (a ++ c) (b ++ d) ≤ lev a b + lev c d :=
  lev_le_of_align ((align_lev a b).append (align_lev c d))

theorem lev_length_le (a b : List α) :
    a.length ≤ b.length + lev a b ∧ b.length ≤ a.length + lev a b := (align_lev a b).length_le

omit [DecidableEq α] in
theorem Align.reverse {a b : List α} {n} (h : Align a b n) : Align a.reverse b.reverse n := by
  induction h with
  | nil => exact .nil
  | keep x _ ih => simpa using ih.append (Align.refl [x])
  | sub x y _ ih => simpa using ih.append (Align.sub x y .nil)
  | del x _ ih => simpa using ih.append (Align.del x .nil)
  | ins y _ ih => simpa using ih.append (Align.ins y .nil)

theorem lev_reverse (a b : List α) : lev a.reverse b.reverse = lev a b := by
  apply Nat.le_antisymm
  · exact lev_le_of_align (align_lev a b).reverse
  · have := lev_le_of_align (align_lev a.reverse b.reverse).reverse
    simpa using this

theorem lev_le_max (a b : List α) : lev a b ≤ max a.length b.length := by
  induction a generalizing b with
  | nil => simp
  | cons x a ih =>
      cases b with
      | nil => simp
      | cons y b =>
          have := ih b
          rw [lev_cons_cons]
          simp only [List.length_cons]
          split <;> omega

/-- Adding a character on the left changes the distance by at most one. -/
theorem lev_le_cons_left (x : α) (a b : List α) : lev (x :: a) b ≤ lev a b + 1 :=
  lev_le_of_align (.del x (align_lev a b))

theorem lev_le_cons_left' (x : α) (a b : List α) : lev a b ≤ lev (x :: a) b + 1 := by
  have := lev_triangle a (x :: a) b
  have h2 : lev a (x :: a) ≤ 1 := lev_le_of_align (.ins x (Align.refl a))
  omega

theorem lev_le_cons_right (y : α) (a b : List α) : lev a (y :: b) ≤ lev a b + 1 :=
  lev_le_of_align (.ins y (align_lev a b))

theorem lev_le_cons_right' (y : α) (a b : List α) : lev a b ≤ lev a (y :: b) + 1 := by
  rw [lev_comm a b, lev_comm a (y :: b)]; exact lev_le_cons_left' y b a

theorem lev_cons_same (x : α) (a b : List α) : lev (x :: a) (x :: b) = lev a b := by
  have h1 := lev_le_cons_right' x a b
  have h2 := lev_le_cons_left' x a b
  rw [lev_cons_cons]; simp only [if_true]; omega

theorem lev_cons_ne {x y : α} (h : x ≠ y) (a b : List α) : lev (x :: a) (y :: b) =
    min (lev a b) (min (lev a (y :: b)) (lev (x :: a) b)) + 1 := by
  rw [lev_cons_cons]; simp only [h, if_false]; omega

theorem lev_append_left (p a b : List α) : lev (p ++ a) (p ++ b) = lev a b := by
  induction p with
  | nil => rfl
  | cons x p ih => simp only [List.cons_append, lev_cons_same, ih]

theorem lev_append_right (a b s : List α) : lev (a ++ s) (b ++ s) = lev a b := by
  rw [← lev_reverse]; simp only [List.reverse_append, lev_append_left, lev_reverse]

theorem lev_snoc_same (x : α) (a b : List α) : lev (a ++ [x]) (b ++ [x]) = lev a b :=
  lev_append_right a b [x]

theorem lev_snoc_ne {x y : α} (h : x ≠ y) (a b : List α) : lev (a ++ [x]) (b ++ [y]) =
    min (lev a b) (min (lev a (b ++ [y])) (lev (a ++ [x]) b)) + 1 := by
  have := lev_cons_ne h a.reverse b.reverse
  rw [← lev_reverse (a ++ [x]), ← lev_reverse a b, ← lev_reverse a (b ++ [y]),
    ← lev_reverse (a ++ [x]) b]
  simpa using this

theorem lev_snoc_ge (x y : α) (a b : List α) : lev a b ≤ lev (a ++ [x]) (b ++ [y]) := by
  by_cases h : x = y
  · subst h; rw [lev_snoc_same]; exact Nat.le_refl _
  · rw [lev_snoc_ne h]
    have h1 := lev_le_cons_right' y a.reverse b.reverse
    have h2 := lev_le_cons_left' x a.reverse b.reverse
    have e1 : lev a (b ++ [y]) = lev a.reverse (y :: b.reverse) := by
      rw [← lev_reverse]; simp
    have e2 : lev (a ++ [x]) b = lev (x :: a.reverse) b.reverse := by
      rw [← lev_reverse]; simp
    rw [e1, e2]
    rw [lev_reverse] at h1 h2
    omega

end Fog
