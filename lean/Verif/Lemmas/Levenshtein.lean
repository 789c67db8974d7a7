import Verif.Model.Levenshtein
import Verif.Lemmas.EditDistance
import Verif.Lemmas.ListBasic

/-! # Helper lemmas about the model of `levenshtein.pyx` -/

namespace Fog.Levenshtein

/-! ### Trimming -/

/-- No common first element. -/
def NoCommonHead {α} (a b : List α) : Prop := ∀ x, a.head? = some x → b.head? ≠ some x

/-- No common last element. -/
def NoCommonLast {α} (a b : List α) : Prop := ∀ x, a.getLast? = some x → b.getLast? ≠ some x

theorem exists_prefix {α} [DecidableEq α] : ∀ (A B : List α), ∃ p a b, A = p ++ a ∧ B = p ++ b ∧ NoCommonHead a b
  | [], B => ⟨[], [], B, rfl, rfl, by simp [NoCommonHead]⟩
  | x :: A, [] => ⟨[], x :: A, [], rfl, rfl, by simp [NoCommonHead]⟩
  | x :: A, y :: B => by
      by_cases h : x = y
      · subst h
        obtain ⟨p, a, b, rfl, rfl, h⟩ := exists_prefix A B
        exact ⟨x :: p, a, b, rfl, rfl, h⟩
      · refine ⟨[], x :: A, y :: B, rfl, rfl, ?_⟩
        intro z; simp; rintro rfl; exact fun e => h e.symm

theorem exists_suffix {α} [DecidableEq α] (A B : List α) :
    ∃ a b s, A = a ++ s ∧ B = b ++ s ∧ NoCommonLast a b := by
  obtain ⟨p, a, b, h1, h2, h⟩ := exists_prefix A.reverse B.reverse
  refine ⟨a.reverse, b.reverse, p.reverse, ?_, ?_, ?_⟩
  · rw [← List.reverse_append, ← h1, List.reverse_reverse]
  · rw [← List.reverse_append, ← h2, List.reverse_reverse]
  · intro x; simp only [List.getLast?_reverse]; exact h x

/-- Any two strings split as the code splits them: first the longest common suffix, then the longest common prefix. -/
theorem exists_trim {α} [DecidableEq α] (A B : List α) :
    ∃ p a b s, A = p ++ a ++ s ∧ B = p ++ b ++ s ∧ NoCommonHead a b ∧ NoCommonLast (p ++ a) (p ++ b) := by
  obtain ⟨a', b', s, rfl, rfl, h1⟩ := exists_suffix A B
  obtain ⟨p, a, b, rfl, rfl, h2⟩ := exists_prefix a' b'
  exact ⟨p, a, b, s, rfl, rfl, h2, h1⟩

theorem suffixLoop_append (A' B' : List Nat) (h : A'.length ≤ B'.length) (hl : NoCommonLast A' B') (s : List Nat) :
    ∀ t, suffixLoop (A' ++ s ++ t) (B' ++ s ++ t) (A' ++ s).length (B' ++ s).length = (A'.length, B'.length) := by
  induction s using snoc_induction with
  | nil =>
      intro t
      simp only [List.append_nil]
      rcases List.eq_nil_or_concat A' with rfl | ⟨A, x, rfl⟩
      · simp [suffixLoop]
      · rcases List.eq_nil_or_concat B' with rfl | ⟨B, y, rfl⟩
        · simp at h
        · have hxy : x ≠ y := by
            intro e; subst e
            exact hl x (by simp) (by simp)
          simp [suffixLoop, hxy]
  | snoc s x ih =>
      intro t
      have := ih (x :: t)
      simp only [← List.append_assoc, List.length_append, List.length_cons, List.length_nil] at this ⊢
      simp only [Nat.zero_add, suffixLoop, Nat.add_sub_cancel]
      rw [if_pos]
      · simpa using this
      · rw [List.getElem?_append_left (by simp), List.getElem?_append_right (by simp),
          List.getElem?_append_left (by simp), List.getElem?_append_right (by simp)]
        simp

theorem prefixLoop_append (a b : List Nat) (hh : NoCommonHead a b) (p t u : List Nat) (h : a.length ≤ b.length) :
    ∀ q, prefixLoop (q ++ p ++ a ++ t) (q ++ p ++ b ++ u) (q ++ p ++ a).length q.length = (q ++ p).length := by
  induction p with
  | nil =>
      intro q
      rw [prefixLoop]
      cases a with
      | nil => simp
      | cons x a =>
          cases b with
          | nil => simp at h
          | cons y b =>
              have : x ≠ y := by
                intro e; subst e
                exact hh x rfl rfl
              simp [this]
  | cons x p ih =>
      intro q
      rw [prefixLoop]
      have := ih (q ++ [x])
      simp only [List.append_assoc, List.cons_append, List.nil_append, List.length_append, List.length_cons,
        List.length_nil] at this ⊢
      simpa using this

/-! ### Unlimited dynamic programming -/

theorem cell_lev (x y : Nat) (a b : List Nat) :
    cell x y (lev a b) (lev a (b ++ [y])) (lev (a ++ [x]) b) = lev (a ++ [x]) (b ++ [y]) := by
  unfold cell
  by_cases h : x = y
  · subst h; simp [lev_snoc_same]
  · simp only [ne_eq, h, not_false_eq_true, if_true, lev_snoc_ne h]
    split <;> split <;> omega

/-- Distances of `a` to the extensions of `b1` by prefixes of the second argument. -/
def rowVec (a : List Nat) : List Nat → List Nat → List Nat
  | _, [] => []
  | b1, y :: bs => lev a (b1 ++ [y]) :: rowVec a (b1 ++ [y]) bs

theorem rowVec_nil (bs : List Nat) : ∀ b1, rowVec [] b1 bs = (List.range bs.length).map (· + (b1.length + 1)) := by
  induction bs with
  | nil => intro b1; rfl
  | cons y bs ih =>
      intro b1
      rw [rowVec, ih, List.length_cons, List.range_succ_eq_map]
      simp only [lev_nil_left, List.length_append, List.length_cons, List.length_nil, List.map_cons, List.map_map,
        Nat.zero_add]
      congr 1
      apply List.map_congr_left
      intro i _
      simp only [Function.comp]; omega

theorem rowLoop_spec (x : Nat) (a : List Nat) (bs : List Nat) : ∀ b1,
    rowLoop x bs (rowVec a b1 bs) (lev a b1) (lev (a ++ [x]) b1)
      = (rowVec (a ++ [x]) b1 bs, lev (a ++ [x]) (b1 ++ bs)) := by
  induction bs with
  | nil => intro b1; simp [rowVec, rowLoop]
  | cons y bs ih =>
      intro b1
      simp only [rowVec, rowLoop, cell_lev]
      rw [ih (b1 ++ [y])]
      simp

theorem outerLoop_spec (codes : List Nat) (as : List Nat) : ∀ (a : List Nat),
    outerLoop codes as a.length (rowVec a [] codes) (lev a codes) = lev (a ++ as.map ushort) codes := by
  induction as with
  | nil => intro a; simp [outerLoop]
  | cons x as ih =>
      intro a
      have h := rowLoop_spec (ushort x) a codes []
      have e1 : lev a [] = a.length := by simp
      have e2 : lev (a ++ [ushort x]) [] = a.length + 1 := by simp
      rw [e1, e2] at h
      simp only [outerLoop, h, List.nil_append]
      have := ih (a ++ [ushort x])
      simpa using this

theorem outerLoop_eq (codes : List Nat) (x : Nat) (as : List Nat) :
    outerLoop codes (x :: as) 0 ((List.range codes.length).map (· + 1)) 0 = lev ((x :: as).map ushort) codes := by
  have := outerLoop_spec codes (x :: as) []
  rw [rowVec_nil] at this
  simpa [outerLoop] using this

/-- What the code computes, in terms of the trimmed strings. -/
theorem levenshteinOrdered_trim (p a b s : List Nat) (hle : a.length ≤ b.length) (hh : NoCommonHead a b)
    (hl : NoCommonLast (p ++ a) (p ++ b)) :
    levenshteinOrdered (p ++ a ++ s) (p ++ b ++ s) =
      if a.length = 1 then (if a.any (fun c => (p ++ b ++ s).contains c) then b.length - 1 else b.length)
      else lev (a.map ushort) (b.map ushort) := by
  have h1 := suffixLoop_append (p ++ a) (p ++ b) (by simp; omega) hl s []
  have h2 := prefixLoop_append a b hh p s s hle []
  simp only [List.append_nil, List.nil_append, List.length_nil] at h1 h2
  unfold levenshteinOrdered
  rw [h1]
  simp only [h2]
  simp only [List.length_append, Nat.add_sub_cancel_left]
  match a with
  | [] => simp
  | [c] => simp [List.append_assoc]
  | c :: d :: a =>
      have e : (p ++ (c :: d :: a) ++ s).drop p.length = c :: d :: a ++ s := by simp [List.append_assoc]
      have e' : (p ++ b ++ s).drop p.length = b ++ s := by simp [List.append_assoc]
      rw [e, e']
      have := outerLoop_eq (b.map ushort) c (d :: a)
      simp only [List.length_map] at this
      simpa using this

end Fog.Levenshtein
