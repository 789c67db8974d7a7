import Verif.Model.Utils
import Verif.Spec.Runs
import Mathlib.Algebra.BigOperators.Group.Multiset.Basic
import Mathlib.Data.Rat.Defs
import Mathlib.Tactic.Ring

/-!
# C51, C59: squeeze and OnlineMean
-/

namespace Fog.Props

open Utils Spec

/-! ## C51 -/

theorem dropWhile_split (c : Char) (s : List Char) :
    s = List.replicate (s.length - (s.dropWhile (· == c)).length) c ++ s.dropWhile (· == c) := by
  induction s with
  | nil => rfl
  | cons d s ih =>
      by_cases h : d = c
      · subst h
        have hl := (List.dropWhile_suffix (fun x => x == d) (l := s)).length_le
        simp only [List.dropWhile_cons, BEq.rfl, if_true, List.length_cons]
        rw [show s.length + 1 - (s.dropWhile (· == d)).length = (s.length - (s.dropWhile (· == d)).length) + 1 by omega,
          List.replicate_succ, List.cons_append, ← ih]
      · simp [List.dropWhile_cons, h]

theorem head_dropWhile (c : Char) (s : List Char) : (s.dropWhile (· == c)).head? ≠ some c := by
  induction s with
  | nil => simp
  | cons d s ih =>
      by_cases h : d = c
      · subst h; simpa [List.dropWhile_cons] using ih
      · simp [List.dropWhile_cons, h]

theorem subRuns_head (cls : Char → Bool) (s : List Char) : (subRuns cls s).head? = s.head? := by
  cases s with
  | nil => simp [subRuns]
  | cons c s => rw [subRuns]; split <;> simp

theorem subRuns_repeats (cls : Char → Bool) (s : List Char) : Repeats (subRuns cls s) s := by
  induction s using subRuns.induct cls with
  | case1 => exact ⟨[], by simp [subRuns], by simp, by simp⟩
  | case2 c s h ih =>
      obtain ⟨ns, h1, h2, h3⟩ := ih
      rw [subRuns, if_pos h]
      refine ⟨(s.length - (s.dropWhile (· == c)).length + 1) :: ns, by simp [h1], ?_, ?_⟩
      · intro n hn
        rcases List.mem_cons.mp hn with rfl | hn
        · omega
        · exact h2 n hn
      · simp only [List.zipWith_cons_cons, List.flatten_cons]
        rw [← h3, List.replicate_succ, List.cons_append, ← dropWhile_split]
  | case3 c s h ih =>
      obtain ⟨ns, h1, h2, h3⟩ := ih
      rw [subRuns, if_neg h]
      refine ⟨1 :: ns, by simp [h1], ?_, ?_⟩
      · intro n hn
        rcases List.mem_cons.mp hn with rfl | hn
        · omega
        · exact h2 n hn
      · simp only [List.zipWith_cons_cons, List.flatten_cons]
        rw [← h3]
        rfl

theorem noConsecutive_cons {α : Type _} {R : α → α → Prop} {a : α} {l : List α} (h1 : ∀ b, l.head? = some b → ¬ R a b)
    (h2 : NoConsecutive R l) : NoConsecutive R (a :: l) := by
  cases l with
  | nil => trivial
  | cons b l => exact ⟨h1 b rfl, h2⟩

theorem subRuns_noConsecutive (cls : Char → Bool) (s : List Char) :
    NoConsecutive (fun a b => a = b ∧ cls a = true) (subRuns cls s) := by
  induction s using subRuns.induct cls with
  | case1 => simp [subRuns, NoConsecutive]
  | case2 c s h ih =>
      rw [subRuns, if_pos h]
      refine noConsecutive_cons ?_ ih
      intro b hb hc
      rw [subRuns_head, ← hc.1] at hb
      exact head_dropWhile c s hb
  | case3 c s h ih =>
      rw [subRuns, if_neg h]
      exact noConsecutive_cons (fun b _ hc => h hc.2) ih

theorem subRuns_eq_self (cls : Char → Bool) : ∀ s, NoConsecutive (fun a b => a = b ∧ cls a = true) s → subRuns cls s = s := by
  intro s
  induction s using subRuns.induct cls with
  | case1 => intro _; simp [subRuns]
  | case2 c s h ih =>
      intro hs
      rw [subRuns, if_pos h]
      have hdw : s.dropWhile (· == c) = s := by
        cases s with
        | nil => rfl
        | cons d s =>
            have : ¬ (c = d ∧ cls c = true) := hs.1
            rw [List.dropWhile_cons, if_neg]
            simp only [beq_iff_eq]
            rintro rfl
            exact this ⟨rfl, h⟩
      rw [hdw] at ih ⊢
      rw [ih]
      cases s with
      | nil => trivial
      | cons d s => exact hs.2
  | case3 c s h ih =>
      intro hs
      rw [subRuns, if_neg h, ih]
      cases s with
      | nil => trivial
      | cons d s => exact hs.2

/-- The characters which `squeeze` leaves alone when repeated. -/
def kept (keep_roman_numerals : Bool) (c : Char) : Prop :=
  if keep_roman_numerals = true then c ∈ ['I', 'X', 'C', 'M', 'i', 'x', 'c', 'm'] else c = '\n'

/-- **C51** partial: `squeeze` repeats no character twice in a row, except for roman numerals when they are kept, and for
newlines otherwise; the string is the result with some characters repeated; squeezing again changes nothing. Missing: repeated
newlines are not squeezed, see below. -/
theorem squeeze_partial (s : List Char) (roman : Bool) :
    NoConsecutive (fun a b => a = b ∧ ¬ kept roman a) (squeeze s roman) ∧ Repeats (squeeze s roman) s ∧
    squeeze (squeeze s roman) roman = squeeze s roman := by
  have key : ∀ c, (if roman then fun c => !(['I', 'X', 'C', 'M', 'i', 'x', 'c', 'm'].contains c) else fun c => c != '\n') c = true ↔
      ¬ kept roman c := by
    intro c
    cases roman <;> simp [kept]
  have h1 := subRuns_noConsecutive (if roman then fun c => !(['I', 'X', 'C', 'M', 'i', 'x', 'c', 'm'].contains c)
    else fun c => c != '\n') s
  refine ⟨?_, subRuns_repeats _ s, subRuns_eq_self _ _ h1⟩
  simp only [key] at h1
  exact h1

/-- **C51** is false: repeated newlines are not squeezed. -/
theorem squeeze_newlines : squeeze ['a', '\n', '\n', 'b', 'b'] false = ['a', '\n', '\n', 'b'] ∧
    squeeze ['a', '\n', '\n', 'b', 'b'] true = ['a', '\n', 'b'] := by
  constructor <;> simp [squeeze, subRuns]

example : squeeze ['X', 'X', 'a', 'a', 'a', 'b'] true = ['X', 'X', 'a', 'b'] ∧
    squeeze ['X', 'X', 'a', 'a', 'a', 'b'] false = ['X', 'a', 'b'] := by
  constructor <;> simp [squeeze, subRuns]

/-! ## C59 -/

variable {K : Type _} [Field K]

/-- `m` is the result of operations after which the values `s` are held. -/
inductive Holds : OnlineMean K → Multiset K → Prop
  | new : Holds OnlineMean.new 0
  | add {m s} (x : K) : Holds m s → Holds (m.add x) (x ::ₘ s)
  | subtract {m m' s} (x : K) : Holds m (x ::ₘ s) → m.subtract x = .ok m' → Holds m' s
  | iadd {m s m' s'} : Holds m s → Holds m' s' → Holds (m.iadd m') (s + s')
  | plus {m s m' s'} : Holds m s → Holds m' s' → Holds (m.plus m') (s + s')

/-- **C59**: after any operations, an `OnlineMean` gives the mean of the values which it holds, or raises when there is none;
removing a value which it holds does not raise. -/
theorem online_mean_eq {m : OnlineMean K} {s : Multiset K} (h : Holds m s) :
    m.n = s.card ∧ m.peek = (if s.card = 0 then .error .statisticsError else .ok (s.sum / s.card)) ∧
    (∀ x t, s = x ::ₘ t → ∃ m', m.subtract x = .ok m') := by
  have key : m.n = s.card ∧ m.sum = s.sum := by
    induction h with
    | new => simp [OnlineMean.new]
    | add x _ ih => simp [OnlineMean.add, ih.1, ih.2, add_comm]
    | subtract x _ hm ih =>
        unfold OnlineMean.subtract at hm
        split at hm
        · simp at hm
        · simp only [Except.ok.injEq] at hm
          subst hm
          simp [ih.1, ih.2]
    | iadd _ _ ih1 ih2 => simp [OnlineMean.iadd, ih1.1, ih1.2, ih2.1, ih2.2]
    | plus _ _ ih1 ih2 => simp [OnlineMean.plus, OnlineMean.iadd, OnlineMean.new, ih1.1, ih1.2, ih2.1, ih2.2]
  refine ⟨key.1, ?_, ?_⟩
  · unfold OnlineMean.peek
    rw [key.1, key.2]
  · rintro x t rfl
    unfold OnlineMean.subtract
    rw [if_neg (by rw [key.1]; simp)]
    exact ⟨_, rfl⟩

-- One value added, merged with two others, one of which is removed.
example : ∃ m : OnlineMean ℚ, Holds m {1, 3} ∧ m.peek = .ok 2 := by
  have h1 : Holds (OnlineMean.new.add (1 : ℚ)) (1 ::ₘ 0) := .add 1 .new
  have h2 : Holds ((OnlineMean.new.add (3 : ℚ)).add 7) (7 ::ₘ 3 ::ₘ 0) := .add 7 (.add 3 .new)
  have h3 := Holds.subtract (m' := ⟨3 + 7 - 7, 1⟩) 7 h2 (by simp [OnlineMean.subtract, OnlineMean.add, OnlineMean.new])
  refine ⟨_, .iadd h1 h3, ?_⟩
  rw [(online_mean_eq (.iadd h1 h3)).2.1]
  decide +kernel

end Fog.Props
