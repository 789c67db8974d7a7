import Verif.Model.Phonetics
import Verif.Spec.Variants
import Mathlib.Data.Option.Basic

/-!
# Properties of rusalka on variant spellings (C82)
-/

namespace Fog.Props

open Fog.Phonetics Fog.Spec

/-! ### Substitutions and related strings -/

theorem subst_rel {Q R : Char → Char → Prop} (m : Bool → List Char → Nat) (r : List Char)
    (hm : ∀ s s', List.Forall₂ Q s s' → m false s = m false s')
    (h0 : ∀ b c s d, m b (c :: s) = 0 → Q c d → R c d) (hr : ∀ c ∈ r, R c c) :
    ∀ (s s' : List Char) (k : Nat) (b : Bool), List.Forall₂ Q s s' → (b = true → k = 0 → m true s = m true s') →
      List.Forall₂ R (subst m r k b s) (subst m r k b s') := by
  intro s
  have hrr : List.Forall₂ R r r := List.forall₂_same.2 hr
  induction s with
  | nil => intro s' k b h _; cases h; cases k <;> simp [subst]
  | cons c s ih =>
      intro s' k b h hb
      match s', h with
      | d :: t, .cons hcd hst =>
        match k with
        | k + 1 => simpa [subst] using ih t k false hst (by simp)
        | 0 =>
          have heq : m b (c :: s) = m b (d :: t) := by
            match b with
            | true => exact hb rfl rfl
            | false => exact hm _ _ (.cons hcd hst)
          rw [subst, subst, ← heq]
          match hk : m b (c :: s) with
          | 0 => exact .cons (h0 b c s d hk hcd) (ih t 0 false hst (by simp))
          | k + 1 => exact List.rel_append hrr (ih t k false hst (by simp))

/-- The beginnings of two strings are related: their first letters, and if it is a `j` or a `y` the second ones. -/
def HeadOk (E : Char → Char → Prop) (s s' : List Char) : Prop :=
  Option.Rel E s.head? s'.head? ∧
    ((s.head? = some 'j' ∨ s.head? = some 'y') → Option.Rel E (s.drop 1).head? (s'.drop 1).head?)

/-! ### The patterns as tests on the first letters -/

theorem mCh_eq (b : Bool) (s : List Char) : mCh b s =
    if (s[0]? = some 'd' ∨ s[0]? = some 't') ∧ (s[1]? = some 'c' ∨ s[1]? = some 's') ∧ s[2]? = some 'h' then 3
    else if (s[0]? = some 'c' ∨ s[0]? = some 's') ∧ s[1]? = some 'h' then 2
    else if s[0]? = some 't' ∧ s[1]? = some 'z' then 2 else 0 := by
  unfold mCh
  split <;> try rfl
  match s with
  | [] => simp
  | [c] => simp
  | [c, d] => simp at *; grind
  | c :: d :: e :: t => simp at *; grind

theorem mZh_eq (b : Bool) (s : List Char) : mZh b s =
    if (s[0]? = some 'd' ∨ s[0]? = some 't') ∧ s[1]? = some 'z' ∧ s[2]? = some 'h' then 3
    else if (s[0]? = some 'd' ∨ s[0]? = some 't') ∧ s[1]? = some 'j' then 2
    else if s[0]? = some 'z' ∧ s[1]? = some 'h' then 2
    else if s[0]? = some 'j' then 1 else 0 := by
  unfold mZh
  split <;> try rfl
  match s with
  | [] => simp
  | [c] => simp at *; grind
  | [c, d] => simp at *; grind
  | c :: d :: e :: t => simp at *; grind

theorem mK_eq (b : Bool) (s : List Char) : mK b s = if s[0]? = some 'c' ∨ s[0]? = some 'g' then 1 else 0 := by
  unfold mK
  split <;> try rfl
  match s with
  | [] => simp
  | c :: t => simp at *; grind

theorem mY_eq (b : Bool) (s : List Char) : mY b s =
    if b = true ∧ s[0]? = some 'y' ∧ s[1]?.any ['a', 'e', 'i', 'o', 'u'].contains then 1
    else if s[0]? = some 'i' ∧ s[1]? = some 'o' ∧ s[2]? = some 'u' then 3 else 0 := by
  unfold mY
  split
  · simp
  · simp
  · match s with
    | [] => simp
    | [c] => simp
    | [c, d] => simp at *; grind
    | c :: d :: e :: t => simp at *; grind

theorem mF_eq (b : Bool) (s : List Char) : mF b s =
    if s[0]? = some 'f' ∨ s[0]? = some 'v' ∨ s[0]? = some 'w' then 1
    else if s[0]? = some 'p' ∧ s[1]? = some 'h' then 2 else 0 := by
  unfold mF
  split <;> try rfl
  match s with
  | [] => simp
  | [c] => simp at *; grind
  | c :: d :: t => simp at *; grind

theorem mE_eq (b : Bool) (s : List Char) : mE b s =
    if b = true ∧ (s[0]? = some 'j' ∨ s[0]? = some 'y') ∧ s[1]? = some 'e' then 2
    else if b = true ∧ s[0]? = some 'e' then 1 else 0 := by
  unfold mE
  split <;> try rfl
  match s with
  | [] => simp
  | [c] => simp at *; grind
  | c :: d :: t => simp at *; grind

theorem literal_two (x y : Char) (b : Bool) (s : List Char) : literal [x, y] b s =
    if s[0]? = some x ∧ s[1]? = some y then 2 else 0 := by
  unfold literal
  match s with
  | [] => simp
  | [c] => simp
  | c :: d :: t => simp at *; grind

/-! ### Related strings -/

theorem rel_get {Q : Char → Char → Prop} (p : Char → Prop) (hp : ∀ c d, Q c d → (p c ↔ p d)) {s s' : List Char}
    (h : List.Forall₂ Q s s') (i : Nat) : (∃ c, s[i]? = some c ∧ p c) ↔ (∃ c, s'[i]? = some c ∧ p c) := by
  induction h generalizing i with
  | nil => simp
  | cons hcd _ ih =>
      match i with
      | 0 => simpa using hp _ _ hcd
      | i + 1 => simpa using ih i

theorem rel_get_eq {Q : Char → Char → Prop} (x : Char) (hx : ∀ c d, Q c d → (c = x ↔ d = x)) {s s' : List Char}
    (h : List.Forall₂ Q s s') (i : Nat) : s[i]? = some x ↔ s'[i]? = some x := by
  have := rel_get (· = x) hx h i
  simpa using this

theorem sameAE_fix (x : Char) (hx : x ∉ ['f', 'v', 'w', 'a', 'e']) (c d : Char) (h : SameAE c d) : c = x ↔ d = x := by
  simp only [SameAE, SameF, List.mem_cons, List.not_mem_nil, or_false, not_or] at *
  grind

/-- The same letter, or two among `a` and `e`. -/
def EqAE (c d : Char) : Prop := c = d ∨ (c ∈ ['a', 'e'] ∧ d ∈ ['a', 'e'])

theorem eqAE_sameAE {c d : Char} (h : EqAE c d) : SameAE c d := by
  rcases h with h | h
  · exact Or.inl (Or.inl h)
  · exact Or.inr h

theorem literal_rel (x y : Char) (hx : x ∉ ['f', 'v', 'w', 'a', 'e']) (hy : y ∉ ['f', 'v', 'w', 'a', 'e']) (b : Bool)
    {s s' : List Char} (h : List.Forall₂ SameAE s s') : literal [x, y] b s = literal [x, y] b s' := by
  simp only [literal_two, rel_get_eq x (sameAE_fix x hx) h, rel_get_eq y (sameAE_fix y hy) h]

theorem mF_rel (b : Bool) {s s' : List Char} (h : List.Forall₂ SameAE s s') : mF b s = mF b s' := by
  have h1 := rel_get (Q := SameAE) (fun c => c = 'f' ∨ c = 'v' ∨ c = 'w') (by
    intro c d h
    simp only [SameAE, SameF, List.mem_cons, List.not_mem_nil, or_false] at h
    grind) h 0
  simp only [exists_eq_or_imp, and_or_left, exists_or, exists_eq_right] at h1
  simp only [mF_eq, h1, rel_get_eq 'p' (sameAE_fix 'p' (by decide)) h, rel_get_eq 'h' (sameAE_fix 'h' (by decide)) h]

theorem mCh_rel (b : Bool) {s s' : List Char} (h : List.Forall₂ SameAE s s') : mCh b s = mCh b s' := by
  have k : ∀ x, x ∉ ['f', 'v', 'w', 'a', 'e'] → ∀ i : Nat, s[i]? = some x ↔ s'[i]? = some x := fun x hx i =>
    rel_get_eq x (sameAE_fix x hx) h i
  simp only [mCh_eq, k 'd' (by decide), k 't' (by decide), k 'c' (by decide), k 's' (by decide), k 'h' (by decide),
    k 'z' (by decide)]

theorem mZh_rel (b : Bool) {s s' : List Char} (h : List.Forall₂ SameAE s s') : mZh b s = mZh b s' := by
  have k : ∀ x, x ∉ ['f', 'v', 'w', 'a', 'e'] → ∀ i : Nat, s[i]? = some x ↔ s'[i]? = some x := fun x hx i =>
    rel_get_eq x (sameAE_fix x hx) h i
  simp only [mZh_eq, k 'd' (by decide), k 't' (by decide), k 'j' (by decide), k 'h' (by decide), k 'z' (by decide)]

theorem mK_rel (b : Bool) {s s' : List Char} (h : List.Forall₂ SameAE s s') : mK b s = mK b s' := by
  have k : ∀ x, x ∉ ['f', 'v', 'w', 'a', 'e'] → ∀ i : Nat, s[i]? = some x ↔ s'[i]? = some x := fun x hx i =>
    rel_get_eq x (sameAE_fix x hx) h i
  simp only [mK_eq, k 'c' (by decide), k 'g' (by decide)]

theorem mY_rel (b : Bool) {s s' : List Char} (h : List.Forall₂ SameAE s s') : mY b s = mY b s' := by
  have k : ∀ x, x ∉ ['f', 'v', 'w', 'a', 'e'] → ∀ i : Nat, s[i]? = some x ↔ s'[i]? = some x := fun x hx i =>
    rel_get_eq x (sameAE_fix x hx) h i
  have h1 := rel_get (Q := SameAE) (fun c => ['a', 'e', 'i', 'o', 'u'].contains c = true) (by
    intro c d h
    simp only [SameAE, SameF, List.contains_eq_mem, List.mem_cons, List.not_mem_nil, or_false, decide_eq_true_eq] at *
    grind) h 1
  have h2 : s[1]?.any ['a', 'e', 'i', 'o', 'u'].contains = s'[1]?.any ['a', 'e', 'i', 'o', 'u'].contains := by
    rw [Bool.eq_iff_iff]
    simpa [Option.any_eq_true] using h1
  simp only [mY_eq, h2, k 'y' (by decide), k 'i' (by decide), k 'o' (by decide), k 'u' (by decide)]

theorem mE_false (s : List Char) : mE false s = 0 := by simp [mE_eq]

theorem dropEnd_rel : ∀ {s s' : List Char}, List.Forall₂ SameAE s s' → List.Forall₂ SameAE (dropEnd s) (dropEnd s')
  | _, _, .nil => .nil
  | _, _, .cons h .nil => .cons h .nil
  | _, _, .cons (a := c) (b := c') h (.cons (a := d) (b := d') (l₁ := s) (l₂ := s') h' hs) => by
      have hi := sameAE_fix 'i' (by decide) _ _ h
      have hj := sameAE_fix 'j' (by decide) _ _ h'
      have hy := sameAE_fix 'y' (by decide) _ _ h'
      have hn : s = [] ↔ s' = [] := by rw [← List.length_eq_zero_iff, ← List.length_eq_zero_iff, hs.length_eq]
      rw [dropEnd, dropEnd]
      simp only [hi, hj, hy, hn]
      split
      · exact .nil
      · exact .cons h (dropEnd_rel (.cons h' hs))

/-! ### The beginnings -/

theorem headOk_cons {E : Char → Char → Prop} {c d : Char} {s s' : List Char} (h : HeadOk E (c :: s) (d :: s')) :
    E c d ∧ ((c = 'j' ∨ c = 'y') → Option.Rel E s.head? s'.head?) := by
  obtain ⟨h1, h2⟩ := h
  simp only [List.head?_cons, Option.rel_some_some, Option.some.injEq, List.drop_succ_cons, List.drop_zero] at h1 h2
  exact ⟨h1, h2⟩

theorem subst_head {E F : Char → Char → Prop} (m : Bool → List Char → Nat) (r0 : Char) (r : List Char)
    (hr : r0 ≠ 'j' ∧ r0 ≠ 'y') (hF : F r0 r0) (hm : ∀ b s s', List.Forall₂ SameAE s s' → m b s = m b s')
    (h0 : ∀ b c s d, m b (c :: s) = 0 → E c d → F c d) {s s' : List Char} (hs : List.Forall₂ SameAE s s')
    (h : HeadOk E s s') : HeadOk F (subst m (r0 :: r) 0 true s) (subst m (r0 :: r) 0 true s') := by
  match s, s', hs with
  | [], [], _ => simp [subst, HeadOk]
  | c :: s, d :: s', .cons hcd hs =>
    obtain ⟨h1, h2⟩ := headOk_cons h
    have e := hm true _ _ (.cons hcd hs)
    rw [subst, subst, ← e]
    match hk : m true (c :: s) with
    | k + 1 => simp [HeadOk, hF, hr]
    | 0 =>
      simp only
      refine ⟨by simpa using h0 _ _ _ _ hk h1, ?_⟩
      intro hj
      simp only [List.head?_cons, Option.some.injEq] at hj
      have h3 := h2 hj
      simp only [List.drop_succ_cons, List.drop_zero]
      match s, s', hs with
      | [], [], _ => simp [subst]
      | c' :: s, d' :: s', .cons hcd' hs' =>
        have e' := hm false _ _ (.cons hcd' hs')
        rw [subst, subst, ← e']
        match hk' : m false (c' :: s) with
        | k + 1 => simp [hF]
        | 0 =>
          simp only [List.head?_cons, Option.rel_some_some] at h3 ⊢
          exact h0 _ _ _ _ hk' h3

theorem dropEnd_head {E : Char → Char → Prop} {s s' : List Char} (hs : List.Forall₂ SameAE s s') (h : HeadOk E s s') :
    HeadOk E (dropEnd s) (dropEnd s') := by
  have key : ∀ {s s' : List Char}, List.Forall₂ SameAE s s' → Option.Rel E s.head? s'.head? →
      Option.Rel E (dropEnd s).head? (dropEnd s').head? := by
    intro s s' hs h
    match s, s', hs with
    | [], [], _ => simpa [dropEnd] using h
    | [c], [d], _ => simpa [dropEnd] using h
    | c :: c2 :: s, d :: d2 :: s', .cons h1 (.cons h2 hs) =>
      have hi := sameAE_fix 'i' (by decide) _ _ h1
      have hj := sameAE_fix 'j' (by decide) _ _ h2
      have hy := sameAE_fix 'y' (by decide) _ _ h2
      have hn : s = [] ↔ s' = [] := by rw [← List.length_eq_zero_iff, ← List.length_eq_zero_iff, hs.length_eq]
      rw [dropEnd, dropEnd]
      simp only [hi, hj, hy, hn]
      split
      · simp
      · simpa using h
  match s, s', hs with
  | [], [], _ => simpa [dropEnd] using h
  | [c], [d], _ => simpa [dropEnd] using h
  | c :: c2 :: s, d :: d2 :: s', .cons h1 (.cons h2 hs) =>
    have hi := sameAE_fix 'i' (by decide) _ _ h1
    have hj := sameAE_fix 'j' (by decide) _ _ h2
    have hy := sameAE_fix 'y' (by decide) _ _ h2
    have hn : s = [] ↔ s' = [] := by rw [← List.length_eq_zero_iff, ← List.length_eq_zero_iff, hs.length_eq]
    obtain ⟨e1, e2⟩ := headOk_cons h
    rw [dropEnd, dropEnd]
    simp only [hi, hj, hy, hn]
    split
    · simp [HeadOk]
    · refine ⟨by simpa using e1, ?_⟩
      intro hc
      simp only [List.head?_cons, Option.some.injEq] at hc
      simp only [List.drop_succ_cons, List.drop_zero]
      exact key (.cons h2 hs) (e2 hc)

theorem mE_rel {s s' : List Char} (h : HeadOk Eq s s') : mE true s = mE true s' := by
  match s, s', h with
  | [], [], _ => rfl
  | [], d :: s', h => simp [HeadOk] at h
  | c :: s, [], h => simp [HeadOk] at h
  | c :: s, d :: s', h =>
    obtain ⟨rfl, h2⟩ := headOk_cons h
    by_cases hc : c = 'j' ∨ c = 'y'
    · have h3 := h2 hc
      match s, s', h3 with
      | [], [], _ => rfl
      | [], d :: s', h3 => simp at h3
      | c :: s, [], h3 => simp at h3
      | c :: s, d :: s', h3 =>
        simp only [List.head?_cons, Option.rel_some_some] at h3
        subst h3
        simp [mE_eq]
    · simp [mE_eq, hc]

/-! ### The rules -/

theorem rules_rel {s s' : List Char} (hs : List.Forall₂ SameAE s s') (h : HeadOk SameF s s') :
    List.Forall₂ EqAE (rules s) (rules s') := by
  have s1 : List.Forall₂ SameAE (replace ['c', 'z'] ['t', 's'] s) (replace ['c', 'z'] ['t', 's'] s') :=
    subst_rel _ _ (fun s s' h => literal_rel _ _ (by decide) (by decide) _ h) (fun _ _ _ _ _ h => h)
      (fun c _ => Or.inl (Or.inl rfl)) s s' 0 true hs fun _ _ => literal_rel _ _ (by decide) (by decide) _ hs
  have h1 : HeadOk SameF (replace ['c', 'z'] ['t', 's'] s) (replace ['c', 'z'] ['t', 's'] s') :=
    subst_head (literal ['c', 'z']) 't' ['s'] (by decide) (Or.inl rfl) (fun b s s' h => literal_rel _ _ (by decide) (by decide) _ h)
      (fun _ _ _ _ _ h => h) hs h
  have s2 := dropEnd_rel s1
  have h2 := dropEnd_head s1 h1
  have hmF : ∀ (b : Bool) (c : Char) (s : List Char), mF b (c :: s) = 0 → c ≠ 'f' ∧ c ≠ 'v' ∧ c ≠ 'w' := by
    intro b c s h
    rw [mF_eq] at h
    simp only [List.getElem?_cons_zero, Option.some.injEq] at h
    by_contra hc
    rw [if_pos (by grind)] at h
    simp at h
  have s3 : List.Forall₂ EqAE _ _ :=
    subst_rel mF ['f'] (fun s s' h => mF_rel _ h) (fun b c s d h hcd => by
      have := hmF b c s h
      simp only [SameAE, SameF, EqAE, List.mem_cons, List.not_mem_nil, or_false] at *
      grind) (fun c _ => Or.inl rfl) _ _ 0 true s2 fun _ _ => mF_rel _ s2
  have h3 : HeadOk Eq _ _ :=
    subst_head mF 'f' [] (by decide) rfl (fun b s s' h => mF_rel _ h) (fun b c s d h hcd => by
      have := hmF b c s h
      simp only [SameF, List.mem_cons, List.not_mem_nil, or_false] at *
      grind) s2 h2
  have up : ∀ {s s' : List Char}, List.Forall₂ EqAE s s' → List.Forall₂ SameAE s s' := fun h =>
    h.imp fun _ _ => eqAE_sameAE
  have s4 : List.Forall₂ EqAE _ _ :=
    subst_rel mE ['J'] (fun s s' _ => by rw [mE_false, mE_false]) (fun _ _ _ _ _ h => h) (fun c _ => Or.inl rfl) _ _ 0 true s3
      fun _ _ => mE_rel h3
  have s5 : List.Forall₂ EqAE _ _ :=
    subst_rel mCh ['ʃ'] (fun s s' h => mCh_rel _ (up h)) (fun _ _ _ _ _ h => h) (fun c _ => Or.inl rfl) _ _ 0 true s4
      fun _ _ => mCh_rel _ (up s4)
  have s6 : List.Forall₂ EqAE _ _ :=
    subst_rel mZh ['ʒ'] (fun s s' h => mZh_rel _ (up h)) (fun _ _ _ _ _ h => h) (fun c _ => Or.inl rfl) _ _ 0 true s5
      fun _ _ => mZh_rel _ (up s5)
  have s7 : List.Forall₂ EqAE _ _ :=
    subst_rel (literal ['k', 's']) ['x'] (fun s s' h => literal_rel _ _ (by decide) (by decide) _ (up h))
      (fun _ _ _ _ _ h => h) (fun c _ => Or.inl rfl) _ _ 0 true s6
      fun _ _ => literal_rel _ _ (by decide) (by decide) _ (up s6)
  have s8 : List.Forall₂ EqAE _ _ :=
    subst_rel mY ['j'] (fun s s' h => mY_rel _ (up h)) (fun _ _ _ _ _ h => h) (fun c _ => Or.inl rfl) _ _ 0 true s7
      fun _ _ => mY_rel _ (up s7)
  have s9 : List.Forall₂ EqAE _ _ :=
    subst_rel mK ['k'] (fun s s' h => mK_rel _ (up h)) (fun _ _ _ _ _ h => h) (fun c _ => Or.inl rfl) _ _ 0 true s8
      fun _ _ => mK_rel _ (up s8)
  unfold rules
  have hfilter : ∀ {s s' : List Char}, List.Forall₂ EqAE s s' →
      List.Forall₂ EqAE (s.filter (· ≠ 'h')) (s'.filter (· ≠ 'h')) := by
    intro s s' h
    induction h with
    | nil => exact .nil
    | cons hcd _ ih =>
        have := sameAE_fix 'h' (by decide) _ _ (eqAE_sameAE hcd)
        rw [List.filter_cons, List.filter_cons]
        simp only [ne_eq, this]
        split
        · exact .cons hcd ih
        · exact ih
  exact hfilter s9

/-! ### The end -/

/-- The consonants which are not equal to the previous letter. -/
def consonants : Char → List Char → List Char
  | _, [] => []
  | p, c :: s => if c = p then consonants p s else if vowel c then consonants c s else c :: consonants c s

theorem consonants_dropWhile (p : Char) (s : List Char) :
    (Utils.subRuns (fun _ => true) (s.dropWhile (· == p))).filter (fun c => !vowel c) = consonants p s := by
  induction s generalizing p with
  | nil => simp [Utils.subRuns, consonants]
  | cons c s ih =>
      by_cases hc : c = p
      · subst hc
        simp only [List.dropWhile_cons, beq_self_eq_true, if_true, consonants]
        exact ih c
      · rw [List.dropWhile_cons, if_neg (by simpa using hc), Utils.subRuns, if_pos rfl, List.filter_cons, ih c]
        simp only [consonants, hc, if_false]
        cases vowel c <;> simp

theorem consonants_rel {s s' : List Char} (h : List.Forall₂ EqAE s s') : ∀ p p', EqAE p p' →
    consonants p s = consonants p' s' := by
  induction h with
  | nil => intro p p' _; rfl
  | cons hcd _ ih =>
      rename_i c d s s' _
      intro p p' hp
      have hv : vowel 'a' = true ∧ vowel 'e' = true := by decide
      have e1 := ih p p' hp
      have e2 := ih c d hcd
      have e3 := fun h => ih c p' h
      have e4 := fun h => ih p d h
      simp only [EqAE, List.mem_cons, List.not_mem_nil, or_false] at *
      simp only [consonants]
      grind

theorem subst_mem (m : Bool → List Char → Nat) (r : List Char) : ∀ (s : List Char) (k : Nat) (b : Bool) (c : Char),
    c ∈ subst m r k b s → c ∈ r ∨ c ∈ s := by
  intro s
  induction s with
  | nil => intro k b c h; cases k <;> simp [subst] at h
  | cons a s ih =>
      intro k b c h
      match k with
      | k + 1 =>
          have := ih k false c (by simpa [subst] using h)
          grind
      | 0 =>
          rw [subst] at h
          split at h
          · rcases List.mem_cons.1 h with rfl | h
            · simp
            · have := ih 0 false c h
              grind
          · next k _ =>
            rcases List.mem_append.1 h with h | h
            · exact Or.inl h
            · have := ih k false c h
              grind

theorem dropEnd_mem : ∀ (s : List Char) (c : Char), c ∈ dropEnd s → c ∈ s
  | [], _, h => h
  | [_], _, h => h
  | a :: d :: s, c, h => by
      rw [dropEnd] at h
      split at h
      · simp at h
      · rcases List.mem_cons.1 h with rfl | h
        · simp
        · exact List.mem_cons_of_mem _ (dropEnd_mem (d :: s) c h)

theorem rules_mem {s : List Char} {c : Char} (h : c ∈ rules s) :
    c ∈ s ∨ c ∈ ['t', 's', 'f', 'x', 'j', 'k'] ∨ c ∈ ['J', 'ʃ', 'ʒ'] := by
  unfold rules at h
  replace h := (List.mem_filter.1 h).1
  have a1 := subst_mem mK ['k'] _ _ _ _ h
  rcases a1 with a1 | a1
  · simp at a1; simp [a1]
  rcases subst_mem _ _ _ _ _ _ a1 with a2 | a2
  · simp at a2; simp [a2]
  rcases subst_mem _ _ _ _ _ _ a2 with a3 | a3
  · simp at a3; simp [a3]
  rcases subst_mem _ _ _ _ _ _ a3 with a4 | a4
  · simp at a4; simp [a4]
  rcases subst_mem _ _ _ _ _ _ a4 with a5 | a5
  · simp at a5; simp [a5]
  rcases subst_mem _ _ _ _ _ _ a5 with a6 | a6
  · simp at a6; simp [a6]
  rcases subst_mem _ _ _ _ _ _ a6 with a7 | a7
  · simp at a7; simp [a7]
  rcases subst_mem _ _ _ _ _ _ (dropEnd_mem _ _ a7) with a8 | a8
  · simp at a8; rcases a8 with a8 | a8 <;> simp [a8]
  exact Or.inl a8

theorem rusalka_subRuns_mem (s : List Char) (c : Char) (h : c ∈ Utils.subRuns (fun _ => true) s) : c ∈ s := by
  match s with
  | [] => simp [Utils.subRuns] at h
  | a :: s =>
      rw [Utils.subRuns, if_pos rfl] at h
      rcases List.mem_cons.1 h with rfl | h
      · simp
      · have := rusalka_subRuns_mem (s.dropWhile (· == a)) c h
        exact List.mem_cons_of_mem _ ((List.dropWhile_suffix _).subset this)
termination_by s.length
decreasing_by
  have := (List.dropWhile_suffix (fun x => x == a) (l := s)).length_le
  simp only [List.length_cons]; omega

/-- Lower case on the letters which the rules give. -/
def plainLow (c : Char) : Char := if c = 'J' then 'j' else c

theorem vowel_low (c : Char) : vowel (plainLow c) = vowel c := by
  unfold plainLow
  split
  · next h => subst h; decide
  · rfl

theorem notationRules_letters {s : List Char} (hs : ∀ c ∈ s, IsLetter c) : notationRules s = s := by
  have h1 : ∀ c ∈ s, c ∉ ['č', 'š', 'ŝ'] ∧ c ≠ 'û' ∧ c ≠ 'ž' := by
    intro c hc
    obtain ⟨_, h2⟩ := hs c hc
    have k : ∀ x : Char, 'z' < x → c ≠ x := fun x hx h => absurd (h ▸ h2) (by simpa using hx)
    have := k 'č' (by decide)
    have := k 'š' (by decide)
    have := k 'ŝ' (by decide)
    have := k 'û' (by decide)
    have := k 'ž' (by decide)
    simp; grind
  have key : ∀ (f : Char → List Char) (s : List Char), (∀ c ∈ s, f c = [c]) → s.flatMap f = s := by
    intro f s
    induction s with
    | nil => simp
    | cons c s ih => intro h; rw [List.flatMap_cons, h c (by simp), ih fun d hd => h d (by simp [hd])]; rfl
  unfold notationRules
  simp only
  rw [key _ s fun c hc => if_neg (h1 c hc).1, key _ s fun c hc => if_neg (h1 c hc).2.1, key _ s fun c hc => if_neg (h1 c hc).2.2]

/-- `rusalka` on names made of lower case letters. -/
theorem rusalka_letters {lower unidecode : List Char → List Char}
    (hlower : ∀ s, (∀ c ∈ s, IsLetter c ∨ c ∈ ['J', 'ʃ', 'ʒ']) → lower s = s.map fun c => if c = 'J' then 'j' else c)
    (hunidecode : ∀ s, (∀ c ∈ s, IsLetter c) → unidecode s = s) {name : List Char} (hn : ∀ c ∈ name, IsLetter c)
    (h2 : 2 ≤ name.length) :
    rusalka lower unidecode name = match rules name with
      | [] => .error .indexError
      | c :: s => .ok ((if vowel c then 'a' else plainLow c) :: (consonants c s).map plainLow) := by
  have hlow : ∀ s, (∀ c ∈ s, IsLetter c ∨ c ∈ ['J', 'ʃ', 'ʒ']) → lower s = s.map plainLow := hlower
  have e1 : lower name = name := by
    rw [hlow name fun c hc => Or.inl (hn c hc)]
    conv_rhs => rw [← List.map_id name]
    refine List.map_congr_left fun c hc => ?_
    have : c ≠ 'J' := by
      rintro rfl
      exact absurd (hn _ hc).1 (by decide)
    simp [plainLow, this]
  have e2 : name.filter (fun c => decide ('a' ≤ c ∧ c ≤ 'z')) = name := by
    rw [List.filter_eq_self]
    intro c hc
    simpa [IsLetter] using hn c hc
  have e3 : lower (Utils.subRuns (fun _ => true) (rules name)) = (Utils.subRuns (fun _ => true) (rules name)).map plainLow := by
    apply hlow
    intro c hc
    rcases rules_mem (rusalka_subRuns_mem _ _ hc) with h | h | h
    · exact Or.inl (hn c h)
    · left
      simp only [List.mem_cons, List.not_mem_nil, or_false] at h
      rcases h with rfl | rfl | rfl | rfl | rfl | rfl <;> exact ⟨by decide, by decide⟩
    · exact Or.inr h
  unfold rusalka finishName
  rw [e1, notationRules_letters hn, hunidecode _ hn, e2, if_neg (by omega), e3]
  match rules name with
  | [] => simp [Utils.subRuns]
  | c :: s =>
    rw [Utils.subRuns, if_pos rfl]
    simp only [List.map_cons, vowel_low, pure, Except.pure]
    rw [List.filter_map, ← consonants_dropWhile]
    simp only [Function.comp_def, vowel_low]

/-! ### Longer spellings -/

theorem literal_split {x y z : Char} (hx : z ≠ x) (hy : z ≠ y) (r t : List Char) : ∀ (u : List Char) (k : Nat) (b : Bool),
    k ≤ u.length →
      subst (literal [x, y]) r k b (u ++ z :: t) = subst (literal [x, y]) r k b u ++ z :: subst (literal [x, y]) r 0 false t := by
  intro u
  induction u with
  | nil =>
      intro k b hk
      obtain rfl : k = 0 := by simpa using hk
      have e : literal [x, y] b (z :: t) = 0 := by rw [literal_two, if_neg (by simp [hx])]
      rw [List.nil_append, subst.eq_2, e]
      simp [subst]
  | cons a u ih =>
      intro k b hk
      match k, hk with
      | k + 1, hk => simpa [subst] using ih k false (by simpa using hk)
      | 0, _ =>
        have e : literal [x, y] b (a :: (u ++ z :: t)) = literal [x, y] b (a :: u) := by
          rw [literal_two, literal_two]
          cases u <;> simp [hy]
        have hl : literal [x, y] b (a :: u) ≤ (a :: u).length := by
          rw [literal_two]
          split
          · next h => obtain ⟨h, _⟩ := List.getElem?_eq_some_iff.1 h.2; omega
          · omega
        rw [List.cons_append, subst, subst, e]
        match hk : literal [x, y] b (a :: u) with
        | 0 => simp only; rw [ih 0 false (by omega)]; rfl
        | k + 1 =>
          rw [hk] at hl
          simp only
          rw [ih k false (by simpa using hl), List.append_assoc]

theorem dropEnd_split {x : Char} (hx : x ≠ 'i' ∧ x ≠ 'j' ∧ x ≠ 'y') (t : List Char) : ∀ u : List Char,
    dropEnd (u ++ x :: t) = u ++ x :: dropEnd t
  | [] => by cases t <;> simp [dropEnd, hx]
  | [a] => by
      rw [List.singleton_append, dropEnd, if_neg (by simp [hx])]
      simpa using dropEnd_split hx t []
  | a :: b :: u => by
      rw [List.cons_append, List.cons_append, dropEnd, if_neg (by simp), ← List.cons_append, dropEnd_split hx t (b :: u)]
      rfl

theorem mF_ph (r t : List Char) : ∀ (u : List Char) (k : Nat) (b : Bool), k ≤ u.length →
    subst mF r k b (u ++ 'p' :: 'h' :: t) = subst mF r k b (u ++ 'f' :: t) := by
  intro u
  induction u with
  | nil =>
      intro k b hk
      obtain rfl : k = 0 := by simpa using hk
      simp [subst, mF]
  | cons a u ih =>
      intro k b hk
      match k, hk with
      | k + 1, hk => simpa [subst] using ih k false (by simpa using hk)
      | 0, _ =>
        have e : mF b (a :: (u ++ 'p' :: 'h' :: t)) = mF b (a :: (u ++ 'f' :: t)) := by
          rw [mF_eq, mF_eq]
          cases u <;> simp
        have hl : mF b (a :: (u ++ 'f' :: t)) ≤ (a :: u).length := by
          rw [mF_eq]
          match u with
          | [] => simp; split <;> omega
          | c :: u => split; simp; split <;> simp
        rw [List.cons_append, List.cons_append, subst, subst, e]
        match hk : mF b (a :: (u ++ 'f' :: t)) with
        | 0 => simp only; rw [ih 0 false (by omega)]
        | k + 1 =>
          rw [hk] at hl
          simp only
          rw [ih k false (by simpa using hl)]

theorem literal_cz (t : List Char) : ∀ (u : List Char) (k : Nat) (b : Bool), k ≤ u.length →
    subst (literal ['c', 'z']) ['t', 's'] k b (u ++ 'c' :: 'z' :: t) =
      subst (literal ['c', 'z']) ['t', 's'] k b (u ++ 't' :: 's' :: t) := by
  intro u
  induction u with
  | nil =>
      intro k b hk
      obtain rfl : k = 0 := by simpa using hk
      simp [subst, literal]
  | cons a u ih =>
      intro k b hk
      match k, hk with
      | k + 1, hk => simpa [subst] using ih k false (by simpa using hk)
      | 0, _ =>
        have e : literal ['c', 'z'] b (a :: (u ++ 'c' :: 'z' :: t)) = literal ['c', 'z'] b (a :: (u ++ 't' :: 's' :: t)) := by
          rw [literal_two, literal_two]
          cases u <;> simp
        have hl : literal ['c', 'z'] b (a :: (u ++ 't' :: 's' :: t)) ≤ (a :: u).length := by
          rw [literal_two]
          match u with
          | [] => simp
          | c :: u => split <;> simp
        rw [List.cons_append, List.cons_append, subst, subst, e]
        match hk : literal ['c', 'z'] b (a :: (u ++ 't' :: 's' :: t)) with
        | 0 => simp only; rw [ih 0 false (by omega)]
        | k + 1 =>
          rw [hk] at hl
          simp only
          rw [ih k false (by simpa using hl)]

/-! ### Substitutions on both sides of a word -/

theorem subst_split (m : Bool → List Char → Nat) (r w : List Char) : ∀ (u : List Char) (k : Nat) (b : Bool), k ≤ u.length →
    (∀ b a, a ≠ [] → a <:+ u → m b (a ++ w) = m b a ∧ m b a ≤ a.length) →
    subst m r k b (u ++ w) = subst m r k b u ++ subst m r 0 (b && u.isEmpty) w := by
  intro u
  induction u with
  | nil =>
      intro k b hk _
      obtain rfl : k = 0 := by simpa using hk
      simp [subst]
  | cons a u ih =>
      intro k b hk h
      have h' : ∀ b a, a ≠ [] → a <:+ u → m b (a ++ w) = m b a ∧ m b a ≤ a.length :=
        fun b c hc hs => h b c hc (hs.trans (List.suffix_cons a u))
      have hf : (false && u.isEmpty) = (b && (a :: u).isEmpty) := by simp
      match k, hk with
      | k + 1, hk =>
        rw [List.cons_append, subst, subst, ih k false (by simpa using hk) h', hf]
      | 0, _ =>
        obtain ⟨e, hl⟩ := h b (a :: u) (by simp) (List.suffix_refl _)
        rw [List.cons_append] at e ⊢
        rw [subst, subst, e]
        match hk : m b (a :: u) with
        | 0 => simp only; rw [ih 0 false (by omega) h', hf, List.cons_append]
        | k + 1 =>
          rw [hk] at hl
          simp only
          rw [ih k false (by simpa using hl) h', hf, List.append_assoc]

theorem subst_first (m : Bool → List Char → Nat) (r : List Char) (hm : ∀ s, m true s = m false s) (s : List Char) (k : Nat)
    (b : Bool) : subst m r k b s = subst m r k false s := by
  cases s with
  | nil => cases k <;> simp [subst]
  | cons c s =>
      cases k with
      | succ k => simp [subst]
      | zero => cases b with
        | true => rw [subst, subst, hm]
        | false => rfl

/-- A word `x` which a substitution leaves alone between `u` and `v`. -/
theorem subst_pass (m : Bool → List Char → Nat) (r u x v : List Char)
    (hloc : ∀ b a, a ≠ [] → a <:+ u → m b (a ++ (x ++ v)) = m b a ∧ m b a ≤ a.length)
    (hx : ∀ b, (b = true → u = []) → subst m r 0 b (x ++ v) = x ++ subst m r 0 false v) :
    subst m r 0 true (u ++ x ++ v) = subst m r 0 true u ++ x ++ subst m r 0 false v := by
  rw [List.append_assoc, subst_split m r (x ++ v) u 0 true (by omega) hloc, hx _ (by simp), List.append_assoc]

theorem subst_ne_nil (m : Bool → List Char → Nat) (r : List Char) (hr : r ≠ []) (c : Char) (s : List Char) (b : Bool) :
    subst m r 0 b (c :: s) ≠ [] := by
  rw [subst]
  split <;> simp [hr]

theorem subst_getLast (m : Bool → List Char → Nat) (r : List Char) (hr : r ≠ []) : ∀ (s : List Char) (k : Nat) (b : Bool) (c : Char),
    (subst m r k b s).getLast? = some c → r.getLast? = some c ∨ s.getLast? = some c := by
  intro s
  induction s with
  | nil => intro k b c h; cases k <;> simp [subst] at h
  | cons a s ih =>
      intro k b c h
      have hcons : ∀ c, s.getLast? = some c → (a :: s).getLast? = some c := by
        intro c hc
        rw [List.getLast?_cons, hc]; rfl
      match k with
      | k + 1 => exact (ih k false c (by simpa [subst] using h)).imp_right (hcons c)
      | 0 =>
        rw [subst] at h
        split at h
        · match hs : s with
          | [] => right; simpa [subst] using h
          | d :: t =>
            match ht : subst m r 0 false (d :: t) with
            | [] => exact absurd ht (subst_ne_nil m r hr d t false)
            | e :: w =>
              rw [ht, List.getLast?_cons_cons, ← ht] at h
              exact (ih 0 false c h).imp_right (hcons c)
        · next k _ =>
          match ht : subst m r k false s with
          | [] => rw [ht] at h; left; simpa using h
          | e :: w =>
            rw [ht, List.getLast?_append_cons, ← ht] at h
            exact (ih k false c h).imp_right (hcons c)

theorem subst_head? (m : Bool → List Char → Nat) (r : List Char) (hr : r ≠ []) (s : List Char) (b : Bool) (c : Char)
    (h : (subst m r 0 b s).head? = some c) : r.head? = some c ∨ s.head? = some c := by
  match s with
  | [] => simp [subst] at h
  | a :: s =>
    rw [subst] at h
    split at h
    · right; simpa using h
    · left
      match r, hr with
      | d :: r, _ => simpa using h

/-! ### What the patterns look at -/

theorem literal_local {x y : Char} {w : List Char} (b : Bool) (a : List Char) (ha : a ≠ [])
    (hw : w[0]? = some y → a.getLast? ≠ some x) :
    literal [x, y] b (a ++ w) = literal [x, y] b a ∧ literal [x, y] b a ≤ a.length := by
  rw [literal_two, literal_two]
  match a with
  | [c] => simp at *; grind
  | c :: d :: a => exact ⟨by simp, by split <;> simp⟩

theorem mF_local {w : List Char} (hw : w[0]? ≠ some 'h') (b : Bool) (a : List Char) (ha : a ≠ []) :
    mF b (a ++ w) = mF b a ∧ mF b a ≤ a.length := by
  rw [mF_eq, mF_eq]
  match a with
  | [c] => simp [hw]; split <;> simp
  | c :: d :: a => exact ⟨by simp, by split; simp; split <;> simp⟩

theorem mE_local {w : List Char} (hw : w[0]? ≠ some 'e') (b : Bool) (a : List Char) (ha : a ≠ []) :
    mE b (a ++ w) = mE b a ∧ mE b a ≤ a.length := by
  rw [mE_eq, mE_eq]
  match a with
  | [c] => simp [hw]; split <;> simp
  | c :: d :: a => exact ⟨by simp, by split; simp; split <;> simp⟩

theorem mCh_local {w : List Char} (hw : w[0]? ≠ some 'h') (b : Bool) (a : List Char) (ha : a ≠ [])
    (hl : ((w[0]? = some 'c' ∨ w[0]? = some 's') ∧ w[1]? = some 'h' ∨ w[0]? = some 'z') →
      a.getLast? ≠ some 'd' ∧ a.getLast? ≠ some 't') :
    mCh b (a ++ w) = mCh b a ∧ mCh b a ≤ a.length := by
  rw [mCh_eq, mCh_eq]
  match a with
  | [c] => simp [hw] at *; grind
  | [c, d] => simp [hw] at *; split; simp; split <;> simp
  | c :: d :: e :: a => exact ⟨by simp, by split; simp; split; simp; split <;> simp⟩

theorem mZh_local {w : List Char} (hw : w[0]? ≠ some 'h') (b : Bool) (a : List Char) (ha : a ≠ [])
    (hl : (w[0]? = some 'z' ∨ w[0]? = some 'j') → a.getLast? ≠ some 'd' ∧ a.getLast? ≠ some 't') :
    mZh b (a ++ w) = mZh b a ∧ mZh b a ≤ a.length := by
  rw [mZh_eq, mZh_eq]
  match a with
  | [c] => simp [hw] at *; grind
  | [c, d] => simp [hw] at *; grind
  | c :: d :: e :: a => exact ⟨by simp, by split; simp; split; simp; split; simp; split <;> simp⟩

theorem mY_local {w : List Char} (hw : ∀ c ∈ w[0]?, c ∉ ['a', 'e', 'i', 'o', 'u']) (b : Bool) (a : List Char) (ha : a ≠ []) :
    mY b (a ++ w) = mY b a ∧ mY b a ≤ a.length := by
  have h1 : w[0]? ≠ some 'o' := fun h => by simpa using hw _ h
  have h2 : w[0]? ≠ some 'u' := fun h => by simpa using hw _ h
  have h3 : w[0]?.any ['a', 'e', 'i', 'o', 'u'].contains = false := by
    rw [Option.any_eq_false]
    intro c hc
    simpa using hw c hc
  rw [mY_eq, mY_eq]
  match a with
  | [c] => simp only [List.singleton_append, List.getElem?_cons_succ, h1, h3]; simp
  | [c, d] => simp [h2]; split <;> simp
  | c :: d :: e :: a => exact ⟨by simp, by split; simp; split <;> simp⟩

theorem mK_local {w : List Char} (b : Bool) (a : List Char) (ha : a ≠ []) :
    mK b (a ++ w) = mK b a ∧ mK b a ≤ a.length := by
  rw [mK_eq, mK_eq]
  match a with
  | c :: a => exact ⟨by simp, by split <;> simp⟩

/-! ### The first rules around a word -/

/-- The first four rules on what is before a word. -/
def frontU (u : List Char) : List Char :=
  subst mE ['J'] 0 true (subst mF ['f'] 0 true (subst (literal ['c', 'z']) ['t', 's'] 0 true u))

/-- The first four rules on what is after a word. -/
def frontV (v : List Char) : List Char :=
  subst mE ['J'] 0 false (subst mF ['f'] 0 false (dropEnd (subst (literal ['c', 'z']) ['t', 's'] 0 false v)))

theorem suffix_getLast {a u : List Char} (h : a <:+ u) (ha : a ≠ []) : a.getLast? = u.getLast? := by
  obtain ⟨t, rfl⟩ := h
  match a, ha with
  | c :: a, _ => rw [List.getLast?_append_cons]

theorem head_append {x : List Char} (hx : x ≠ []) (v : List Char) : (x ++ v)[0]? = x.head? := by
  match x, hx with
  | c :: x, _ => simp

theorem subst_eq_nil (m : Bool → List Char → Nat) (r : List Char) (hr : r ≠ []) {s : List Char} {b : Bool}
    (h : subst m r 0 b s = []) : s = [] := by
  match s with
  | [] => rfl
  | c :: s => exact absurd h (subst_ne_nil m r hr c s b)

theorem front_pass (u x v : List Char) (hx0 : x ≠ []) (hh : x.head? ≠ some 'h') (he : x.head? ≠ some 'e')
    (hz : x.head? = some 'z' → u.getLast? ≠ some 'c')
    (h1 : ∀ b, subst (literal ['c', 'z']) ['t', 's'] 0 b (x ++ v) = x ++ subst (literal ['c', 'z']) ['t', 's'] 0 false v)
    (h2 : ∀ A, dropEnd (A ++ x ++ subst (literal ['c', 'z']) ['t', 's'] 0 false v) =
      A ++ x ++ dropEnd (subst (literal ['c', 'z']) ['t', 's'] 0 false v))
    (h3 : ∀ b V, subst mF ['f'] 0 b (x ++ V) = x ++ subst mF ['f'] 0 false V)
    (h4 : ∀ b V, (b = true → u = []) → subst mE ['J'] 0 b (x ++ V) = x ++ subst mE ['J'] 0 false V) :
    subst mE ['J'] 0 true (subst mF ['f'] 0 true (dropEnd (replace ['c', 'z'] ['t', 's'] (u ++ x ++ v)))) =
      frontU u ++ x ++ frontV v := by
  unfold replace frontU frontV
  rw [subst_pass _ _ _ _ _ (fun b a ha hs => literal_local b a ha (by
      rw [head_append hx0, suffix_getLast hs ha]; exact hz)) (fun b _ => h1 b), h2,
    subst_pass _ _ _ _ _ (fun b a ha _ => mF_local (by rw [head_append hx0]; exact hh) b a ha) (fun b _ => h3 b _),
    subst_pass _ _ _ _ _ (fun b a ha _ => mE_local (by rw [head_append hx0]; exact he) b a ha)
      (fun b hb => h4 b _ fun h => subst_eq_nil _ _ (by simp) (subst_eq_nil _ _ (by simp) (hb h)))]

theorem frontU_getLast {u : List Char} {c : Char} (h : (frontU u).getLast? = some c) :
    c ∈ ['s', 'f', 'J'] ∨ u.getLast? = some c := by
  unfold frontU at h
  rcases subst_getLast _ _ (by simp) _ _ _ _ h with h | h
  · simp at h; subst h; simp
  rcases subst_getLast _ _ (by simp) _ _ _ _ h with h | h
  · simp at h; subst h; simp
  rcases subst_getLast _ _ (by simp) _ _ _ _ h with h | h
  · simp at h; subst h; simp
  exact Or.inr h

theorem dropEnd_head? (s : List Char) (c : Char) (h : (dropEnd s).head? = some c) : s.head? = some c := by
  match s with
  | [] => exact h
  | [d] => exact h
  | d :: e :: s =>
    rw [dropEnd] at h
    split at h
    · simp at h
    · simpa using h

theorem frontV_head {v : List Char} {c : Char} (h : (frontV v).head? = some c) :
    c ∈ ['t', 'f', 'J'] ∨ v.head? = some c := by
  unfold frontV at h
  rcases subst_head? _ _ (by simp) _ _ _ h with h | h
  · simp at h; subst h; simp
  rcases subst_head? _ _ (by simp) _ _ _ h with h | h
  · simp at h; subst h; simp
  rcases subst_head? _ _ (by simp) _ _ _ (dropEnd_head? _ _ h) with h | h
  · simp at h; subst h; simp
  exact Or.inr h

theorem dropEnd_append {A V : List Char} (hA : A.getLast? ≠ some 'i') (hV : V ≠ []) : dropEnd (A ++ V) = A ++ dropEnd V := by
  match A with
  | [] => rfl
  | [a] =>
    match V, hV with
    | c :: V, _ =>
      rw [List.singleton_append, dropEnd, if_neg (by simp at hA; simp [hA])]
      rfl
  | a :: b :: A =>
    have : A ++ V ≠ [] := by simp [hV]
    rw [List.cons_append, List.cons_append, dropEnd, if_neg (by simp [hV]), ← List.cons_append,
      dropEnd_append (A := b :: A) (by simpa using hA) hV]
    rfl

/-! ### The classes of spellings -/

theorem rules_sh {x y : List Char} (hx : x ∈ shSpellings) (hy : y ∈ shSpellings) (u v : List Char)
    (hu : u.getLast? ≠ some 'd' ∧ u.getLast? ≠ some 't') : rules (u ++ x ++ v) = rules (u ++ y ++ v) := by
  have key : ∀ x ∈ shSpellings, subst mCh ['ʃ'] 0 true
      (subst mE ['J'] 0 true (subst mF ['f'] 0 true (dropEnd (replace ['c', 'z'] ['t', 's'] (u ++ x ++ v))))) =
      subst mCh ['ʃ'] 0 true (frontU u) ++ 'ʃ' :: subst mCh ['ʃ'] 0 false (frontV v) := by
    intro x hx
    have hl : (frontU u).getLast? ≠ some 'd' ∧ (frontU u).getLast? ≠ some 't' := by
      constructor
      · intro h; rcases frontU_getLast h with h | h
        · simp at h
        · exact hu.1 h
      · intro h; rcases frontU_getLast h with h | h
        · simp at h
        · exact hu.2 h
    have hsplit : ∀ x : List Char, x ≠ [] → x.head? ≠ some 'h' → ∀ V, (∀ b, subst mCh ['ʃ'] 0 b (x ++ V) = 'ʃ' :: subst mCh ['ʃ'] 0 false V) →
        subst mCh ['ʃ'] 0 true (frontU u ++ x ++ V) = subst mCh ['ʃ'] 0 true (frontU u) ++ 'ʃ' :: subst mCh ['ʃ'] 0 false V := by
      intro x h0 hh V h
      rw [List.append_assoc, subst_split mCh _ _ _ 0 true (by omega) (fun b a ha hs => mCh_local
        (by rw [head_append h0]; exact hh) b a ha fun _ => by rw [suffix_getLast hs ha]; exact hl), h]
    simp only [shSpellings, List.mem_cons, List.not_mem_nil, or_false] at hx
    rcases hx with rfl | rfl | rfl | rfl | rfl | rfl | rfl
    all_goals
      rw [front_pass _ _ _ (by simp) (by simp) (by simp) (by simp) (by intro b; simp [subst, literal])
        (by intro A; simp only [List.append_assoc, List.cons_append, List.nil_append]
            first
            | rw [show ∀ t : List Char, A ++ 'c' :: 'h' :: t = (A ++ ['c']) ++ 'h' :: t by simp, dropEnd_split (by decide)]; simp
            | rw [show ∀ t : List Char, A ++ 's' :: 'h' :: t = (A ++ ['s']) ++ 'h' :: t by simp, dropEnd_split (by decide)]; simp
            | rw [show ∀ t : List Char, A ++ 't' :: 'z' :: t = (A ++ ['t']) ++ 'z' :: t by simp, dropEnd_split (by decide)]; simp
            | rw [show ∀ (a c : Char) (t : List Char), A ++ a :: c :: 'h' :: t = (A ++ [a, c]) ++ 'h' :: t by simp, dropEnd_split (by decide)]; simp)
        (by intro b V; simp [subst, mF]) (by intro b V _; simp [subst, mE_eq])]
      exact hsplit _ (by simp) (by simp) _ (by intro b; simp [subst, mCh])
  unfold rules
  simp only
  rw [key x hx, key y hy]

theorem rules_zh {x y : List Char} (hx : x ∈ zhSpellings) (hy : y ∈ zhSpellings) (u v : List Char) (hu0 : u ≠ []) (hv0 : v ≠ [])
    (hu : u.getLast? ≠ some 'c' ∧ u.getLast? ≠ some 'd' ∧ u.getLast? ≠ some 't') : rules (u ++ x ++ v) = rules (u ++ y ++ v) := by
  have key : ∀ x ∈ zhSpellings, subst mZh ['ʒ'] 0 true (subst mCh ['ʃ'] 0 true
      (subst mE ['J'] 0 true (subst mF ['f'] 0 true (dropEnd (replace ['c', 'z'] ['t', 's'] (u ++ x ++ v)))))) =
      subst mZh ['ʒ'] 0 true (subst mCh ['ʃ'] 0 true (frontU u)) ++ 'ʒ' ::
        subst mZh ['ʒ'] 0 false (subst mCh ['ʃ'] 0 false (frontV v)) := by
    intro x hx
    have hl : (frontU u).getLast? ≠ some 'd' ∧ (frontU u).getLast? ≠ some 't' := by
      constructor
      · intro h; rcases frontU_getLast h with h | h
        · simp at h
        · exact hu.2.1 h
      · intro h; rcases frontU_getLast h with h | h
        · simp at h
        · exact hu.2.2 h
    have hl2 : (subst mCh ['ʃ'] 0 true (frontU u)).getLast? ≠ some 'd' ∧ (subst mCh ['ʃ'] 0 true (frontU u)).getLast? ≠ some 't' := by
      constructor
      · intro h; rcases subst_getLast _ _ (by simp) _ _ _ _ h with h | h
        · simp at h
        · exact hl.1 h
      · intro h; rcases subst_getLast _ _ (by simp) _ _ _ _ h with h | h
        · simp at h
        · exact hl.2 h
    have hV : subst (literal ['c', 'z']) ['t', 's'] 0 false v ≠ [] := fun h => hv0 (subst_eq_nil _ _ (by simp) h)
    have hE : ∀ (b : Bool) (x V : List Char), (∀ V, subst mE ['J'] 0 false (x ++ V) = x ++ subst mE ['J'] 0 false V) → (b = true → u = []) →
        subst mE ['J'] 0 b (x ++ V) = x ++ subst mE ['J'] 0 false V := by
      intro b x V h hb
      cases b with
      | true => exact absurd (hb rfl) hu0
      | false => exact h V
    simp only [zhSpellings, List.mem_cons, List.not_mem_nil, or_false] at hx
    rcases hx with rfl | rfl | rfl | rfl | rfl
    all_goals
      rw [front_pass _ _ _ (by simp) (by simp) (by simp) (by simp [hu.1]) (by intro b; simp [subst, literal])
        (by intro A; rw [dropEnd_append (by simp) hV])
        (by intro b V; simp [subst, mF_eq]) (by intro b V hb; exact hE b _ V (by intro V; simp [subst, mE_eq]) hb),
        subst_pass mCh _ _ _ _ (fun b a ha hs => mCh_local (by simp) b a ha fun _ => by rw [suffix_getLast hs ha]; exact hl)
          (by intro b _; simp [subst, mCh_eq]),
        List.append_assoc, subst_split mZh _ _ _ 0 true (by omega) (fun b a ha hs => mZh_local
          (by simp) b a ha fun _ => by rw [suffix_getLast hs ha]; exact hl2)]
      simp [subst, mZh_eq]
  unfold rules
  simp only
  rw [key x hx, key y hy]

theorem rules_ks (u v : List Char) (hv : v.head? ≠ some 'h') : rules (u ++ ['k', 's'] ++ v) = rules (u ++ ['x'] ++ v) := by
  have hV : (frontV v)[0]? ≠ some 'h' := by
    rw [← List.head?_eq_getElem?]
    intro h
    rcases frontV_head h with h | h
    · simp at h
    · exact hv h
  have key : ∀ x : List Char, x = ['k', 's'] ∨ x = ['x'] → replace ['k', 's'] ['x'] (subst mZh ['ʒ'] 0 true (subst mCh ['ʃ'] 0 true
      (subst mE ['J'] 0 true (subst mF ['f'] 0 true (dropEnd (replace ['c', 'z'] ['t', 's'] (u ++ x ++ v))))))) =
      replace ['k', 's'] ['x'] (subst mZh ['ʒ'] 0 true (subst mCh ['ʃ'] 0 true (frontU u))) ++ 'x' ::
        subst (literal ['k', 's']) ['x'] 0 false (subst mZh ['ʒ'] 0 false (subst mCh ['ʃ'] 0 false (frontV v))) := by
    intro x hx
    rcases hx with rfl | rfl
    · rw [front_pass _ _ _ (by simp) (by simp) (by simp) (by simp) (by intro b; simp [subst, literal])
        (by intro A; rw [show ∀ t : List Char, A ++ ['k', 's'] ++ t = (A ++ ['k']) ++ 's' :: t by simp, dropEnd_split (by decide)]; simp)
        (by intro b V; simp [subst, mF_eq]) (by intro b V _; simp [subst, mE_eq]),
        subst_pass mCh _ _ _ _ (fun b a ha hs => mCh_local (by simp) b a ha (by simp)) (by intro b _; simp [subst, mCh_eq, hV]),
        subst_pass mZh _ _ _ _ (fun b a ha hs => mZh_local (by simp) b a ha (by simp)) (by intro b _; simp [subst, mZh_eq]),
        replace, List.append_assoc, subst_split (literal ['k', 's']) _ _ _ 0 true (by omega) (fun b a ha hs => literal_local b a ha (by simp))]
      simp [subst, literal, replace]
    · rw [front_pass _ _ _ (by simp) (by simp) (by simp) (by simp) (by intro b; simp [subst, literal])
        (by intro A; rw [show ∀ t : List Char, A ++ ['x'] ++ t = A ++ 'x' :: t by simp, dropEnd_split (by decide)]; simp)
        (by intro b V; simp [subst, mF_eq]) (by intro b V _; simp [subst, mE_eq]),
        subst_pass mCh _ _ _ _ (fun b a ha hs => mCh_local (by simp) b a ha (by simp)) (by intro b _; simp [subst, mCh_eq]),
        subst_pass mZh _ _ _ _ (fun b a ha hs => mZh_local (by simp) b a ha (by simp)) (by intro b _; simp [subst, mZh_eq]),
        replace, List.append_assoc, subst_split (literal ['k', 's']) _ _ _ 0 true (by omega) (fun b a ha hs => literal_local b a ha (by simp))]
      simp [subst, literal, replace]
  unfold rules
  simp only
  rw [key _ (Or.inl rfl), key _ (Or.inr rfl)]

theorem rules_k {x y : List Char} (hx : x ∈ kSpellings) (hy : y ∈ kSpellings) (u v : List Char)
    (hv : v.head? ≠ some 'h' ∧ v.head? ≠ some 's' ∧ v.head? ≠ some 'z') : rules (u ++ x ++ v) = rules (u ++ y ++ v) := by
  have hV : (frontV v)[0]? ≠ some 'h' ∧ (frontV v).head? ≠ some 's' := by
    rw [← List.head?_eq_getElem?]
    constructor
    · intro h; rcases frontV_head h with h | h
      · simp at h
      · exact hv.1 h
    · intro h; rcases frontV_head h with h | h
      · simp at h
      · exact hv.2.1 h
  have hV2 : (subst mZh ['ʒ'] 0 false (subst mCh ['ʃ'] 0 false (frontV v)))[0]? ≠ some 's' := by
    rw [← List.head?_eq_getElem?]
    intro h
    rcases subst_head? _ _ (by simp) _ _ _ h with h | h
    · simp at h
    rcases subst_head? _ _ (by simp) _ _ _ h with h | h
    · simp at h
    exact hV.2 h
  have hvz : v[0]? ≠ some 'z' := by rw [← List.head?_eq_getElem?]; exact hv.2.2
  have key : ∀ x ∈ kSpellings, rules (u ++ x ++ v) =
      (subst mK ['k'] 0 true (subst mY ['j'] 0 true (replace ['k', 's'] ['x'] (subst mZh ['ʒ'] 0 true
        (subst mCh ['ʃ'] 0 true (frontU u)))))).filter (· ≠ 'h') ++ 'k' ::
      (subst mK ['k'] 0 false (subst mY ['j'] 0 false (subst (literal ['k', 's']) ['x'] 0 false (subst mZh ['ʒ'] 0 false
        (subst mCh ['ʃ'] 0 false (frontV v)))))).filter (· ≠ 'h') := by
    intro x hx
    unfold rules
    simp only [kSpellings, List.mem_cons, List.not_mem_nil, or_false] at hx
    have hd1 : ∀ (c : Char) (A t : List Char), A ++ [c] ++ t = A ++ c :: t := by simp
    have hd2 : ∀ (c d : Char) (A t : List Char), A ++ [c, d] ++ t = (A ++ [c]) ++ d :: t := by simp
    simp only
    rcases hx with rfl | rfl | rfl | rfl | rfl
    all_goals
      rw [front_pass _ _ _ (by simp) (by simp) (by simp) (by simp) (by intro b; simp [subst, literal_two, hvz])
        (by intro A; first
            | rw [hd1, dropEnd_split (by decide)]; simp
            | rw [hd2, dropEnd_split (by decide)]; simp)
        (by intro b V; simp [subst, mF_eq]) (by intro b V _; simp [subst, mE_eq]),
        subst_pass mCh _ _ _ _ (fun b a ha hs => mCh_local (by simp) b a ha (by simp [hV.1])) (by intro b _; simp [subst, mCh_eq, hV.1]),
        subst_pass mZh _ _ _ _ (fun b a ha hs => mZh_local (by simp) b a ha (by simp)) (by intro b _; simp [subst, mZh_eq]),
        replace, subst_pass (literal ['k', 's']) _ _ _ _ (fun b a ha hs => literal_local b a ha (by simp))
          (by intro b _; simp [subst, literal_two, hV2]),
        subst_pass mY _ _ _ _ (fun b a ha hs => mY_local (by simp) b a ha) (by intro b _; simp [subst, mY_eq]),
        List.append_assoc, subst_split mK _ _ _ 0 true (by omega) (fun b a ha hs => mK_local b a ha)]
      simp [subst, mK_eq, replace]
  rw [key x hx, key y hy]

theorem dropEnd_iy {e : Char} (he : e ∈ ['j', 'y']) : ∀ U : List Char, dropEnd (U ++ ['i', e]) = U
  | [] => by simp at he; rcases he with rfl | rfl <;> simp [dropEnd]
  | [a] => by simp at he; rcases he with rfl | rfl <;> simp [dropEnd]
  | a :: b :: U => by
      rw [List.cons_append, List.cons_append, dropEnd, if_neg (by simp), ← List.cons_append, dropEnd_iy he (b :: U)]

theorem dropEnd_id : ∀ U : List Char, U.getLast? ≠ some 'j' → U.getLast? ≠ some 'y' → dropEnd U = U
  | [], _, _ => rfl
  | [_], _, _ => rfl
  | [a, b], hj, hy => by simp at hj hy; simp [dropEnd, hj, hy]
  | a :: b :: c :: U, hj, hy => by
      rw [dropEnd, if_neg (by simp), dropEnd_id (b :: c :: U) (by simpa using hj) (by simpa using hy)]

theorem rules_iy {e : Char} (he : e ∈ ['j', 'y']) (u : List Char)
    (hu : u.getLast? ≠ some 'j' ∧ u.getLast? ≠ some 'y') : rules (u ++ ['i', e]) = rules u := by
  have hend := dropEnd_iy he
  have hid : ∀ (U : List Char), U.getLast? ≠ some 'j' → U.getLast? ≠ some 'y' → dropEnd U = U := dropEnd_id
  have e1 : dropEnd (replace ['c', 'z'] ['t', 's'] (u ++ ['i', e])) = dropEnd (replace ['c', 'z'] ['t', 's'] u) := by
    unfold replace
    have hez : e ≠ 'c' ∧ e ≠ 'z' := by simp at he; rcases he with rfl | rfl <;> decide
    rw [subst_split _ _ _ u 0 true (by omega) (fun b a ha hs => literal_local b a ha (by simp)),
      show ∀ b, subst (literal ['c', 'z']) ['t', 's'] 0 b ['i', e] = ['i', e] by intro b; simp [subst, literal_two], hend, hid]
    · intro h; rcases subst_getLast _ _ (by simp) _ _ _ _ h with h | h
      · simp at h
      · exact hu.1 h
    · intro h; rcases subst_getLast _ _ (by simp) _ _ _ _ h with h | h
      · simp at h
      · exact hu.2 h
  unfold rules
  simp only
  rw [e1]

/-! ### C82 -/

/-- **C82**: `rusalka` gives the same code (or the same exception) to spellings of a name which differ by `f`, `v`, `w` or `ph`,
by `cz` or `ts`, by `a` or `e` from the third letter on, by the spelling of the sounds of `ch`, `zh` and `k`, by `ks` or `x`, or by a
last `ij` or `iy`. -/
theorem rusalka_respelling (lower unidecode : List Char → List Char)
    (hlower : ∀ s, (∀ c ∈ s, IsLetter c ∨ c ∈ ['J', 'ʃ', 'ʒ']) → lower s = s.map fun c => if c = 'J' then 'j' else c)
    (hunidecode : ∀ s, (∀ c ∈ s, IsLetter c) → unidecode s = s) (name name' : List Char) (hn : ∀ c ∈ name, IsLetter c)
    (hn' : ∀ c ∈ name', IsLetter c) (h : Respelling name name') :
    rusalka lower unidecode name = rusalka lower unidecode name' := by
  cases h with
  | letters ha hb hs =>
      rename_i a b a' b' s s'
      rw [rusalka_letters hlower hunidecode hn (by simp), rusalka_letters hlower hunidecode hn' (by simp)]
      have hr := rules_rel (.cons (Or.inl ha) (.cons (Or.inl hb) hs)) (s := a :: b :: s) (s' := a' :: b' :: s')
        ⟨by simpa using ha, by simpa using fun _ => hb⟩
      revert hr
      generalize rules (a :: b :: s) = x
      generalize rules (a' :: b' :: s') = x'
      intro hr
      cases hr with
      | nil => rfl
      | cons hcd hst =>
          simp only
          rw [consonants_rel hst _ _ hcd]
          rcases hcd with rfl | ⟨h1, h2⟩
          · rfl
          · have hv : ∀ c, c ∈ ['a', 'e'] → vowel c = true := by decide
            rw [hv _ h1, hv _ h2]
            rfl
  | ph u v huv =>
      have hlen : 0 < u.length + v.length := by
        rw [← List.length_append]
        exact List.length_pos_iff.2 huv
      rw [rusalka_letters hlower hunidecode hn (by simp; omega), rusalka_letters hlower hunidecode hn' (by simp; omega)]
      have e : rules (u ++ 'p' :: 'h' :: v) = rules (u ++ 'f' :: v) := by
        unfold rules replace
        simp only
        rw [literal_split (x := 'c') (y := 'z') (z := 'p') (by decide) (by decide) _ _ u 0 true (by omega),
          literal_split (x := 'c') (y := 'z') (z := 'f') (by decide) (by decide) _ _ u 0 true (by omega)]
        have := literal_split (x := 'c') (y := 'z') (z := 'h') (by decide) (by decide) ['t', 's'] v [] 0 false (by simp)
        rw [List.nil_append] at this
        rw [this]
        simp only [subst, List.nil_append]
        rw [dropEnd_split (by decide), dropEnd_split (by decide), ← List.nil_append ('h' :: subst _ _ _ _ v), dropEnd_split (by decide),
          List.nil_append, mF_ph _ _ _ 0 true (by omega)]
      rw [e]
  | cz u v =>
      rw [rusalka_letters hlower hunidecode hn (by simp; omega), rusalka_letters hlower hunidecode hn' (by simp; omega)]
      have e : rules (u ++ 'c' :: 'z' :: v) = rules (u ++ 't' :: 's' :: v) := by
        unfold rules replace
        simp only
        rw [literal_cz v u 0 true (by omega)]
      rw [e]
  | sh hx hy u v hu =>
      have hl : ∀ x ∈ shSpellings, 2 ≤ x.length := by decide
      rw [rusalka_letters hlower hunidecode hn (by have := hl _ hx; simp; omega),
        rusalka_letters hlower hunidecode hn' (by have := hl _ hy; simp; omega), rules_sh hx hy u v hu]
  | zh hx hy u v hu0 hv0 hu =>
      have := List.length_pos_iff.2 hu0
      have := List.length_pos_iff.2 hv0
      rw [rusalka_letters hlower hunidecode hn (by simp; omega),
        rusalka_letters hlower hunidecode hn' (by simp; omega), rules_zh hx hy u v hu0 hv0 hu]
  | ks u v huv hv =>
      have hlen : 0 < u.length + v.length := by
        rw [← List.length_append]
        exact List.length_pos_iff.2 huv
      rw [rusalka_letters hlower hunidecode hn (by simp; omega), rusalka_letters hlower hunidecode hn' (by simp; omega),
        rules_ks u v hv]
  | k hx hy u v huv hv =>
      have hlen : 0 < u.length + v.length := by
        rw [← List.length_append]
        exact List.length_pos_iff.2 huv
      have hl : ∀ x ∈ kSpellings, 1 ≤ x.length := by decide
      rw [rusalka_letters hlower hunidecode hn (by have := hl _ hx; simp; omega),
        rusalka_letters hlower hunidecode hn' (by have := hl _ hy; simp; omega), rules_k hx hy u v hv]
  | iy he _ h2 hu =>
      rw [rusalka_letters hlower hunidecode hn (by simp), rusalka_letters hlower hunidecode hn' h2, rules_iy he _ hu]

/-- The hypotheses hold for characterwise functions: "stephan" and "stefan", "orlow" and "orlov", "stefan" and "stefen", "czar"
and "tsar". -/
example : ∃ lower unidecode : List Char → List Char,
    rusalka lower unidecode "stephan".toList = rusalka lower unidecode "stefan".toList ∧
    rusalka lower unidecode "orlow".toList = rusalka lower unidecode "orlov".toList ∧
    rusalka lower unidecode "stefan".toList = rusalka lower unidecode "stefen".toList ∧
    rusalka lower unidecode "czar".toList = rusalka lower unidecode "tsar".toList ∧
    rusalka lower unidecode "stefen".toList = .ok "stfn".toList := by
  have hl : ∀ l : List Char, l.all (fun c => decide ('a' ≤ c ∧ c ≤ 'z')) = true → ∀ c ∈ l, IsLetter c := by
    intro l h c hc
    simpa [IsLetter] using List.all_eq_true.1 h c hc
  refine ⟨List.map fun c => if c = 'J' then 'j' else c, id, ?_, ?_, ?_, ?_, ?_⟩
  · exact rusalka_respelling _ _ (fun _ _ => rfl) (fun _ _ => rfl) _ _ (hl _ (by decide)) (hl _ (by decide))
      (.ph "ste".toList "an".toList (by decide))
  · exact rusalka_respelling _ _ (fun _ _ => rfl) (fun _ _ => rfl) _ _ (hl _ (by decide)) (hl _ (by decide))
      (.letters (Or.inl rfl) (Or.inl rfl) (.cons (Or.inl (Or.inl rfl)) (.cons (Or.inl (Or.inl rfl))
        (.cons (Or.inl (Or.inr (by decide))) .nil))))
  · exact rusalka_respelling _ _ (fun _ _ => rfl) (fun _ _ => rfl) _ _ (hl _ (by decide)) (hl _ (by decide))
      (.letters (Or.inl rfl) (Or.inl rfl) (.cons (Or.inl (Or.inl rfl)) (.cons (Or.inl (Or.inl rfl))
        (.cons (Or.inr (by decide)) (.cons (Or.inl (Or.inl rfl)) .nil)))))
  · exact rusalka_respelling _ _ (fun _ _ => rfl) (fun _ _ => rfl) _ _ (hl _ (by decide)) (hl _ (by decide))
      (.cz [] "ar".toList)
  · rw [rusalka_letters (unidecode := id) (name := "stefen".toList) (fun _ _ => rfl) (fun _ _ => rfl) (hl _ (by decide)) (by decide),
      show rules "stefen".toList = "stefen".toList by decide +kernel]
    decide +kernel

/-- "tchekov" and "chekhov", "gorkij" and "gork", "alexander" and "aleksander", "azhena" and "ajena". -/
example : ∃ lower unidecode : List Char → List Char,
    rusalka lower unidecode "tchekov".toList = rusalka lower unidecode "chekhov".toList ∧
    rusalka lower unidecode "gorkij".toList = rusalka lower unidecode "gork".toList ∧
    rusalka lower unidecode "aleksander".toList = rusalka lower unidecode "alexander".toList ∧
    rusalka lower unidecode "azhena".toList = rusalka lower unidecode "ajena".toList := by
  have hl : ∀ l : List Char, l.all (fun c => decide ('a' ≤ c ∧ c ≤ 'z')) = true → ∀ c ∈ l, IsLetter c := by
    intro l h c hc
    simpa [IsLetter] using List.all_eq_true.1 h c hc
  refine ⟨List.map fun c => if c = 'J' then 'j' else c, id, ?_, ?_, ?_, ?_⟩
  · exact (rusalka_respelling _ _ (fun _ _ => rfl) (fun _ _ => rfl) _ "chekov".toList (hl _ (by decide)) (hl _ (by decide))
      (.sh (x := ['t', 'c', 'h']) (y := ['c', 'h']) (by decide) (by decide) [] "ekov".toList (by decide))).trans
      (rusalka_respelling _ _ (fun _ _ => rfl) (fun _ _ => rfl) _ _ (hl _ (by decide)) (hl _ (by decide))
      (.k (x := ['k']) (y := ['k', 'h']) (by decide) (by decide) "che".toList "ov".toList (by decide) (by decide)))
  · exact rusalka_respelling _ _ (fun _ _ => rfl) (fun _ _ => rfl) _ _ (hl _ (by decide)) (hl _ (by decide))
      (.iy (e := 'j') (by decide) "gork".toList (by decide) (by decide))
  · exact rusalka_respelling _ _ (fun _ _ => rfl) (fun _ _ => rfl) _ _ (hl _ (by decide)) (hl _ (by decide))
      (.ks "ale".toList "ander".toList (by decide) (by decide))
  · exact rusalka_respelling _ _ (fun _ _ => rfl) (fun _ _ => rfl) _ _ (hl _ (by decide)) (hl _ (by decide))
      (.zh (x := ['z', 'h']) (y := ['j']) (by decide) (by decide) "a".toList "ena".toList (by decide) (by decide) (by decide))

end Fog.Props
