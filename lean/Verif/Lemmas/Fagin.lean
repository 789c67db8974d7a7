import Verif.Model.Fagin
import Verif.Spec.InvertedIndex
import Verif.Lemmas.Dict
import Mathlib.Data.List.Sort
import Mathlib.Data.List.Nodup

/-!
# Inverted lists
-/

namespace Fog.Fagin

open Fog.Spec

variable {κ F : Type} [DecidableEq κ]

/-- The vector `i` has the dimension `d`. -/
def Has (vectors : List (Dict κ F)) (i : Nat) (d : κ) : Prop := ∃ w, HasWeight vectors i d w

omit [DecidableEq κ] in
theorem has_iff {vectors : List (Dict κ F)} {i : Nat} {v : Dict κ F} (hv : vectors[i]? = some v) (d : κ) :
    Has vectors i d ↔ d ∈ v.keys := by
  simp only [Has, HasWeight, hv, Option.some.injEq, Dict.keys, List.mem_map, Prod.exists]
  grind

theorem pairTurn_foldl (i : Nat) (l : List Nat) (vis : List Nat) (out : List (Nat × Nat)) (hn : out.Nodup)
    (ho : ∀ j, (i, j) ∈ out ↔ j ∈ vis) :
    (∀ j, j ∈ (l.foldl (pairTurn i) (vis, out)).1 ↔ j ∈ vis ∨ j ∈ l) ∧ (l.foldl (pairTurn i) (vis, out)).2.Nodup ∧
      ∀ a b, (a, b) ∈ (l.foldl (pairTurn i) (vis, out)).2 ↔ (a, b) ∈ out ∨ (a = i ∧ b ∈ l) := by
  induction l generalizing vis out with
  | nil => simp [hn]
  | cons x l ih =>
      rw [List.foldl_cons]
      by_cases hx : x ∈ vis
      · rw [show pairTurn i (vis, out) x = (vis, out) by simp [pairTurn, hx]]
        obtain ⟨h1, h2, h3⟩ := ih vis out hn ho
        refine ⟨fun j => ?_, h2, fun a b => ?_⟩
        · rw [h1]; grind
        · rw [h3]; grind
      · rw [show pairTurn i (vis, out) x = (x :: vis, out ++ [(i, x)]) by simp [pairTurn, hx]]
        have hn' : (out ++ [(i, x)]).Nodup := by
          rw [List.nodup_append]
          refine ⟨hn, by simp, ?_⟩
          rintro ⟨a, b⟩ hab c hc rfl
          simp only [List.mem_singleton, Prod.mk.injEq] at hc
          obtain ⟨rfl, rfl⟩ := hc
          exact hx ((ho b).1 hab)
        obtain ⟨h1, h2, h3⟩ := ih (x :: vis) (out ++ [(i, x)]) hn' (by intro j; simp [ho]; grind)
        refine ⟨fun j => ?_, h2, fun a b => ?_⟩
        · rw [h1]; grind
        · rw [h3]; simp; grind

/-- What is known when the dimensions `ds` of the vector `i` have been read. -/
structure NInv (vectors : List (Dict κ F)) (i : Nat) (ds : List κ) (s : NState κ) : Prop where
  lists : ∀ d j, j ∈ (s.lists.get? d).getD [] ↔ (j < i ∧ Has vectors j d) ∨ (j = i ∧ d ∈ ds)
  visited : ∀ j, j ∈ s.visited ↔ j < i ∧ ∃ d ∈ ds, Has vectors j d
  nodup : s.out.Nodup
  out : ∀ a b, (a, b) ∈ s.out ↔ b < a ∧ ((a < i ∧ ShareDimension vectors a b) ∨ (a = i ∧ ∃ d ∈ ds, Has vectors b d))

theorem dimTurn_inv {vectors : List (Dict κ F)} {i : Nat} {ds : List κ} {s : NState κ} (h : NInv vectors i ds s) {d : κ}
    (hd : d ∉ ds) : NInv vectors i (ds ++ [d]) (dimTurn i s d) := by
  have hl : ∀ j, j ∈ (s.lists.get? d).getD [] ↔ j < i ∧ Has vectors j d := by
    intro j; rw [h.lists]; grind
  obtain ⟨h1, h2, h3⟩ := pairTurn_foldl i ((s.lists.get? d).getD []) s.visited s.out h.nodup
    (by intro j; rw [h.out, h.visited]; grind)
  refine ⟨?_, ?_, h2, ?_⟩
  · intro e j
    simp only [dimTurn, Dict.get?_update]
    by_cases he : d = e
    · subst he
      simp only [if_true, Option.getD_some, List.mem_append, hl, List.mem_singleton]
      grind
    · simp only [he, if_false, h.lists, List.mem_append, List.mem_singleton]
      grind
  · intro j
    simp only [dimTurn]
    rw [h1, h.visited, hl]
    grind
  · intro a b
    simp only [dimTurn]
    rw [h3, h.out, hl]
    grind

theorem dims_inv {vectors : List (Dict κ F)} {i : Nat} (rest : List κ) {ds : List κ} {s : NState κ} (h : NInv vectors i ds s)
    (hn : (ds ++ rest).Nodup) : NInv vectors i (ds ++ rest) (rest.foldl (dimTurn i) s) := by
  induction rest generalizing ds s with
  | nil => simpa using h
  | cons d rest ih =>
      rw [List.foldl_cons]
      have := ih (ds := ds ++ [d]) (dimTurn_inv h (by rw [List.nodup_append] at hn; grind)) (by simpa using hn)
      simpa using this

theorem naive_inv {vectors : List (Dict κ F)} (hv : AreVectors vectors) (rest : List (Dict κ F)) (i : Nat)
    (hr : vectors.drop i = rest) (s : NState κ) (h : NInv vectors i [] { s with visited := [] }) :
    ∃ s', (rest.zipIdx i).foldl (fun s v => v.1.keys.foldl (dimTurn v.2) { s with visited := [] }) s = s' ∧
      NInv vectors (i + rest.length) [] { s' with visited := [] } := by
  induction rest generalizing i s with
  | nil => exact ⟨s, rfl, by simpa using h⟩
  | cons v rest ih =>
      have hvi : vectors[i]? = some v := by
        have := congrArg (fun l => l[0]?) hr
        simpa using this
      have hr' : vectors.drop (i + 1) = rest := by
        have := congrArg List.tail hr
        simpa using this
      have h1 := dims_inv v.keys h (by simpa [Dict.keys] using hv v (List.mem_of_getElem? hvi))
      simp only [List.nil_append] at h1
      have h2 : NInv vectors (i + 1) [] { v.keys.foldl (dimTurn i) { s with visited := [] } with visited := [] } := by
        refine ⟨?_, by simp, h1.nodup, ?_⟩
        · intro d j
          simp only
          rw [h1.lists, ← has_iff hvi]
          grind
        · intro a b
          simp only
          rw [h1.out]
          simp only [← has_iff hvi]
          have : ShareDimension vectors i b ↔ ∃ d, Has vectors i d ∧ Has vectors b d := by
            simp only [ShareDimension, Has]; grind
          grind
      obtain ⟨s', hs', hi'⟩ := ih (i + 1) hr' (v.keys.foldl (dimTurn i) { s with visited := [] }) h2
      refine ⟨s', ?_, ?_⟩
      · rw [List.zipIdx_cons, List.foldl_cons]; exact hs'
      · rw [List.length_cons, ← Nat.add_assoc, Nat.add_right_comm]; exact hi'

/-! ### Sorted lists -/

theorem vector_posting (lists : Dict κ (List (F × Nat))) (v : Dict κ F) (i : Nat) (d : κ) :
    ((v.foldl (fun lists e => lists.update e.1 [] (· ++ [(e.2, i)])) lists).get? d).getD [] =
      (lists.get? d).getD [] ++ (v.filter fun e => decide (e.1 = d)).map fun e => (e.2, i) := by
  induction v generalizing lists with
  | nil => simp
  | cons x v ih =>
      rw [List.foldl_cons, ih, Dict.get?_update]
      by_cases hx : x.1 = d
      · simp [hx]
      · simp [hx]

theorem postings_get (vectors : List (Dict κ F)) (d : κ) : ((postings vectors).get? d).getD [] =
    vectors.zipIdx.flatMap fun v => (v.1.filter fun e => decide (e.1 = d)).map fun e => (e.2, v.2) := by
  have h : ∀ (l : List (Dict κ F × Nat)) (lists : Dict κ (List (F × Nat))),
      ((l.foldl (fun lists v => v.1.foldl (fun lists e => lists.update e.1 [] (· ++ [(e.2, v.2)])) lists) lists).get? d).getD [] =
        (lists.get? d).getD [] ++ l.flatMap fun v => (v.1.filter fun e => decide (e.1 = d)).map fun e => (e.2, v.2) := by
    intro l
    induction l with
    | nil => simp
    | cons x l ih => intro lists; rw [List.foldl_cons, ih, vector_posting, List.flatMap_cons, List.append_assoc]
  have := h vectors.zipIdx []
  rw [postings, this]
  simp [Dict.get?]

theorem mem_postings (vectors : List (Dict κ F)) (d : κ) (w : F) (j : Nat) :
    (w, j) ∈ ((postings vectors).get? d).getD [] ↔ HasWeight vectors j d w := by
  rw [postings_get]
  simp only [List.mem_flatMap, List.mem_map, List.mem_filter, decide_eq_true_eq, Prod.exists, Prod.mk.injEq, List.mem_zipIdx_iff_getElem?,
    HasWeight]
  grind

theorem nodup_postings {vectors : List (Dict κ F)} (hv : AreVectors vectors) (d : κ) :
    ((((postings vectors).get? d).getD []).map Prod.snd).Nodup := by
  rw [postings_get]
  have h : ∀ (l : List (Dict κ F)) (n : Nat), AreVectors l →
      (((l.zipIdx n).flatMap fun v => (v.1.filter fun e => decide (e.1 = d)).map fun e => (e.2, v.2)).map Prod.snd).Nodup ∧
      ∀ j ∈ (((l.zipIdx n).flatMap fun v => (v.1.filter fun e => decide (e.1 = d)).map fun e => (e.2, v.2)).map Prod.snd), n ≤ j := by
    intro l
    induction l with
    | nil => simp
    | cons v l ih =>
        intro n hl
        obtain ⟨h1, h2⟩ := ih (n + 1) (fun v hv => hl v (by simp [hv]))
        have hone : ∀ (v : Dict κ F), (v.map Prod.fst).Nodup →
            (((v.filter fun e => decide (e.1 = d)).map fun e => (e.2, n)).map Prod.snd).Nodup := by
          intro v
          induction v with
          | nil => simp
          | cons x v ih =>
              intro hn
              rw [List.map_cons, List.nodup_cons] at hn
              by_cases hx : x.1 = d
              · have : (v.filter fun e => decide (e.1 = d)) = [] := by
                  rw [List.filter_eq_nil_iff]
                  intro e he hed
                  exact hn.1 (List.mem_map.2 ⟨e, he, by simp at hed; rw [hed, hx]⟩)
                simp [hx, this]
              · simpa [hx] using ih hn.2
        rw [List.zipIdx_cons, List.flatMap_cons, List.map_append]
        refine ⟨?_, ?_⟩
        · rw [List.nodup_append]
          refine ⟨hone v (hl v (by simp)), h1, ?_⟩
          intro a ha b hb hab
          have := h2 b hb
          simp only [List.map_map, List.mem_map, Function.comp] at ha
          obtain ⟨_, _, rfl⟩ := ha
          omega
        · intro j hj
          rcases List.mem_append.1 hj with hj | hj
          · simp only [List.map_map, List.mem_map, Function.comp] at hj
            obtain ⟨_, _, rfl⟩ := hj
            exact Nat.le_refl _
          · have := h2 j hj; omega
  exact (h vectors 0 hv).1

variable [LinearOrder F]

theorem invertedList_perm (vectors : List (Dict κ F)) (d : κ) :
    (invertedList vectors d).Perm (((postings vectors).get? d).getD []) := List.mergeSort_perm _ _

theorem mem_invertedList (vectors : List (Dict κ F)) (d : κ) (w : F) (j : Nat) :
    (w, j) ∈ invertedList vectors d ↔ HasWeight vectors j d w := by
  rw [(invertedList_perm vectors d).mem_iff, mem_postings]

theorem mem_snd_invertedList (vectors : List (Dict κ F)) (d : κ) (j : Nat) :
    j ∈ (invertedList vectors d).map Prod.snd ↔ Has vectors j d := by
  simp only [List.mem_map, Prod.exists, Has, mem_invertedList]
  grind

theorem nodup_invertedList {vectors : List (Dict κ F)} (hv : AreVectors vectors) (d : κ) :
    ((invertedList vectors d).map Prod.snd).Nodup :=
  ((invertedList_perm vectors d).map _).nodup_iff.2 (nodup_postings hv d)

theorem sorted_invertedList (vectors : List (Dict κ F)) (d : κ) :
    (invertedList vectors d).Pairwise fun a b => a.1 < b.1 ∨ (a.1 = b.1 ∧ a.2 ≤ b.2) := by
  have := List.pairwise_mergeSort (le := tupleLe (F := F)) (by
    intro a b c hab hbc
    simp only [tupleLe, decide_eq_true_eq] at *
    rcases hab with h | ⟨h, h'⟩ <;> rcases hbc with g | ⟨g, g'⟩
    · exact Or.inl (lt_trans h g)
    · exact Or.inl (g ▸ h)
    · exact Or.inl (h ▸ g)
    · exact Or.inr ⟨h.trans g, Nat.le_trans h' g'⟩) (by
    intro a b
    simp only [tupleLe, Bool.or_eq_true, decide_eq_true_eq]
    rcases lt_trichotomy a.1 b.1 with h | h | h
    · exact Or.inl (Or.inl h)
    · rcases Nat.le_total a.2 b.2 with h' | h'
      · exact Or.inl (Or.inr ⟨h, h'⟩)
      · exact Or.inr (Or.inr ⟨h.symm, h'⟩)
    · exact Or.inr (Or.inl h)) (((postings vectors).get? d).getD [])
  exact this.imp (by intro a b h; simpa [tupleLe] using h)

theorem length_invertedList {vectors : List (Dict κ F)} (hv : AreVectors vectors) (d : κ) :
    (invertedList vectors d).length ≤ vectors.length := by
  have h1 := nodup_invertedList hv d
  have h2 : ((invertedList vectors d).map Prod.snd) ⊆ List.range vectors.length := by
    intro j hj
    rw [mem_snd_invertedList] at hj
    obtain ⟨w, v, h, _⟩ := hj
    rw [List.mem_range]
    exact (List.getElem?_eq_some_iff.1 h).1
  have := h1.length_le_of_subset h2
  simpa using this

end Fog.Fagin
