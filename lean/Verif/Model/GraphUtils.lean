import Verif.Model.Dict
import Verif.Model.Py

/-!
# Model of `fog/graph/utils.py`

A `networkx` graph is the dictionary of its nodes, with for each node the dictionary of its neighbours and of the data of the edge.
-/

namespace Fog.GraphUtils

variable {α ω : Type _} [DecidableEq α]

/-- The adjacency of a graph of nodes `α` whose edges have data `ω` (graph/utils.py l. 14, 29). -/
abbrev Graph (α ω : Type _) := Dict α (Dict α ω)

/-- How many nodes were not seen (graph/utils.py l. 22-32, a measure which is not in the code). -/
def unseen (g : Graph α ω) (seen : List α) : Nat := (g.keys.filter fun k => k ∉ seen).length

theorem unseen_lt {g : Graph α ω} {seen : List α} {x : α} {l : Dict α ω} (h : g.get? x = some l) (hx : x ∉ seen) :
    unseen g (x :: seen) < unseen g seen := by
  have key : ∀ d : Graph α ω, (d.keys.filter fun k => k ∉ x :: seen).length ≤ (d.keys.filter fun k => k ∉ seen).length ∧
      (d.get? x = some l → (d.keys.filter fun k => k ∉ x :: seen).length < (d.keys.filter fun k => k ∉ seen).length) := by
    intro d
    induction d with
    | nil => simp [Dict.get?, Dict.keys]
    | cons y d ih =>
        obtain ⟨a, b⟩ := y
        have h1 := ih.1
        have h2 := ih.2
        simp only [Dict.keys, List.map_cons, List.filter_cons] at h1 h2 ⊢
        by_cases hax : a = x
        · subst hax
          simp [hx] at h1 ⊢; omega
        · by_cases has : a ∈ seen
          · simp [hax, has, Dict.get?] at h1 h2 ⊢; exact ⟨h1, h2⟩
          · simp [hax, has, Dict.get?] at h1 h2 ⊢; exact ⟨h1, h2⟩
  exact (key g).2 h

/-- The neighbours pushed on the stack for `n1` (graph/utils.py l. 29-32), in order. -/
def accepted (edge_filter : Option (α → α → ω → Bool)) (n1 : α) (edges : Dict α ω) : List α :=
  (edges.filter fun e => match edge_filter with
    | some f => f n1 e.1 e.2
    | none => true).map Prod.fst

/-- The `while` loop of `component_sizes` (graph/utils.py l. 22-32). The top of the stack is the head of the list. Returns `seen`
and `c`. A neighbour which is not a node does not exist in `networkx`. -/
def search (g : Graph α ω) (edge_filter : Option (α → α → ω → Bool)) : (stack seen : List α) → Nat → Py (List α × Nat)
  | [], seen, c => .ok (seen, c)
  | n1 :: stack, seen, c =>
      if hv : n1 ∈ seen then search g edge_filter stack seen c
      else
        match hg : g.get? n1 with
        | none => .error .keyError
        | some edges => search g edge_filter ((accepted edge_filter n1 edges).reverse ++ stack) (n1 :: seen) (c + 1)
termination_by stack seen => (unseen g seen, stack.length)
decreasing_by
  · exact Prod.Lex.right _ (by simp)
  · exact Prod.Lex.left _ _ (unseen_lt hg hv)

/-- The `for` loop of `component_sizes` (graph/utils.py l. 14-34). -/
def sizesLoop (g : Graph α ω) (edge_filter : Option (α → α → ω → Bool)) : List α → List α → Py (List Nat)
  | [], _ => .ok []
  | node :: nodes, seen =>
      if node ∈ seen then sizesLoop g edge_filter nodes seen
      else do
        let (seen, c) ← search g edge_filter [node] seen 0
        let rest ← sizesLoop g edge_filter nodes seen
        pure (c :: rest)

/-- `component_sizes(g, edge_filter)` (graph/utils.py l. 10-34). -/
def componentSizes (g : Graph α ω) (edge_filter : Option (α → α → ω → Bool)) : Py (List Nat) :=
  sizesLoop g edge_filter g.keys []

/-- `second_largest_component_size(g, edge_filter)` (graph/utils.py l. 37-43). `nlargest(2, l)` is the beginning of `l` sorted in
decreasing order. -/
def secondLargest (g : Graph α ω) (edge_filter : Option (α → α → ω → Bool)) : Py (Option Nat) := do
  let sizes ← componentSizes g edge_filter
  let top := (sizes.mergeSort fun a b => decide (b ≤ a)).take 2
  if top.length < 2 then pure none else pure top[1]?

end Fog.GraphUtils
