/-!
# Specification: sparse vectors and their dimensions

Independent of the code. A vector is the list of its dimensions with their weights.
-/

namespace Fog.Spec

variable {κ F : Type}

/-- The vector `i` has the weight `w` in dimension `d`. -/
def HasWeight (vectors : List (List (κ × F))) (i : Nat) (d : κ) (w : F) : Prop := ∃ v, vectors[i]? = some v ∧ (d, w) ∈ v

/-- The vectors `i` and `j` have a dimension in common. -/
def ShareDimension (vectors : List (List (κ × F))) (i j : Nat) : Prop :=
  ∃ d w w', HasWeight vectors i d w ∧ HasWeight vectors j d w'

/-- The vector `j` has all the dimensions of the vector `i`. -/
def HasAllDimensions (vectors : List (List (κ × F))) (i j : Nat) : Prop :=
  ∀ d w, HasWeight vectors i d w → ∃ w', HasWeight vectors j d w'

/-- No vector has a dimension twice. -/
def AreVectors (vectors : List (List (κ × F))) : Prop := ∀ v ∈ vectors, (v.map Prod.fst).Nodup

/-- Another vector has all the dimensions of the vector `i`, which has some. -/
def Covered (vectors : List (List (κ × F))) (i : Nat) : Prop :=
  (∃ d w, HasWeight vectors i d w) ∧ ∃ j, j ≠ i ∧ HasAllDimensions vectors i j

/-- `js` are other vectors with a dimension of the vector `i`. One of them, with all the dimensions of `i`, has in each of these no greater
weight than any vector which is not in `js`. -/
structure Candidates [LE F] (vectors : List (List (κ × F))) (i : Nat) (js : List Nat) : Prop where
  nodup : js.Nodup
  share : ∀ j ∈ js, j ≠ i ∧ ShareDimension vectors i j
  least : ∃ s ∈ js, HasAllDimensions vectors i s ∧ ∀ j, j ≠ i → j ∉ js → ∀ d w ws wj, HasWeight vectors i d w →
    HasWeight vectors s d ws → HasWeight vectors j d wj → ws ≤ wj

/-- The vector `j` is `i` if no other vector has a dimension of `i`. Otherwise it is another vector with a dimension of `i`, at least as
similar to it as the vector with the least weight in any dimension of `i`. If it is not the most similar, it is at least as similar as a
vector `t` made of weights of other vectors. `cs` are the similarities of `i` with other vectors and `T` with such vectors. -/
def ThresholdAnswer [LT F] [LE F] (vectors : List (List (κ × F))) (i : Nat) (cs : Nat → F) (T : List (κ × F) → F) (j : Nat) : Prop :=
  (j = i ∧ ∀ j', j' ≠ i → ¬ ShareDimension vectors i j') ∨
  (j ≠ i ∧ ShareDimension vectors i j ∧
    (∀ d w j' w', HasWeight vectors i d w → j' ≠ i → HasWeight vectors j' d w' →
      (∀ j'' w'', j'' ≠ i → HasWeight vectors j'' d w'' → w' < w'' ∨ (w' = w'' ∧ j' ≤ j'')) → cs j' ≤ cs j) ∧
    ((∀ j', j' ≠ i → ShareDimension vectors i j' → cs j' ≤ cs j) ∨
      ∃ t, (t.map Prod.fst).Nodup ∧ (∀ e ∈ t, ∃ j', j' ≠ i ∧ HasWeight vectors j' e.1 e.2) ∧ T t ≤ cs j))

end Fog.Spec
