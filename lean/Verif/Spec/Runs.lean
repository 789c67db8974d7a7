/-!
# Specification: runs

Independent of the code.
-/

namespace Fog.Spec

/-- `s` is obtained from `t` by repeating each of its elements one or more times. -/
def Repeats {α : Type _} (t s : List α) : Prop :=
  ∃ ns : List Nat, ns.length = t.length ∧ (∀ n ∈ ns, 0 < n) ∧ s = (List.zipWith List.replicate ns t).flatten

/-- No two consecutive elements satisfy `R`. -/
def NoConsecutive {α : Type _} (R : α → α → Prop) : List α → Prop
  | [] => True
  | [_] => True
  | a :: b :: l => ¬ R a b ∧ NoConsecutive R (b :: l)

end Fog.Spec
