import Mathlib.Algebra.Field.Defs
import Mathlib.Order.Defs.LinearOrder

/-!
# Specification: metrics

Independent of the code.
-/

namespace Fog.Spec

variable {α K : Type _} [Field K] [LinearOrder K]

/-- A distance which is symmetric, null from an item to itself, and satisfies the triangle inequality. -/
structure IsPseudoMetric (d : α → α → K) : Prop where
  self : ∀ a, d a a = 0
  symm : ∀ a b, d a b = d b a
  triangle : ∀ a b c, d a c ≤ d a b + d b c

/-- A metric: moreover, two different items are at a positive distance. -/
structure IsMetric (d : α → α → K) : Prop extends IsPseudoMetric d where
  pos : ∀ a b, a ≠ b → 0 < d a b

end Fog.Spec
