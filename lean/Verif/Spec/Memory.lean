/-!
# Specification: memory

Independent of the code.  A heap lists the blocks allocated so far, `none` standing for one which was given back.
-/

namespace Fog.Spec

variable {α : Type _}

/-- The blocks which have not been given back, from the oldest one. -/
def held (heap : List (Option α)) : List α := heap.filterMap id

end Fog.Spec
