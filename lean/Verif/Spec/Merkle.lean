import Mathlib.Logic.Function.Basic

/-!
What it means for a hash to be broken by two lists of inputs.
-/

namespace Spec

/-- Two calls of the same hash with different inputs and the same output, one in each list. -/
def Collision {α D : Type} (hash : α → D) (calls calls' : List α) : Prop :=
  ∃ x ∈ calls, ∃ y ∈ calls', x ≠ y ∧ hash x = hash y

end Spec
