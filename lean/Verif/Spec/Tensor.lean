import Mathlib.Data.List.Basic
import Mathlib.Algebra.BigOperators.Group.List.Defs

/-!
Specification of tensors: coordinates, row-major positions, entries.
-/

namespace Spec

/-- `c` is a coordinate of a tensor with the given shape: one index per dimension, each below it. -/
def InRange (shape c : List ℕ) : Prop := List.Forall₂ (fun x d => x < d) c shape

instance (shape c : List ℕ) : Decidable (InRange shape c) :=
  inferInstanceAs (Decidable (List.Forall₂ _ _ _))

/-- The row-major position of a coordinate: the last index changes the fastest. -/
def flat : List ℕ → List ℕ → ℕ
  | _ :: ds, c :: cs => c * ds.prod + flat ds cs
  | _, _ => 0

/-- Broadcasting: the coordinate of the original tensor which an entry of the expanded tensor is taken from. Dimensions are
aligned at the end; dimensions of size one are repeated. -/
def broadcastCoord (old c : List ℕ) : List ℕ :=
  ((c.drop (c.length - old.length)).zip old).map fun xd => if xd.2 = 1 then 0 else xd.1

end Spec
