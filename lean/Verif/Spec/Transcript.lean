import Verif.Model.Transcript

/-! What a transcript has absorbed, independently of how its state evolves. -/

namespace Spec

open Model

variable {F : Type}

/-- The flat history of a sequence of calls: `some x` where the field element `x` is absorbed, `none` where a component of a challenge is drawn. -/
def absorbed (ofU64 : ℕ → F) : List (TranscriptOp F) → List (Option F)
  | [] => []
  | .base xs :: ops => xs.map some ++ absorbed ofU64 ops
  | .ext e :: ops => some e.1 :: some e.2 :: absorbed ofU64 ops
  | .message bs :: ops => (bytesToField ofU64 bs).map some ++ absorbed ofU64 ops
  | .read :: ops => none :: none :: absorbed ofU64 ops
  | .challenge l :: ops => (bytesToField ofU64 l).map some ++ (none :: none :: absorbed ofU64 ops)

/-- The shape of a history: where something is absorbed and where a challenge is drawn, but not what. It is fixed by the protocol. -/
def shape (h : List (Option F)) : List Bool := h.map Option.isSome

/-- The inputs on which the permutation is evaluated while a flat history runs. -/
def permInputs [Zero F] (perm : List F → List F) : Duplex F → List (Option F) → List (List F)
  | _, [] => []
  | s, some x :: h =>
    (if s.input.length = 3 then [s.input ++ x :: s.state.drop 4] else []) ++ permInputs perm (duplexObserve perm s x) h
  | s, none :: h =>
    (if needsDuplexing s then [s.input ++ s.state.drop s.input.length] else []) ++ permInputs perm (duplexSample perm s).2 h

/-- The input of the permutation if it were applied now: the buffered input over the state. -/
def nextInput (s : Duplex F) : List F := s.input ++ s.state.drop s.input.length

/-- A collision of the permutation on the capacity, between two lists of inputs. -/
def CapCollision (perm : List F → List F) (a b : List (List F)) : Prop :=
  ∃ u ∈ a, ∃ v ∈ b, u ≠ v ∧ (perm u).drop 4 = (perm v).drop 4

end Spec
