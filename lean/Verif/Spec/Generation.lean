import Mathlib.Data.List.Basic

/-!
Greedy generation of a text by a model that predicts the next token of a sequence, written without reference to the code.
-/

namespace Spec

variable {Tok : Type}

/-- `gen` is what a predictor adds to `prompt`: each token is the prediction for the prompt followed by the tokens before it. -/
def Greedy (predict : List Tok → Option Tok) (prompt gen : List Tok) : Prop :=
  ∀ i < gen.length, predict (prompt ++ gen.take i) = gen[i]?

/-- The token a model announces: it answers with a tensor of rank at least two whose last dimension is one, one token for each position, and the last one is the
prediction. -/
def announced (shape : List ℕ) (data : List Tok) : Option Tok :=
  if 2 ≤ shape.length ∧ shape.getLast? = some 1 then data.getLast? else none

end Spec
