import Verif.Model.Tensor

/-!
The driver of language models, `zkml/src/model/llm.rs`.

Simplifications: a token is an integer (`Token::as_number` is the identity on it), `Model::run` is a parameter `run` that gives a trace or fails, `outputs` reads
`trace.output`, errors and panics are `none`. The calls of the observer are returned as a list. The counter `seq_len` grows by one in every iteration, so the loop is a
recursion on `max_window - seq_len`.
-/

namespace Model

variable {Tr : Type}

/-- The token read from the last output of a trace, llm.rs:126-129 with `slice_last_dim`, tensor.rs:1944-1947 (`shape.len() - 2` panics for a vector). -/
def lastToken (out : Tensor ℤ) : Option ℤ := do
  let d ← checkedSub out.shape.length 2
  let slices ← out.sliceOnDim d
  match slices.1.getLast? with
  | some [t] => some t
  | _ => none

/-- The loop, llm.rs:120-142: `fuel` is `max_window - seq_len`, `step` is `seq_len - user_len`, `trace` the trace of the previous iteration. -/
def generateLoop (run : Tensor ℤ → Option Tr) (outputs : Tr → List (Tensor ℤ)) (eos : ℤ) :
    ℕ → ℕ → Tensor ℤ → Tr → List (ℕ × Tr) → Option (Tr × List (ℕ × Tr))
  | 0, _, _, trace, observed => some (trace, observed)
  | fuel + 1, step, tensor, _, observed => do
    let trace ← run tensor
    let output ← (outputs trace).getLast?
    let token ← lastToken output
    if token = eos then some (trace, observed)
    else do
      let tensor' ← tensor.concat ⟨[1, 1], [token]⟩
      generateLoop run outputs eos fuel (step + 1) tensor' trace (observed ++ [(step + 1, trace)])

/-- `Driver::run_inference`, llm.rs:97-142: `empty` is `InferenceTrace::default()`, `context` the context length of the model, `maxContext` the limit set by
`with_max_context`. -/
def runInference (run : Tensor ℤ → Option Tr) (outputs : Tr → List (Tensor ℤ)) (empty : Tr) (eos : ℤ) (context : ℕ) (maxContext : Option ℕ)
    (input : List ℤ) : Option (Tr × List (ℕ × Tr)) := do
  let limit ← checkedSub context 1
  if input.length < limit then
    generateLoop run outputs eos (maxContext.getD context - input.length) 0 ⟨[input.length], input⟩ empty []
  else none

end Model
