import Verif.Model.ConcatMatMul
import Verif.Model.Attention
import Verif.Model.Elementwise
import Verif.Model.SoftmaxProof

/-!
Model of multi-head attention, zkml/src/layers/transformer/mha.rs, and of the padding of the matrix after it.

Simplifications: the shapes announced beforehand, which the code passes along (`unpadded_input_shapes`, mha.rs:236-285), do not influence the values computed.
-/

namespace Model

/-- `Mha`, mha.rs:137-146; the two products have the axes set by `Mha::new` (150-179), which nothing changes. -/
structure Mha where
  inputsReshape : Reshape
  heads : ℕ
  headDim : ℕ
  softmax : QuantSoftmax
  finalReshape : Reshape

/-- `Mha::new`, mha.rs:149-190; the softmax is that after quantisation (365-425). -/
def Mha.new (heads headDim : ℕ) (softmax : QuantSoftmax) : Mha :=
  ⟨.subspace 1 2 [heads, headDim] [heads, headDim], heads, headDim, softmax, .subspace 1 3 [heads * headDim] [heads * headDim]⟩

/-- The axes of the first product, mha.rs:151-154. -/
def qkDims : InputDims := ⟨1, 2, 0⟩

/-- The axes of the second product and of its output, mha.rs:164-168. -/
def finalLeft : InputDims := ⟨0, 2, 1⟩
def finalRight : InputDims := ⟨1, 0, 2⟩
def finalPerm : List ℕ := [1, 0, 2]

/-- `evaluate_with_intermediate_outputs`, mha.rs:223-297, on integers: the output, and the scores and the run of the softmax. -/
def Mha.evaluate (m : Mha) (inputs : List (Tensor ℤ)) : Option (Tensor ℤ × Tensor ℤ × SoftmaxRun) :=
  if inputs.length = 3 then do
    let r ← m.inputsReshape.evaluate inputs
    let q ← r[0]?
    let k ← r[1]?
    let v ← r[2]?
    let qk ← concatMatMulEvaluate qkDims qkDims none q k
    let soft ← m.softmax.evaluate qk
    let out ← concatMatMulEvaluate finalLeft finalRight (some finalPerm) soft.output v
    let out ← m.finalReshape.evaluate [out]
    let out ← out[0]?
    some (out, qk, soft)
  else none

/-- `Mha::pad_node`, mha.rs:570-627. The padding of the products and of the softmax (softmax.rs) leaves them as they are. -/
def Mha.pad (m : Mha) : Option Mha :=
  match m.finalReshape with
  | .subspace a b _ un =>
    some ⟨m.inputsReshape.toPadded, nextPow2 m.heads, nextPow2 m.headDim, m.softmax, (Reshape.subspace a b [nextPow2 m.headDim * nextPow2 m.heads] un).toPadded⟩
  | _ => none

/-- `pad_matrix_to_ignore_mha_garbage`, mha.rs:502-568: `unpadded` and `padded` are the shapes of the output of the second product before and after padding. -/
def padMhaMatrix {α : Type} [Zero α] (matrix : Tensor α) (unpadded padded target : List ℕ) : Option (Tensor α) :=
  match unpadded, padded, target, matrix.shape with
  | [_, heads, dim], [_, heads', dim'], [r, c], [_, cols] => do
    let nrows := max r (heads' * dim')
    let data ← (List.range (nrows * c)).mapM fun i =>
      let row := i / c
      let col := i % c
      if row % dim' < dim ∧ row / dim' < heads ∧ col < cols then matrix.data[(row / dim' * dim + row % dim') * cols + col]? else some 0
    some ⟨[nrows, c], data⟩
  | _, _, _, _ => none

variable {F : Type} [Field F] [DecidableEq F] {C : Type}

/-- `MhaProof`, mha.rs:124-128. -/
structure MhaProof (F C : Type) where
  finalMul : ConcatMatMulProof F
  softmax : SoftmaxProof F C
  qk : ConcatMatMulProof F

/-- `MhaCtx::verify`, mha.rs:767-847, from the padded shapes of the reshaped inputs on: `q`, `k`, `v` are the shapes of the inputs, `scores` and `out` those of the two products, `nvQk` and `nvFinal` the numbers of variables in
their contexts. -/
def verifyMha (T : Transcript F) (p : ℕ) (ctx : SoftmaxCtx) (q k v scores out : List ℕ) (nvQk nvFinal : ℕ) (chals : List (F × F)) (last : Claim F) (proof : MhaProof F C) (ts : T.State) :
    Option ((Claim F × Claim F × Claim F) × List (C × Claim F) × T.State) := do
  let (softOut, vClaim, ts) ← verifyConcatMatMul T finalLeft finalRight (some finalPerm) scores v out nvFinal last proof.finalMul ts
  let (scoreClaim, wit, ts) ← verifySoftmax T p ctx scores chals softOut proof.softmax ts
  let (qClaim, kClaim, ts) ← verifyConcatMatMul T qkDims qkDims none q k scores nvQk scoreClaim proof.qk ts
  some ((qClaim, kClaim, vClaim), wit, ts)

/-- `Mha::prove`, mha.rs:633-720, from the reshaped inputs `q`, `k`, `v` on: `weights` is the output of the softmax, `out` the shape of that of the second product; the columns, commitments and challenges are those of
`proveSoftmaxStep`. -/
def proveMha (threads : ℕ) (T : Transcript F) (q k v weights : Tensor F) (out : List ℕ) (n : ℕ) (ein eout lo hi : List F) (zs : List (List F × List F)) (shift shifted tril bias : List F) (shiftVars : ℕ)
    (commitments : List C) (chals : List (F × F)) (last : Claim F) (ts : T.State) : Option (MhaProof F C × (Claim F × Claim F × Claim F) × T.State) := do
  let (final, soft, vClaim, ts) ← proveConcatMatMul threads T finalLeft finalRight (some finalPerm) weights v out last ts
  let rowLen ← weights.shape.getLast?
  let (softmax, score, ts) ← proveSoftmaxStep threads T n ein eout lo hi zs weights.data rowLen shift shifted tril bias shiftVars commitments chals soft ts
  let (qk, qClaim, kClaim, ts) ← proveConcatMatMul threads T qkDims qkDims none q k weights.shape score ts
  some (⟨final, softmax, qk⟩, (qClaim, kClaim, vClaim), ts)

end Model
