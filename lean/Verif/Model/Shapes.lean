import Verif.Model.Tensor
import Verif.Model.Fft
import Verif.Model.LayerPad
import Verif.Model.PadModel
import Verif.Model.ConcatMatMul
import Verif.Model.Qkv
import Verif.Model.Slices
import Verif.Model.TokenLayers
import Verif.Model.Mha
import Verif.Model.LayerNorm

/-! The shapes that layers announce for their outputs before anything is computed, `OpInfo::output_shapes`, in the mode without padding. -/

namespace Model

variable {α : Type}

/-- `Add`, add.rs:42-48: the operand with the shape recorded for it. The multipliers do not matter for shapes. -/
structure AddShapeLayer (α : Type) where
  operand : Option (Tensor α × List ℕ)

/-- `output_shapes` of `Add`, add.rs:214-239, without padding. -/
def AddShapeLayer.outputShapes (l : AddShapeLayer α) (shapes : List (List ℕ)) : Option (List (List ℕ)) :=
  match l.operand, shapes with
  | some (_, og), [s] => if og = s then some [s] else none
  | none, [s, s'] => if s = s' then some [s] else none
  | _, _ => none

/-- `output_shapes` of `AddCtx`, add.rs:258-266, without padding. -/
def addCtxOutputShapes (shapes : List (List ℕ)) : List (List ℕ) := shapes

/-- `num_outputs` of `Add` and `AddCtx`, add.rs:244-246, 268-270. -/
def addNumOutputs (_inputs : ℕ) : ℕ := 1

/-- `Evaluate<f32>::evaluate` of `Add`, add.rs:149-182; `Tensor.add` has the comparison of the sizes. -/
def AddShapeLayer.evaluate [Add α] (l : AddShapeLayer α) (inputs : List (Tensor α)) : Option (List (Tensor α)) :=
  match l.operand, inputs with
  | _, [x, y] => (x.add y).map fun z => [z]
  | some (o, _), [x] => (x.add o).map fun z => [z]
  | _, _ => none

/-- `output_shapes` of `Pooling`, pooling.rs:80-87, 680-682. -/
def poolOutputShapes (shapes : List (List ℕ)) : Option (List (List ℕ)) := shapes.mapM maxpool2dShape

/-- `output_shapes` of `Convolution`, convolution.rs:211-216, without padding; `filter` is the recorded shape of the filter. -/
def convOutputShapes (filter : List ℕ) (shapes : List (List ℕ)) : Option (List (List ℕ)) := shapes.mapM fun s => conv2dShape s filter

/-- `Evaluate<f32>::evaluate` of `Convolution`, convolution.rs:237-254. -/
def convFloatEvaluate [Semiring α] (filter bias : Tensor α) (inputs : List (Tensor α)) : Option (List (Tensor α)) :=
  match inputs with
  | [x] => (conv2d x filter bias 1).map fun y => [y]
  | _ => none

/-- `output_shapes` of `MatMul`, matrix_mul.rs:395-455, without padding. -/
def MatMulLayer.outputShapes (l : MatMulLayer α) (shapes : List (List ℕ)) : Option (List (List ℕ)) :=
  match l.left, l.right, shapes with
  | .weight _ u, .input, [s] => (matmulShape u s l.transposed).map fun z => [z]
  | .input, .weight _ u, [s] => (matmulShape s u l.transposed).map fun z => [z]
  | .input, .input, [s, s'] => (matmulShape s s' l.transposed).map fun z => [z]
  | _, _, _ => none

/-- The shapes that `QKV::new` accepts, qkv.rs:113-150, without the number of heads. -/
def qkvNewOk (wq bq wk bk wv bv : Tensor α) : Bool :=
  wq.shape = wk.shape ∧ wq.shape = wv.shape ∧ bq.shape.length = 1 ∧ bq.shape = bk.shape ∧ bq.shape = bv.shape ∧ wq.shape[1]?.isSome ∧ wq.shape[1]? = bq.shape[0]?

/-- `output_shapes` of `QKV`, qkv.rs:237-243, without padding; `unpadded` is the shape recorded by `new`, qkv.rs:156, 164. -/
def qkvOutputShapes (unpadded : List ℕ) (shapes : List (List ℕ)) : Option (List (List ℕ)) :=
  match shapes with
  | [s] => do
    let r ← s[0]?
    let c ← unpadded[1]?
    some (List.replicate 3 [r, c])
  | _ => none

/-- `Shape::permute`, tensor.rs:2160-2162, applied if there is a permutation. -/
def permuteShape (s : List ℕ) : Option (List ℕ) → Option (List ℕ)
  | none => some s
  | some p => p.mapM fun i => s[i]?

/-- `output_shapes` of `ConcatMatMul`, concat_matmul.rs:207-237, without padding. -/
def concatOutputShapes (l r : InputDims) (perm : Option (List ℕ)) (shapes : List (List ℕ)) : Option (List (List ℕ)) :=
  match shapes with
  | [a, b] =>
    if concatShapesOk l r a b then do
      let a ← permuteShape a (← l.permutation leftDims)
      let b ← permuteShape b (← r.permutation rightDims)
      let n ← a[0]?
      let m ← a[1]?
      let p ← b[2]?
      let s ← permuteShape [n, m, p] perm
      some [s]
    else none
  | _ => none

/-- `Logits::output_shapes`, transformer/logits.rs:127-132: `dim(0)` panics if there are no dimensions. -/
def logitsOutputShapes (shapes : List (List ℕ)) : Option (List (List ℕ)) :=
  shapes.mapM fun s => do
    let r ← s[0]?
    some [r, 1]

/-- `evaluate_with_argmax_data`, transformer/logits.rs:90-125, for one input, with the indices as natural numbers: the rows are those of `slice_last_dim`, tensor.rs:1944-1971, where `chunks(0)`
panics; `lo` is `N::MIN`. -/
def logitsTensor [LinearOrder α] (lo : α) (t : Tensor α) : Option (Tensor ℕ) :=
  if 2 ≤ t.shape.length then do
    let cols ← t.shape.getLast?
    if cols = 0 then none
    else do
      let r ← (chunks cols t.data).mapM (maxInSlice lo)
      some ⟨[r.length, 1], r.map Prod.snd⟩
  else none

/-- `output_shapes` of `Positional`, transformer/positional.rs:187-210, without padding; `pos` is the shape of the matrix, with two dimensions. -/
def positionalOutputShapes (pos : List ℕ) (shapes : List (List ℕ)) : Option (List (List ℕ)) :=
  shapes.mapM fun s =>
    match s, pos with
    | [r, c], [p, c'] => if r ≤ p ∧ c = c' then some s else none
    | _, _ => none

/-- `Positional::evaluate`, transformer/positional.rs:157-184, on floats: each input is added to as many rows of the matrix. -/
def positionalTensors [Add α] (pos : Tensor α) (inputs : List (Tensor α)) : Option (List (Tensor α)) :=
  if inputs.all fun x => x.shape.length = 2 then
    inputs.mapM fun x => do
      let rows ← x.shape[0]?
      let sub ← pos.slice2d 0 rows
      let outs ← (⟨none⟩ : AddShapeLayer α).evaluate [x, sub]
      outs.getLast?
  else none

/-- `output_shapes` of `Mha`, transformer/mha.rs:97-119, without padding; that of the softmax returns the shapes it gets, softmax.rs:395-401. -/
def Mha.outputShapes (m : Mha) (shapes : List (List ℕ)) : Option (List (List ℕ)) := do
  let r ← m.inputsReshape.internalOutput shapes
  let q ← r[0]?
  let k ← r[1]?
  let scores ← concatOutputShapes qkDims qkDims none [q, k]
  let soft ← scores[0]?
  let v ← r[2]?
  let out ← concatOutputShapes finalLeft finalRight (some finalPerm) [soft, v]
  m.finalReshape.internalOutput out

/-- `output_shapes` of `LayerNorm`, transformer/layernorm.rs:328-330, and of `Softmax`, transformer/softmax.rs:395-401. -/
def sameOutputShapes (shapes : List (List ℕ)) : List (List ℕ) := shapes

/-- `output_shapes` of `Flatten`, flatten.rs:22-27. -/
def flattenOutputShapes (shapes : List (List ℕ)) : List (List ℕ) := shapes.map fun s => [s.prod]

/-- `output_shapes` of `Embeddings`, transformer/embeddings.rs:158-178, without padding; `emb` is the number of columns of the table. -/
def embeddingsOutputShapes (emb : ℕ) (shapes : List (List ℕ)) : Option (List (List ℕ)) :=
  match shapes with
  | [[n]] => some [[n, emb]]
  | _ => none

/-- `Embeddings::evaluate`, transformer/embeddings.rs:197-238, with the shapes; `Tensor::new` compares the size. -/
def embeddingsTensor (table : Tensor α) (inputs : List (Tensor ℤ)) : Option (List (Tensor α)) :=
  match inputs, table.shape with
  | [x], [vocab, emb] =>
    match x.shape with
    | [n] => do
      let data ← embeddingsEvaluate vocab emb table.data x.data
      let out ← Tensor.new [n, emb] data
      some [out]
    | _ => none
  | _, _ => none

end Model
