import Verif.Model.Tensor
import Verif.Model.Qkv
import Verif.Model.Mha

/-!
Model of the dense and matrix multiplication layers, zkml/src/layers/dense.rs and zkml/src/layers/matrix_mul.rs, and of their padding, zkml/src/padding.rs.
-/

namespace Model

variable {α : Type}

/-- `Tensor::nrows_2d`, tensor.rs:697-707; the assertion rejects zero. -/
def Tensor.nrows2d (t : Tensor α) : Option ℕ :=
  match t.shape with
  | [r, _] => if r = 0 then none else some r
  | [a, _, c, _] => if a * c * c = 0 then none else some (a * c * c)
  | _ => none

/-- `Tensor::ncols_2d`, tensor.rs:710-723. -/
def Tensor.ncols2d (t : Tensor α) : Option ℕ :=
  match t.shape with
  | [_, c] => if c = 0 then none else some c
  | [_, b, c, _] => if b * c * c = 0 then none else some (b * c * c)
  | _ => none

/-- `Tensor::reshape_to_fit_inplace_2d`, tensor.rs:1302-1334, with the assertions of `nrows_2d` and `ncols_2d`, for tensors with two dimensions. -/
def Tensor.fitMatrix [Zero α] (t : Tensor α) (shape : List ℕ) : Option (Tensor α) := do
  let _ ← t.nrows2d
  let _ ← t.ncols2d
  t.reshapeToFit2d shape

/-- `GarbagePad`, padding.rs:25-29: the shapes before and after padding of the tensor that was flattened. -/
inductive Garbage where
  | conv (og padded : List ℕ)
  | mha (og padded : List ℕ)
  deriving DecidableEq

/-- `GarbagePad::pad_matrix_to_ignore_garbage`, padding.rs:31-58. -/
def Garbage.padWeight [Zero α] (g : Garbage) (m : Tensor α) (target : List ℕ) : Option (Tensor α) :=
  match g with
  | .conv og padded => m.padIgnoreGarbage og padded target
  | .mha og padded => padMhaMatrix m og padded target

/-- The choice between the two ways of padding a matrix, padding.rs:290-296 and 346-353. -/
def padWeight [Zero α] (g : Option Garbage) (m : Tensor α) (target : List ℕ) : Option (Tensor α) :=
  match g with
  | some g => g.padWeight m target
  | none => m.fitMatrix target

/-- `ShapeData`, padding.rs:96-101. -/
structure PadShape where
  og : List ℕ
  padded : List ℕ
  garbage : Option Garbage
  deriving DecidableEq

/-! ### Dense -/

/-- `Dense`, dense.rs:34-39. -/
structure DenseLayer (α : Type) where
  matrix : Tensor α
  bias : Tensor α
  unpadded : List ℕ
  deriving DecidableEq

/-- `Dense::new`, dense.rs:80-89. -/
def DenseLayer.new (matrix bias : Tensor α) : Option (DenseLayer α) := do
  let r ← matrix.nrows2d
  let b ← bias.shape[0]?
  if r = b then some ⟨matrix, bias, matrix.shape⟩ else none

/-- `Dense::output_shape`, dense.rs:70-77, 106-112; `padding` is the mode. -/
def DenseLayer.outputShape (d : DenseLayer α) (input : List ℕ) (padding : Bool) : Option (List ℕ) := do
  let shape := if padding then d.unpadded.map nextPow2 else d.unpadded
  let r ← shape[0]?
  let c ← shape[1]?
  if input.prod = c then some [r] else none

/-- `Dense::evaluate`, dense.rs:157-186, on one input; `flatten` keeps the data. -/
def DenseLayer.evaluate [Semiring α] (d : DenseLayer α) (x : Tensor α) : Option (Tensor α) :=
  if x.shape.length ≠ 1 then do
    let c ← d.matrix.ncols2d
    if x.data.length = c then do
      let y ← d.matrix.matvec ⟨[x.data.length], x.data⟩
      y.add d.bias
    else none
  else do
    let y ← d.matrix.matvec x
    y.add d.bias

/-- The number of entries of the padded input, padding.rs:271-274: the first dimension, or the product unless there is one dimension. -/
def padDenseInput (padded : List ℕ) : Option ℕ :=
  if padded.length ≠ 1 then some padded.prod else padded[0]?

/-- `pad_dense`, padding.rs:251-303. -/
def padDense [Zero α] (d : DenseLayer α) (shapes : List PadShape) : Option (DenseLayer α × List PadShape) :=
  match shapes, d.matrix.shape with
  | [sd], [rows, _] =>
    if d.bias.data.length = rows ∧ (∀ n ∈ sd.padded, nextPow2 n = n) then do
      let n ← padDenseInput sd.padded
      let cols ← d.matrix.ncols2d
      let rows ← d.matrix.nrows2d
      if cols ≤ n then do
        let m ← padWeight sd.garbage d.matrix [padMinimum rows, padMinimum n]
        let b ← d.bias.pad1d (padMinimum rows)
        some (⟨m, b, d.unpadded⟩, [⟨[rows], [padMinimum rows], none⟩])
      else none
    else none
  | _, _ => none

/-! ### Matrix multiplication -/

/-- `OperandMatrix`, matrix_mul.rs:35-55; a weight carries its shape before padding. -/
inductive Operand (α : Type) where
  | weight (t : Tensor α) (unpadded : List ℕ)
  | input

/-- `MatMul`, matrix_mul.rs:128-133; `transposed` says that the configuration is `TransposeB`. -/
structure MatMulLayer (α : Type) where
  left : Operand α
  right : Operand α
  bias : Option (Tensor α)
  transposed : Bool

/-- The check of the bias in `MatMul::new_internal`, matrix_mul.rs:193-206. -/
def matmulBiasOk (right : Operand α) (bias : Option (Tensor α)) : Bool :=
  match bias with
  | none => true
  | some b =>
    match right with
    | .weight t _ => b.shape.length = 1 ∧ t.shape[1]? = b.shape[0]?
    | .input => b.shape.length = 1

/-- `MatMul::new_internal`, matrix_mul.rs:180-228, with weights built by `new_weight_matrix`, 57-64; `ncols` and `nrows` panic on empty matrices. -/
def MatMulLayer.new (left right : Option (Tensor α)) (bias : Option (Tensor α)) (transposed : Bool) : Option (MatMulLayer α) :=
  match left, right with
  | some _, some _ => none
  | some l, none => if l.shape.length = 2 ∧ l.ncols2d.isSome ∧ matmulBiasOk .input bias then some ⟨.weight l l.shape, .input, bias, transposed⟩ else none
  | none, some r => if r.shape.length = 2 ∧ r.nrows2d.isSome ∧ matmulBiasOk (.weight r r.shape) bias then some ⟨.input, .weight r r.shape, bias, transposed⟩ else none
  | none, none => if matmulBiasOk (.input : Operand α) bias then some ⟨.input, .input, bias, transposed⟩ else none

/-- The factors of `MatMul::op`, matrix_mul.rs:230-311. -/
def MatMulLayer.factors (l : MatMulLayer α) (inputs : List (Tensor α)) : Option (Tensor α × Tensor α) :=
  match l.left, l.right, inputs with
  | .weight m _, .input, x :: _ => some (m, x)
  | .input, .weight m _, x :: _ => some (x, m)
  | .input, .input, [x, y] => some (x, y)
  | _, _, _ => none

/-- The right factor as multiplied, matrix_mul.rs:231-235, 252-256, 273-277. -/
def transposeIf (b : Bool) (t : Tensor α) : Option (Tensor α) :=
  if b then t.transpose else some t

/-- The addition of the bias, matrix_mul.rs:300-311. -/
def matmulBias [Add α] (z : Tensor α) : Option (Tensor α) → Option (Tensor α)
  | none => some z
  | some b => if z.shape[1]? = b.shape[0]? then z.addDim2 b else none

/-- `MatMul::op`, matrix_mul.rs:230-311. -/
def MatMulLayer.op [Semiring α] (l : MatMulLayer α) (inputs : List (Tensor α)) : Option (Tensor α) := do
  let (x, y) ← l.factors inputs
  let y ← transposeIf l.transposed y
  let r ← y.nrows2d
  let c ← x.ncols2d
  if c = r then do
    let z ← x.matmul y
    matmulBias z l.bias
  else none

/-- `compute_output_shapes`, matrix_mul.rs:394-442, on the two shapes. -/
def matmulShape (left right : List ℕ) (transposed : Bool) : Option (List ℕ) := do
  let right := if transposed then right.reverse else right
  let m ← left[0]?
  let n ← left[1]?
  let n' ← right[0]?
  let p ← right[1]?
  if n = n' then some [m, p] else none

/-- The shapes of the two factors before padding, matrix_mul.rs:400-431 with `PaddingMode::NoPadding`, 71-73. -/
def MatMulLayer.unpaddedShapes (l : MatMulLayer α) (shapes : List PadShape) : Option (List ℕ × List ℕ) :=
  match l.left, l.right, shapes with
  | .weight _ u, .input, [s] => some (u, s.og)
  | .input, .weight _ u, [s] => some (s.og, u)
  | .input, .input, [s, s'] => some (s.og, s'.og)
  | _, _, _ => none

/-- The padding of the constant factor in `pad_matmul`, padding.rs:331-366: the two operands, the shapes of the padded factors and the garbage left. -/
def padOperands [Zero α] (l : MatMulLayer α) (shapes : List PadShape) : Option (Operand α × Operand α × List ℕ × List ℕ × Bool) :=
  match l.left, l.right, shapes with
  | .weight m u, .input, [s] => do
    let r ← m.nrows2d
    let c ← s.padded[0]?
    let m ← m.fitMatrix [padMinimum r, c]
    some (.weight m u, .input, m.shape, s.padded, s.garbage.isSome)
  | .input, .weight m u, [s] => do
    let r ← s.padded[1]?
    let c ← m.ncols2d
    let m ← padWeight s.garbage m [r, padMinimum c]
    some (.input, .weight m u, s.padded, m.shape, false)
  | .input, .input, [s, s'] => some (.input, .input, s.padded, s'.padded, s.garbage.isSome || s'.garbage.isSome)
  | _, _, _ => none

/-- The padding of the bias, padding.rs:381-384; the shape is that of the right factor as multiplied. -/
def padMatmulBias [Zero α] (right : List ℕ) : Option (Tensor α) → Option (Option (Tensor α))
  | none => some none
  | some b => (b.padToShape right.tail).map some

/-- `pad_matmul`, padding.rs:305-386. -/
def padMatmul [Zero α] (l : MatMulLayer α) (shapes : List PadShape) : Option (MatMulLayer α × List PadShape) :=
  if ∀ s ∈ shapes, s.og.length = 2 ∧ s.padded.length = 2 then do
    let (u, v) ← l.unpaddedShapes shapes
    let og ← matmulShape u v l.transposed
    let (left, right, ls, rs, garbage) ← padOperands l shapes
    let padded ← matmulShape ls rs l.transposed
    if garbage then none
    else do
      let bias ← padMatmulBias (if l.transposed then rs.reverse else rs) l.bias
      some (⟨left, right, bias, l.transposed⟩, [⟨og, padded, none⟩])
  else none

end Model
