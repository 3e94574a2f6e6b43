import Verif.Model.QuantLayers

/-!
How matrix multiplications and convolutions are quantised and which scaling factor they announce for their output: `QuantizeOp` for `MatMul` and `Convolution` in `zkml/src/layers/matrix_mul.rs` and
`convolution.rs`.

Exact rationals instead of `f32`, as in Model/QuantLayers.
-/

namespace Model

/-- The factors of the two matrices, `MatMul::quantize_from_scalings`, matrix_mul.rs:546-580: a constant matrix gets the factor of its largest entry, an input that of the input. -/
def MatMulLayer.scales (bl : ℕ) (inputs : List ScalingFactor) (l : MatMulLayer ℚ) : Option (ScalingFactor × ScalingFactor) :=
  match l.left, l.right, inputs with
  | .weight t _, .input, [s] => some (ScalingFactor.fromAbsoluteMax bl (maxAbsOutput t.data) none, s)
  | .input, .weight t _, [s] => some (s, ScalingFactor.fromAbsoluteMax bl (maxAbsOutput t.data) none)
  | .input, .input, [s, s'] => some (s, s')
  | _, _, _ => none

/-- Quantisation of an operand, matrix_mul.rs:515-528. -/
def Operand.quantizeBy (s : ScalingFactor) : Operand ℚ → Operand ℤ
  | .weight t u => .weight (t.quantizeBy s) u
  | .input => .input

/-- `MatMul::quantize_from_scalings` and `MatMul::quantize`, matrix_mul.rs:509-592: the quantised layer. The factor of the bias is the product of the factors of the first input and of the output, 583-586. -/
def MatMulLayer.quantize (bl : ℕ) (inputs : List ScalingFactor) (output : ScalingFactor) (l : MatMulLayer ℚ) : Option (MatMulLayer ℤ) := do
  let (left, right) ← l.scales bl inputs
  let first ← inputs[0]?
  some ⟨l.left.quantizeBy left, l.right.quantizeBy right, l.bias.map (Tensor.quantizeBy (biasScalingMatmul bl first output)), l.transposed⟩

/-- The requantisation that follows, matrix_mul.rs:581, 587-590; `ibs` is `output_bitsize`. The announced factor is `output`. -/
noncomputable def MatMulLayer.requant (bl : ℕ) (inputs : List ScalingFactor) (output : ScalingFactor) (l : MatMulLayer ℚ) (ibs : ℕ) : Option Requant := do
  let (left, right) ← l.scales bl inputs
  Requant.fromMultiplier bl ((left.m right output : ℚ) : ℝ) ibs

/-- The factors of the filter and the bias of a convolution, `Convolution::quantize_from_scalings`, convolution.rs:551-566, with `max_abs_weight`, 270-281, which is the largest entry of both. -/
def convLayerScales (bl : ℕ) (input : ScalingFactor) (filter bias : Tensor ℚ) : ScalingFactor × ScalingFactor := convScales bl input (max (maxAbsOutput filter.data) (maxAbsOutput bias.data))

/-- `Convolution::quantize`, convolution.rs:260-264: the quantised filter and bias, without their transforms. -/
def convQuantize (bl : ℕ) (input : ScalingFactor) (filter bias : Tensor ℚ) : Tensor ℤ × Tensor ℤ :=
  (filter.quantizeBy (convLayerScales bl input filter bias).1, bias.quantizeBy (convLayerScales bl input filter bias).2)

/-- The requantisation that follows, convolution.rs:568-574 and requant.rs:439-447; `ibs` is `output_bitsize`. The announced factor is `output`. -/
noncomputable def convRequant (bl : ℕ) (input output : ScalingFactor) (filter bias : Tensor ℚ) (ibs : ℕ) : Option Requant :=
  Requant.fromMultiplier bl ((input.m (convLayerScales bl input filter bias).1 output : ℚ) : ℝ) ibs

end Model
