import Verif.Model.Quant
import Verif.Model.Tables
import Verif.Model.Tensor
import Verif.Model.LayerPad
import Verif.Model.TokenLayers

/-!
How single layers are quantised and which scaling factor they announce for their output: `QuantizeOp` in `zkml/src/layers`.

Exact rationals instead of `f32`; the multiplier of a requantisation is computed over the reals as in `Requant.fromMultiplier`. `bl` is `quantization::BIT_LEN`.
-/

namespace Model

/-- `Tensor::quantize`, tensor.rs:642-649. -/
def Tensor.quantizeBy (s : ScalingFactor) (t : Tensor ℚ) : Tensor ℤ := ⟨t.shape, t.data.map s.quantize⟩

/-- `Tensor::dequantize`, tensor.rs:400-407. -/
def Tensor.dequantizeBy (s : ScalingFactor) (t : Tensor ℤ) : Tensor ℚ := ⟨t.shape, t.data.map s.dequantize⟩

/-- `max_abs_output`, tensor.rs:872-876. -/
def maxAbsOutput (t : List ℚ) : ℚ := t.foldl (fun a b => Max.max a |b|) 0

/-- The factors of weights and bias of a dense layer: `model_scaling_factor_from_tensor_and_bias`, quantization/mod.rs:185-195. -/
def DenseLayer.scales (bl : ℕ) (input : ScalingFactor) (d : DenseLayer ℚ) : ScalingFactor × ScalingFactor :=
  denseScales bl input (maxAbsOutput d.matrix.data) (maxAbsOutput d.bias.data)

/-- `Dense::quantize`, dense.rs:368-376, called from dense.rs:248-255. -/
def DenseLayer.quantize (bl : ℕ) (input : ScalingFactor) (d : DenseLayer ℚ) : DenseLayer ℤ :=
  ⟨d.matrix.quantizeBy (d.scales bl input).1, d.bias.quantizeBy (d.scales bl input).2, d.unpadded⟩

/-- The requantisation that follows a dense layer, dense.rs:256-262; `ibs` is `output_bitsize`. The announced factor is `output`, dense.rs:264. -/
noncomputable def DenseLayer.requant (bl : ℕ) (input output : ScalingFactor) (d : DenseLayer ℚ) (ibs : ℕ) : Option Requant :=
  Requant.fromMultiplier bl ((input.m (d.scales bl input).1 output : ℚ) : ℝ) ibs

/-- `Relu::op`, activation.rs:541-550, on quantised values; the announced factor is that of the input, layers/mod.rs:727-733. -/
def reluOp (t : Tensor ℤ) : Tensor ℤ := ⟨t.shape, t.data.map reluApply⟩

/-- `GELU::quantize`, activation.rs:629-658: the multiplier and the bounds of the table; `GELU_SCALE_FACTOR` is `2 ^ 12`. The cast of a negative number and the logarithm of
zero do not occur for positive scales; the assertion on the size of the table is kept. -/
def geluQuantData (input : ScalingFactor) : Option (ℤ × ℤ × ℤ) := do
  let multiplier := roundAway (2 ^ 12 * input.scale)
  let c ← ceilLog2 multiplier.toNat
  if 2 * 2 ^ (7 + c) ≤ 2 ^ 20 then some (multiplier, -2 ^ (7 + c), 2 ^ (7 + c)) else none

/-- `GELUQuantData::table_output`, activation.rs:583-587; `gelu` is the float function. -/
def geluTableOutput (bl : ℕ) (gelu : ℚ → ℚ) (x : ℤ) : ℤ := roundAway (gelu (x / 2 ^ 12) * qMax bl)

/-- `GELU::apply`, activation.rs:662-670; the announced factor is that of the input, layers/mod.rs:727-733. -/
def geluApply (bl : ℕ) (gelu : ℚ → ℚ) (q : ℤ × ℤ × ℤ) (x : ℤ) : Option ℤ :=
  if q.2.1 ≤ x * q.1 ∧ x * q.1 ≤ q.2.2 then some (geluTableOutput bl gelu (x * q.1)) else none

/-- The factor with which `Embeddings::quantize_op`, embeddings.rs:334-347, quantises its table: that of `MatMul::quantize_from_scalings` for a constant right matrix,
matrix_mul.rs:560-570. The requantisation of the product is dropped, and the announced factor is the one observed for the outputs, matrix_mul.rs:605-611. -/
def embeddingsScale (bl : ℕ) (table : List ℚ) : ScalingFactor := ScalingFactor.fromAbsoluteMax bl (maxAbsOutput table) none

end Model
