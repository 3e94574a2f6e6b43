import Verif.Model.Tensor
import Verif.Model.Quant

/-!
The quantised layer normalisation: `LayerNorm` of zkml/src/layers/transformer/layernorm.rs, its quantisation, evaluation and padding.

Integers do not overflow; `f32` is replaced by rationals. The inverse square root, `InverseSQRTTableData::table_output` (zkml/src/lookup/context.rs:145-154), is a parameter.
-/

namespace Model

/-- `LayerNorm<Element>` with its `QuantisedLayerNormData`, layernorm.rs:88-101; `gamma` and `beta` are tensors of one dimension. -/
structure QuantLayerNorm where
  gamma : List ℤ
  beta : List ℤ
  multiplier : ℤ
  table : ℤ → ℤ
  dimSize : ℕ
  rangeBits : ℕ
  topLog : ℕ

/-- The sizes computed in `LayerNorm::quantise`, layernorm.rs:160-180: the number of range checked bits and the logarithm of the multiplier of the last chunk, from the dimension and the multiplier. -/
def layerNormSizes (bl dim : ℕ) (multiplier : ℤ) : Option (ℕ × ℕ) := do
  let l ← ceilLog2 dim
  let m ← ceilLog2 multiplier.toNat
  let rangeBits ← checkedSub (2 * (l + bl - 1) + m + 1) (2 * (bl - 1))
  some (rangeBits, if rangeBits % bl ≠ 0 then bl - rangeBits % bl else 0)

/-- `max_lut_value_bits`, layernorm.rs:182-195. -/
def layerNormLutBits (bl : ℕ) (table : ℤ → ℤ) : Option ℕ := do
  let m ← ((List.range (2 ^ (2 * (bl - 1)) + 2 ^ (2 * (bl - 1)))).map fun k : ℕ => (table ((k : ℤ) - 2 ^ (2 * (bl - 1)))).natAbs).max?
  ceilLog2 m

/-- `LayerNorm::quantise`, layernorm.rs:136-247. `tableOf` gives the table for the number of range checked bits. Returns the layer, the intermediate bit size and the scaling of the bias. -/
def quantiseLayerNorm (bl : ℕ) (tableOf : ℕ → ℤ → ℤ) (gamma beta : List ℚ) (input model : ScalingFactor) : Option (QuantLayerNorm × ℕ × ScalingFactor) := do
  let multiplier := roundAway (2 ^ 24 * input.scale * input.scale)
  let (rangeBits, topLog) ← layerNormSizes bl gamma.length multiplier
  let lutBits ← layerNormLutBits bl (tableOf rangeBits)
  let biasScale := input.scale * model.scale / 2 ^ 10
  let biasMax := beta.foldl (fun a b => Max.max a |b|) 0
  let bias : ScalingFactor := ⟨-biasMax, biasMax, biasScale, (roundAway (-biasMax / biasScale), roundAway (biasMax / biasScale))⟩
  let l ← ceilLog2 gamma.length
  let b ← ceilLog2 (roundAway (biasMax / biasScale)).toNat
  some (⟨gamma.map model.quantize, beta.map bias.quantize, multiplier, tableOf rangeBits, gamma.length, rangeBits, topLog⟩, max (2 * (bl - 1) + l + 1 + lutBits) b + 1, bias)

/-- The value whose inverse square root is taken, layernorm.rs:431-434. -/
def QuantLayerNorm.fullValue (q : QuantLayerNorm) (row : List ℤ) : ℤ :=
  (q.dimSize : ℤ) * q.multiplier * (row.map fun x => x * x).sum - q.multiplier * row.sum * row.sum

/-- The output for one row, layernorm.rs:446-453: `izip!` stops at the shortest list. -/
def QuantLayerNorm.outRow (q : QuantLayerNorm) (row : List ℤ) (denominator : ℤ) : List ℤ :=
  ((row.zip (q.gamma.zip q.beta)).map fun v => v.2.1 * ((q.dimSize : ℤ) * v.1 - row.sum) * denominator + v.2.2)

/-- `LayerNormData`, layernorm.rs:105-112, and the output. -/
structure LayerNormRun where
  lookupInput : List ℤ
  lookupOutput : List ℤ
  rangeCheck : List ℤ
  output : Tensor ℤ

/-- `LayerNorm::<Element>::evaluate`, layernorm.rs:391-464. `chunks(0)` panics. The mask and the shift of a two's complement number are remainder and quotient by `2^range_check_bits`. -/
def QuantLayerNorm.evaluate (q : QuantLayerNorm) (input : Tensor ℤ) : Option LayerNormRun := do
  let final ← input.shape.getLast?
  if final = 0 then none
  else do
    let rows := chunks final input.data
    let lookupInput := rows.map fun row => q.fullValue row / 2 ^ q.rangeBits
    let lookupOutput := lookupInput.map q.table
    let out ← Tensor.new input.shape ((rows.zip lookupOutput).flatMap fun rd => q.outRow rd.1 rd.2)
    some ⟨lookupInput, lookupOutput, rows.map fun row => q.fullValue row % 2 ^ q.rangeBits, out⟩

/-- `LayerNorm::pad_node`, layernorm.rs:698-718. -/
def QuantLayerNorm.pad (q : QuantLayerNorm) : Option QuantLayerNorm := do
  let g ← (⟨[q.gamma.length], q.gamma⟩ : Tensor ℤ).padNextPow2 0
  let b ← (⟨[q.beta.length], q.beta⟩ : Tensor ℤ).padNextPow2 0
  some { q with gamma := g.data, beta := b.data }

/-- The chunks of the range check of one value, layernorm.rs:1119-1151. -/
def QuantLayerNorm.rangeChunks (bl : ℕ) (q : QuantLayerNorm) (v : ℤ) : List ℤ :=
  let number := (q.rangeBits - 1) / bl + 1
  (List.range number).map fun j => if j ≠ number - 1 then v / 2 ^ (j * bl) % 2 ^ bl else v / 2 ^ (j * bl) % 2 ^ bl * 2 ^ q.topLog

/-- The columns of the range check, layernorm.rs:1137-1160: column `j` holds chunk `j` of every value. -/
def QuantLayerNorm.rangeColumns (bl : ℕ) (q : QuantLayerNorm) (rangeCheck : List ℤ) : List (List ℤ) :=
  (List.range ((q.rangeBits - 1) / bl + 1)).map fun j => rangeCheck.map fun v => (q.rangeChunks bl v).getD j 0

end Model
