import Verif.Model.Mle
import Mathlib.Algebra.Order.Floor.Ring
import Mathlib.Algebra.Order.Field.Basic
import Mathlib.Data.ZMod.Basic
import Mathlib.Analysis.SpecialFunctions.Log.Base

/-!
Model of `zkml/src/quantization/mod.rs`, of `zkml/src/layers/requant.rs` (everything but the interactive part) and of
the declared output sizes of the linear layers.

`bl` is `quantization::BIT_LEN`. `Element` (`i64`) is `Int`; where the machine range matters (`Requant::apply`) the
arithmetic is checked (`i64`), a panic being `none`. `f32` is replaced by exact arithmetic: rationals, and reals where
a logarithm is taken.
-/

namespace Model

/-! ### quantization -/

/-- `quantization::MIN`, quantization/mod.rs:28. -/
def qMin (bl : ℕ) : ℤ := -(2 ^ (bl - 1)) + 1

/-- `quantization::MAX`, quantization/mod.rs:29. -/
def qMax (bl : ℕ) : ℤ := 2 ^ (bl - 1) - 1

/-- `f32::round`: half away from zero. -/
def roundAway {K : Type} [Field K] [LinearOrder K] [FloorRing K] (q : K) : ℤ :=
  if 0 ≤ q then ⌊q + 1 / 2⌋ else -⌊-q + 1 / 2⌋

/-- `ScalingFactor`, quantization/mod.rs:40-46. -/
structure ScalingFactor where
  min : ℚ
  max : ℚ
  scale : ℚ
  domain : ℤ × ℤ

/-- `from_span`, quantization/mod.rs:63-72. -/
def ScalingFactor.fromSpan (bl : ℕ) (mn mx : ℚ) (domain : Option (ℤ × ℤ)) : ScalingFactor :=
  let d := domain.getD (qMin bl, qMax bl)
  ⟨mn, mx, (mx - mn) / ((d.2 - d.1 : ℤ) : ℚ), d⟩

/-- `from_absolute_max`, quantization/mod.rs:49-51. -/
def ScalingFactor.fromAbsoluteMax (bl : ℕ) (a : ℚ) (domain : Option (ℤ × ℤ)) : ScalingFactor :=
  ScalingFactor.fromSpan bl (-|a|) |a| domain

/-- `from_tensor` on a float tensor, quantization/mod.rs:52-61. -/
def ScalingFactor.fromTensor (bl : ℕ) (t : List ℚ) (domain : Option (ℤ × ℤ)) : ScalingFactor :=
  ScalingFactor.fromAbsoluteMax bl (t.foldl (fun a b => Max.max a |b|) 0) domain

/-- `from_scale`, quantization/mod.rs:75-85. -/
def ScalingFactor.fromScale (bl : ℕ) (s : ℚ) (domain : Option (ℤ × ℤ)) : ScalingFactor :=
  let d := domain.getD (qMin bl, qMax bl)
  let mx := s / 2 * ((d.2 - d.1 : ℤ) : ℚ)
  ⟨-|mx|, mx, s, d⟩

/-- `quantize`, quantization/mod.rs:130-149. The cast from `f32` to `i64` saturates; with exact arithmetic it does
nothing. -/
def ScalingFactor.quantize (s : ScalingFactor) (v : ℚ) : ℤ :=
  let scaled := roundAway (v / s.scale)
  if scaled < s.domain.1 then s.domain.1 else if scaled > s.domain.2 then s.domain.2 else scaled

/-- `dequantize`, quantization/mod.rs:151-153. -/
def ScalingFactor.dequantize (s : ScalingFactor) (v : ℤ) : ℚ := (v : ℚ) * s.scale

/-- `m`, quantization/mod.rs:117-119. -/
def ScalingFactor.m (s1 s2 s3 : ScalingFactor) : ℚ := s1.scale * s2.scale / s3.scale

/-- `bias_scaling_matmul`, quantization/mod.rs:197-204. -/
def biasScalingMatmul (bl : ℕ) (input model : ScalingFactor) : ScalingFactor :=
  ScalingFactor.fromScale bl (input.scale * model.scale) (some (-(2 ^ (2 * bl - 1)) + 1, 2 ^ (2 * bl - 1) - 1))

/-- `Fieldizer::to_field`, quantization/mod.rs:211-219: `from_canonical_u64` of the number or of `p - |x|`. -/
def toField {F : Type} [NatCast F] (p : ℕ) (x : ℤ) : F :=
  if x < 0 then ((p - x.natAbs : ℕ) : F) else (x.toNat : F)

/-- `IntoElement::to_element`, quantization/mod.rs:226-241, on a base field element. -/
def toElement {p : ℕ} (x : ZMod p) : ℤ :=
  let e := x.val
  if e = 0 then 0 else if e ≤ p / 2 then (e : ℤ) else -((p - e : ℕ) : ℤ)

/-- The Goldilocks prime, `MODULUS_U64`. -/
def goldilocks : ℕ := 2 ^ 64 - 2 ^ 32 + 1

/-! ### requantization -/

/-- Checked `i64` value. -/
def i64 (x : ℤ) : Option ℤ := if -(2 ^ 63) ≤ x ∧ x < 2 ^ 63 then some x else none

/-- `Requant`, requant.rs:58-71, without the informative float. -/
structure Requant where
  rightShift : ℕ
  fpm : ℤ
  fpScale : ℕ
  ibs : ℕ
deriving DecidableEq, Repr

/-- `shift`, requant.rs:448-450. -/
def Requant.shift (r : Requant) : ℕ := r.fpScale + r.rightShift

/-- `usize::next_multiple_of`. -/
def nextMultipleOf (n k : ℕ) : ℕ := if n % k = 0 then n else n + (k - n % k)

/-- `f32::trunc`. -/
noncomputable def truncR (x : ℝ) : ℤ := if 0 ≤ x then ⌊x⌋ else ⌈x⌉

/-- `from_multiplier`, requant.rs:406-432, with exact real arithmetic in place of `f32`; `FIXED_POINT_SCALE` is 25. -/
noncomputable def Requant.fromMultiplier (bl : ℕ) (multiplier : ℝ) (ibs : ℕ) : Option Requant :=
  let logM := Real.logb 2 multiplier
  let intPart := (truncR logM).natAbs
  let floatPart := logM - truncR logM
  let epsilon := (2 : ℝ) ^ floatPart
  let nextMultiple := nextMultipleOf (intPart + 25) bl
  let fpScale := nextMultiple - intPart
  let fpm := roundAway (epsilon * 2 ^ fpScale)
  if ibs + fpScale ≤ 63 then some ⟨intPart, fpm, fpScale, ibs⟩ else none

/-- `apply`, requant.rs:453-467, with overflow checks. -/
def Requant.apply (bl : ℕ) (r : Requant) (elem : ℤ) : Option ℤ :=
  if 1 ≤ r.shift ∧ r.shift ≤ 63 then do
    let rounding : ℤ := 2 ^ (r.shift - 1)
    let prod ← i64 (elem * r.fpm)
    let sum ← i64 (rounding + prod)
    let unclamped := sum >>> r.shift
    let sign : ℤ := if unclamped > 0 ∨ unclamped = 0 then 1 else -1
    some (if |unclamped| ≥ qMax bl then qMax bl * sign else unclamped)
  else none

/-- `op`, requant.rs:470-482. -/
def Requant.op (bl : ℕ) (r : Requant) (input : List ℤ) : Option (List ℤ) :=
  input.mapM fun e => if |e| ≤ 2 ^ r.ibs then r.apply bl e else none

/-- `clamping_size`, requant.rs:485-488. `usize` subtraction underflows: `none`. -/
def Requant.clampingSize (r : Requant) : Option ℕ := do
  let bits ← ceilLog2 r.fpm.toNat
  if r.shift ≤ r.ibs + bits then some (r.ibs + bits - r.shift) else none

/-- `gen_lookup_witness`, requant.rs:216-282, for one input value: clamping input, clamping output, chunks. Shifts
and masks of the two's complement number are division and remainder. -/
def Requant.witness (bl : ℕ) (r : Requant) (val : ℤ) : ℤ × ℤ × List ℤ :=
  let tmp := val * r.fpm + 2 ^ (r.shift - 1)
  let clamp := tmp >>> r.shift
  let masked := tmp % 2 ^ r.shift
  let clampOut := if clamp < qMin bl then qMin bl else if clamp > qMax bl then qMax bl else clamp
  (clamp, clampOut, (List.range (r.shift / bl)).map fun j => (masked >>> (j * bl)) % 2 ^ bl)

/-- `recombine_claims`, requant.rs:499-525. -/
def Requant.recombine {F : Type} [Field F] (p bl : ℕ) (r : Requant) (clamping : F) (shifted : List F) : F :=
  let full := (shifted.foldl (fun (ap : F × F) v => (ap.1 + v * ap.2, ap.2 * ((2 ^ bl : ℕ) : F)))
    (((2 ^ r.shift : ℕ) : F) * clamping, 1)).1
  (full - ((2 ^ (r.shift - 1) : ℕ) : F)) * (toField p r.fpm : F)⁻¹

/-! ### declared output sizes -/

/-- `Dense::output_bitsize`, dense.rs:415-420. -/
def denseOutputBitsize (bl ncols : ℕ) : Option ℕ := do
  let l ← ceilLog2 ncols
  some (2 * (bl - 1) + l + 1)

/-- `Convolution::output_bitsize`, convolution.rs:362-366. -/
def convOutputBitsize (bl kc kh kw : ℕ) : Option ℕ := do
  let l ← ceilLog2 (kh * kw * kc + 1)
  some (2 * (bl - 1) + l)

/-- `ilog2`: panics on zero. -/
def ilog2 (x : ℕ) : Option ℕ := if x = 0 then none else some (Nat.log2 x)

/-- `MatMul::output_bitsize`, matrix_mul.rs:660-680, when one operand is constant. -/
def matMulOutputBitsize (mn mx : ℤ) (ncols : ℕ) : Option ℕ := do
  let a ← ilog2 mn.natAbs
  let b ← ilog2 mx.natAbs
  let c ← ilog2 ncols
  some ((a + 1) + (b + 1) + c + 1)

/-- `Shape::matmul_output_bitsize`, tensor.rs:2191-2209. `log2_ceil` (plonky2_util/mod.rs:22-24) is
`ceil_log2` except that it maps zero to zero. -/
def shapeMatmulOutputBitsize (bl ncols : ℕ) (self other : Option ℕ) : Option ℕ := do
  let a ← match self with | none => some (bl - 1) | some r => some ((ceilLog2 r).getD 0)
  let b ← match other with | none => some (bl - 1) | some r => some ((ceilLog2 r).getD 0)
  let l ← ceilLog2 ncols
  some (a + b + l + 1)

/-! ### scales of the linear layers -/

/-- `model_scaling_factor_from_tensor_and_bias`, quantization/mod.rs:185-195, used by `Dense`: weight and bias scale. -/
def denseScales (bl : ℕ) (input : ScalingFactor) (maxWeight maxBias : ℚ) : ScalingFactor × ScalingFactor :=
  let main := ScalingFactor.fromAbsoluteMax bl (max maxWeight maxBias) none
  (main, biasScalingMatmul bl input main)

/-- `Convolution::quantize_from_scalings`, convolution.rs:546-567: weight and bias scale. -/
def convScales (bl : ℕ) (input : ScalingFactor) (maxWeight : ℚ) : ScalingFactor × ScalingFactor :=
  let model := ScalingFactor.fromAbsoluteMax bl maxWeight none
  (model, ScalingFactor.fromScale bl (input.scale * model.scale)
    (some (-(2 ^ (2 * bl - 1)) + 1, 2 ^ (2 * bl - 1) - 1)))

/-- `MatMul::quantize_from_scalings`, matrix_mul.rs:541-587, with a constant right matrix: left, right and bias
scale. -/
def matMulScales (bl : ℕ) (input output : ScalingFactor) (maxWeight : ℚ) :
    ScalingFactor × ScalingFactor × ScalingFactor :=
  (input, ScalingFactor.fromAbsoluteMax bl maxWeight none, biasScalingMatmul bl input output)

end Model
