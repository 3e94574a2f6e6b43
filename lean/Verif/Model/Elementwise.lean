import Verif.Model.Layers
import Verif.Model.Quant
import Verif.Model.Tensor

/-!
Addition, `zkml/src/layers/add.rs`, and the layers that only rearrange: `flatten.rs`, `reshape.rs`, and their padding, `zkml/src/padding.rs`.
-/

namespace Model

/-! ### Addition -/

/-- `Add::<Element>::evaluate`, add.rs:184-211, on the flat data: both tensors are multiplied by their multiplier (tensor.rs:965-971) and added (tensor.rs:889-906). Overflow of `i64` and a
different number of elements are `none`. -/
def addEvaluate (leftMul rightMul : ℤ) (left right : List ℤ) : Option (List ℤ) :=
  if left.length = right.length then
    (left.zip right).mapM fun xy => do
      let x ← i64 (xy.1 * leftMul)
      let y ← i64 (xy.2 * rightMul)
      i64 (x + y)
  else none

/-- `AddProof`, add.rs:59-63. -/
structure AddProof (F : Type) where
  leftEval : F
  rightEval : F
deriving DecidableEq

section
variable {F : Type} [Field F] [DecidableEq F]

/-- `into_mle().evaluate(point)`, add.rs:108-112. -/
def evaluateTensor (data point : List F) : Option F := do
  let m ← Mle.ofEvals (Nat.log2 data.length) data
  m.evaluate point

/-- `Add::prove_step`, add.rs:81-148: the claims for the inputs, the claim for the commitment if the right operand is static, and the proof. The multipliers are given in the field.
Division by zero panics. -/
def proveAdd (leftMul rightMul : F) (static : Bool) (left right : List F) (last : Claim F) : Option (List (Claim F) × Option (Claim F) × AddProof F) := do
  let leftEval ← evaluateTensor left last.point
  if static then
    if rightMul = 0 then none
    else
      let rightEval := (last.eval - leftEval * leftMul) / rightMul
      some ([⟨last.point, leftEval⟩], some ⟨last.point, rightEval⟩, ⟨leftEval, rightEval⟩)
  else do
    let rightEval ← evaluateTensor right last.point
    some ([⟨last.point, leftEval⟩, ⟨last.point, rightEval⟩], none, ⟨leftEval, rightEval⟩)

/-- `AddCtx::verify`, add.rs:586-625. The casts of lines 596-597 are the identity for `i64`. -/
def verifyAdd (leftMul rightMul : F) (static : Bool) (proof : AddProof F) (last : Claim F) : Option (List (Claim F) × Option (Claim F)) :=
  if proof.leftEval * leftMul + proof.rightEval * rightMul = last.eval then
    if static then some ([⟨last.point, proof.leftEval⟩], some ⟨last.point, proof.rightEval⟩)
    else some ([⟨last.point, proof.leftEval⟩, ⟨last.point, proof.rightEval⟩], none)
  else none

end

/-! ### Quantisation of an addition -/

/-- `QuantInfo`, add.rs:283-293. -/
structure AddQuant where
  leftMul : ℤ
  rightMul : ℤ
  common : ℝ
  requant : Bool

/-- The common scale of the closure `scale_comparison`, add.rs:313-378, for the logarithms of the more and of the less precise input and of the output; reals in place of `f32`. -/
noncomputable def addCommon (bl : ℕ) (high low out : ℝ) (highScale outScale : ℝ) : ℝ × Bool :=
  if high < out then
    if (bl : ℝ) ≤ out - high then (outScale, false) else ((2 : ℝ) ^ (-((⌈high⌉₊ : ℝ) + bl)), true)
  else if high = out then
    if (bl : ℝ) ≤ out - low then (outScale, false) else ((2 : ℝ) ^ (-((⌈high⌉₊ : ℝ) + bl)), true)
  else
    if 8 ≤ high - low then (highScale, true) else ((2 : ℝ) ^ (-((⌈high⌉₊ : ℝ) + 8)), true)

/-- `QuantInfo::new`, add.rs:298-401, with exact real arithmetic in place of `f32`. -/
noncomputable def addQuant (bl : ℕ) (left right out : ℝ) : AddQuant :=
  let leftLog := |Real.logb 2 left|
  let rightLog := |Real.logb 2 right|
  let outLog := |Real.logb 2 out|
  let c := if leftLog ≤ rightLog then addCommon bl rightLog leftLog outLog right out else addCommon bl leftLog rightLog outLog left out
  ⟨roundAway (left / c.1), roundAway (right / c.1), c.1, c.2⟩

/-- `intermediate_bit_size`, add.rs:422-424. -/
noncomputable def AddQuant.bitSize (q : AddQuant) : ℕ := ⌈|Real.logb 2 q.common|⌉₊ + 2

/-! ### Reshaping -/

/-- `Reshape`, reshape.rs:39-52. -/
inductive Reshape
  | full (newDim unpadded : List (List ℕ))
  | subspace (start stop : ℕ) (toAdd unpaddedToAdd : List ℕ)
  | squeeze (index : ℕ)

/-- `Vec::splice`, called at reshape.rs:120; panics if the range is not in the vector. -/
def splice (start stop : ℕ) (add l : List ℕ) : Option (List ℕ) :=
  if start ≤ stop ∧ stop ≤ l.length then some (l.take start ++ add ++ l.drop stop) else none

/-- `to_padded_reshape`, reshape.rs:87-103. -/
def Reshape.toPadded : Reshape → Reshape
  | .full actual unpadded => .full (actual.map fun s => s.map nextPow2) unpadded
  | .subspace a b toAdd un => .subspace a b (toAdd.map nextPow2) un
  | .squeeze i => .squeeze i

/-- The new shapes, reshape.rs:106-126. -/
def Reshape.newDims (shapes : List (List ℕ)) : Reshape → Option (List (List ℕ))
  | .squeeze index => do
    let s ← shapes[0]?
    if index < s.length then some [s.insertIdx index 1] else none
  | .full newDim _ => some newDim
  | .subspace a b toAdd _ => shapes.mapM fun s => splice a b toAdd s

/-- `internal_output`, reshape.rs:105-138. -/
def Reshape.internalOutput (r : Reshape) (shapes : List (List ℕ)) : Option (List (List ℕ)) := do
  let dims ← r.newDims shapes
  if dims.length = shapes.length ∧ ((dims.zip shapes).all fun x => x.1.prod == x.2.prod) then some dims else none

/-- `evaluate_layer`, reshape.rs:141-156. -/
def Reshape.evaluate {α : Type} (r : Reshape) (inputs : List (Tensor α)) : Option (List (Tensor α)) := do
  let dims ← r.internalOutput (inputs.map Tensor.shape)
  (dims.zip inputs).mapM fun x => x.2.reshape x.1

/-- `Flatten::evaluate`, flatten.rs:43-55, tensor.rs:794-802. -/
def flattenEvaluate {α : Type} (inputs : List (Tensor α)) : Option (List (Tensor α)) :=
  match inputs with
  | [t] => some [⟨[t.data.length], t.data⟩]
  | _ => none

end Model
