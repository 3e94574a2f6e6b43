import Verif.Model.LayerPad
import Verif.Model.Fft
import Verif.Model.Quant
import Verif.Model.Elementwise
import Verif.Model.QuantLayers
import Verif.Model.GraphRun

/-!
Model of the padding of a whole model, `pad_model` of zkml/src/padding.rs, for models of convolutions, dense layers, ReLU, requantisation, max pooling and flatten layers,
and of the inference of the padded model, which carries along the shape every tensor would have without padding.
-/

namespace Model

/-- The variants of `Layer`, layers/mod.rs:67-92, treated here. `C` is the type of convolutions: a filter and a bias before padding, a layer prepared for the FFT after it. -/
inductive PadLayer (C : Type) where
  | conv (c : C)
  | dense (d : DenseLayer ℤ)
  | relu
  | requant (r : Requant)
  | pooling
  | flatten

/-- `maxpool2d_shape`, pooling.rs:774-784; the subtraction underflows when the side is below two. -/
def maxpool2dShape (s : List ℕ) : Option (List ℕ) := do
  let c ← s[0]?
  let h ← s[1]?
  let d ← checkedSub h 1
  let d ← checkedSub d 1
  some [c, d / 2 + 1, d / 2 + 1]

/-- `safe_maxpool2d_shape` and `check_cnn_input`, parser/mod.rs:200-204. -/
def safeMaxpool2dShape (s : List ℕ) : Option (List ℕ) :=
  if s.length = 3 ∧ s[1]? = s[2]? then maxpool2dShape s else none

/-- The body of the loop of `pooling`, padding.rs:189-198. -/
def padPool (sd : PadShape) : Option PadShape :=
  if ∀ n ∈ sd.padded, nextPow2 n = n then do
    let og ← safeMaxpool2dShape sd.og
    let padded ← safeMaxpool2dShape sd.padded
    some ⟨og, padded, sd.garbage⟩
  else none

/-- `Node::pad_node`, layers/mod.rs:271-279 and 487-513: `pad_conv`, padding.rs:202-249; `pad_dense`, 251-303; `pooling`, 188-200; `reshape`, 178-186; the other layers are
unchanged, provable/mod.rs:447-456. -/
def padLayer : PadLayer (Tensor ℤ × Tensor ℤ) → List PadShape → Option (PadLayer Conv × List PadShape)
  | .conv c, [sd] => do
    let r ← padConv c.1 c.2 sd.og sd.padded
    some (.conv r.1, [⟨r.2.1, r.2.2, sd.garbage⟩])
  | .conv _, _ => none
  | .dense d, sds => do
    let r ← padDense d sds
    some (.dense r.1, r.2)
  | .relu, sds => some (.relu, sds)
  | .requant r, sds => some (.requant r, sds)
  | .pooling, sds => do
    let s ← sds.mapM padPool
    some (.pooling, s)
  | .flatten, sds => some (.flatten, sds.map fun sd => ⟨sd.og, sd.padded, some (.conv sd.og sd.padded)⟩)

/-- The closure of `pad_model` for one node, padding.rs:147-171: the nodes padded so far and the shapes of their outputs. -/
def padStep (g : Graph (PadLayer (Tensor ℤ × Tensor ℤ))) (inputs : List PadShape) (st : Graph (PadLayer Conv) × List (ℕ × List PadShape)) (id : ℕ) :
    Option (Graph (PadLayer Conv) × List (ℕ × List PadShape)) := do
  let n ← mapGet id g
  let sds ← n.inputs.mapM (edgeValue inputs st.2)
  let r ← padLayer n.op sds
  some (st.1 ++ [(id, ⟨n.inputs, n.outputs, r.1⟩)], mapSet id r.2 st.2)

/-- `pad_model`, padding.rs:131-176, with the shapes it has recorded. `shapes` are the shapes of the inputs before padding, whose padded shapes are those of `compute_padded_input_shapes`,
model/mod.rs:48-53. -/
def padModel (g : Graph (PadLayer (Tensor ℤ × Tensor ℤ))) (shapes : List (List ℕ)) : Option (Graph (PadLayer Conv) × List (ℕ × List PadShape)) :=
  (forwardOrder g).foldlM (padStep g (shapes.map fun s => ⟨s, s.map nextPow2, none⟩)) ([], [])

/-- `Evaluate::evaluate` of the layers of a padded model, see `netEval`, with `OpInfo::output_shapes` for `PaddingMode::NoPadding` (dense.rs:136-141, pooling.rs:80-87, flatten.rs:22-27,
convolution.rs:144-150, and unchanged shapes for the others), as `run_with_tracker` calls them, model/mod.rs:431-471: a value is a tensor and the shape it would have without padding. `convOp` is `Convolution::op`, `bl` is
`BIT_LEN`; these layers have one input here. -/
def padEval (convOp : Conv → Tensor ℤ → List ℕ → Option (Tensor ℤ)) (bl : ℕ) : PadLayer Conv → List (Tensor ℤ × List ℕ) → Option (List (Tensor ℤ × List ℕ))
  | .conv c, [x] => do
    let s ← conv2dShape x.2 c.unpadded
    let y ← convOp c x.1 x.2
    some [(y, s)]
  | .dense d, [x] => do
    let s ← d.outputShape x.2 false
    let y ← d.evaluate x.1
    some [(y, s)]
  | .relu, [x] => some [(reluOp x.1, x.2)]
  | .requant r, [x] => do
    let d ← r.op bl x.1.data
    some [(⟨x.1.shape, d⟩, x.2)]
  | .pooling, [x] => do
    let s ← maxpool2dShape x.2
    let y ← x.1.maxpool2d 2 2
    some [(y, s)]
  | .flatten, [x] => some [(⟨[x.1.data.length], x.1.data⟩, [x.2.prod])]
  | _, _ => none

end Model
