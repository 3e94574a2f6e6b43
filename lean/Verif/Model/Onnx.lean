import Verif.Model.GraphRun
import Verif.Model.LayerPad
import Verif.Model.Fft

/-!
Loading an ONNX model: `zkml/src/parser/onnx.rs`.

The input of the model is the graph which tract hands over after typing and decluttering (onnx.rs:66-77), as data: its nodes, the order of `order_without_consts` and its output
outlets. Simplifications: all dimensions are concrete; numbers are elements of a ring `R` instead of floats; of the einsum operations only the products of a vector with a
matrix are there; a name is a list of characters; errors and panics are `none`. The hash map of the loaders is a list, whose order stands for the arbitrary order of a
hash map.
-/

namespace Model

/-- `PaddingSpec` of tract, as used in onnx.rs:293-312, 670-672; the flag of `ExplicitOnnxPool` is the ceil mode. -/
inductive OnnxPadding
  | explicit (before after : List ℕ)
  | explicitOnnxPool (before after : List ℕ) (ceil : Bool)
  | valid
  | other
deriving DecidableEq

/-- `PoolSpec` of tract, as used in onnx.rs:284-325, 662-712. -/
structure OnnxPool where
  kernel : List ℕ
  padding : OnnxPadding
  strides : Option (List ℕ)
  dilations : Option (List ℕ)
deriving DecidableEq

/-- The operation of a `TypedBinOp`, onnx.rs:525. -/
inductive OnnxBin
  | add
  | max
  | mul
deriving DecidableEq

/-- The operations of tract named in onnx.rs:20-31: `TypedSource`, `Const`, `EinSum`, `Conv`, `MaxPool`, `TypedBinOp`, `AxisOp::Reshape`, and any other, given by its
function. `einsum k inFirst` multiplies the vector in the other operand with the matrix in operand `k`, whose rows are the inputs if `inFirst` and the outputs if not. -/
inductive OnnxOp (R : Type)
  | source (shape : List ℕ)
  | const (t : Tensor R)
  | einsum (matrix : ℕ) (inFirst : Bool)
  | conv (spec : OnnxPool) (groups : ℕ)
  | maxPool (spec : OnnxPool)
  | binary (op : OnnxBin)
  | reshape (start : ℕ) (current new : List ℕ)
  | other (f : List (Tensor R) → Tensor R)

/-- `Node` of tract: the name, the operation, the outlets (node, slot) it takes and the shapes of its outputs. -/
structure OnnxNode (R : Type) where
  name : List Char
  op : OnnxOp R
  inputs : List (ℕ × ℕ)
  shapes : List (List ℕ)

/-- The graph handed over by tract, onnx.rs:66-79, 104-105. -/
structure OnnxGraph (R : Type) where
  nodes : List (OnnxNode R)
  order : List ℕ
  outputs : List (ℕ × ℕ)

/-- The layers made by the loaders. -/
inductive OnnxLayer (R : Type)
  | conv (filter bias : Tensor R)
  | dense (d : DenseLayer R)
  | relu
  | pool
  | flatten
deriving DecidableEq

variable {R : Type}

/-- `num_outputs` of these layers: dense.rs:127-130, convolution.rs:204-207, activation.rs:75-77, pooling.rs:89-91, flatten.rs:29-31. -/
def OnnxLayer.numOutputs : OnnxLayer R → ℕ → ℕ
  | .conv _ _, _ => 1
  | .dense _, _ => 1
  | _, n => n

/-- `Evaluate<f32>` of these layers: convolution.rs:237-254, dense.rs:157-186, activation.rs:95-111, pooling.rs:335-341 (kernel and stride 2), flatten.rs and
tensor.rs:794-802. -/
def OnnxLayer.eval [CommRing R] [LinearOrder R] : OnnxLayer R → List (Tensor R) → Option (List (Tensor R))
  | .conv f b, [x] => (conv2d x f b 1).map fun y => [y]
  | .dense d, [x] => (d.evaluate x).map fun y => [y]
  | .relu, xs => some (xs.map fun x => ⟨x.shape, x.data.map fun v => max v 0⟩)
  | .pool, xs => xs.mapM fun x => x.maxpool2d 2 2
  | .flatten, xs => some (xs.map fun x => ⟨[x.data.length], x.data⟩)
  | _, _ => none

/-- The loaders, onnx.rs:143-157. -/
inductive OnnxLoader
  | conv
  | gemm
  | relu
  | flatten
  | pool
  | reshape
deriving DecidableEq

/-- The entries of the hash map, onnx.rs:144-156. -/
def onnxKeys : List (List Char × OnnxLoader) :=
  [(['C', 'o', 'n', 'v'], .conv), (['G', 'e', 'm', 'm', '.', 'a', 'b'], .gemm), (['M', 'a', 't', 'M', 'u', 'l'], .gemm), (['R', 'e', 'l', 'u'], .relu),
   (['F', 'l', 'a', 't', 't', 'e', 'n'], .flatten), (['P', 'o', 'o', 'l'], .pool), (['R', 'e', 's', 'h', 'a', 'p', 'e'], .reshape)]

/-- `extract_const_tensor`, onnx.rs:623-631. -/
def OnnxNode.constTensor (n : OnnxNode R) : Option (Tensor R) :=
  match n.op, n.shapes with
  | .const t, [shape] => Tensor.new shape t.data
  | _, _ => none

/-- `is_const`, onnx.rs:619-621. -/
def OnnxNode.isConst (n : OnnxNode R) : Bool :=
  match n.op with
  | .const _ => true
  | _ => false

/-- `is_const(model.node(id))`; `model.node` panics for a missing node. -/
def OnnxGraph.isConst (m : OnnxGraph R) (id : ℕ) : Option Bool := (m.nodes[id]?).map OnnxNode.isConst

/-- What a loader returns: the id of the node, its input edges, its layer, and what is left of the iterator. -/
structure OnnxLoaded (R : Type) where
  id : ℕ
  inputs : List Edge
  layer : OnnxLayer R
  rest : List ℕ

/-- `load_reshape`, onnx.rs:205-250. -/
def loadReshape (id : ℕ) (n : OnnxNode R) (rest : List ℕ) : Option (OnnxLoaded R) :=
  match n.inputs, n.op with
  | [i], .reshape _ current new => if current.prod = new.prod ∧ new.length = 1 then some ⟨id, [⟨some i.1, i.2⟩], .flatten, rest⟩ else none
  | _, _ => none

/-- `load_flatten`, onnx.rs:252-268. -/
def loadFlatten (id : ℕ) (n : OnnxNode R) (rest : List ℕ) : Option (OnnxLoaded R) :=
  match n.inputs with
  | [i] => some ⟨id, [⟨some i.1, i.2⟩], .flatten, rest⟩
  | _ => none

/-- The checks of `load_maxpool`, onnx.rs:283-325; `MAXPOOL2D_KERNEL_SIZE` is 2. -/
def checkMaxPool (s : OnnxPool) : Bool :=
  (match s.strides with
    | some l => l.all (· == 2)
    | none => true) &&
  (match s.padding with
    | .explicit b a => b.all (· == 0) && a.all (· == 0)
    | .explicitOnnxPool b a _ => b.all (· == 0) && a.all (· == 0)
    | .valid => true
    | .other => false) &&
  s.kernel.all (· == 2) &&
  (match s.dilations with
    | some l => l.all (· == 1)
    | none => true)

/-- `load_maxpool`, onnx.rs:270-331. -/
def loadMaxPool (id : ℕ) (n : OnnxNode R) (rest : List ℕ) : Option (OnnxLoaded R) :=
  match n.inputs, n.op with
  | [i], .maxPool s => if checkMaxPool s then some ⟨id, [⟨some i.1, i.2⟩], .pool, rest⟩ else none
  | _, _ => none

/-- `load_relu`, onnx.rs:333-364. -/
def loadRelu (m : OnnxGraph R) (id : ℕ) (n : OnnxNode R) (rest : List ℕ) : Option (OnnxLoaded R) :=
  match n.inputs with
  | [i, j] => do
    let c ← m.isConst j.1
    if c then some ⟨id, [⟨some i.1, i.2⟩], .relu, rest⟩
    else do
      let c ← m.isConst i.1
      if c then some ⟨id, [⟨some j.1, j.2⟩], .relu, rest⟩ else none
  | _ => none

/-- The weights as a matrix, onnx.rs:388-404: all dimensions but the first are merged; a vector becomes one row. -/
def gemmMatrix (w : Tensor R) : Option (Tensor R) :=
  match w.shape with
  | [] => none
  | [n] => some ⟨[1, n], w.data⟩
  | a :: b :: rest => some ⟨[a, (b :: rest).prod], w.data⟩

/-- The matrix is transposed unless its second dimension is the size of the input, which it must be in the end: onnx.rs:411-498. The branch for more than two dimensions
(417-447) is never taken, as there are two by then; the second transposition (487-490) is never needed. -/
def gemmOrient (w : Tensor R) (inputSize : ℕ) : Option (Tensor R) := do
  let c ← w.shape[1]?
  let w' ← if c ≠ inputSize then w.transpose else some w
  let c' ← w'.shape[1]?
  if c' = inputSize then some w' else none

/-- Where the bias is, onnx.rs:503-549: the id of the loaded node, the node of the bias if there is one, and what is left of the iterator. -/
def gemmBias (m : OnnxGraph R) (id : ℕ) : List ℕ → Option (ℕ × Option ℕ × List ℕ)
  | [] => some (id, none, [])
  | next :: rest => do
    let n ← m.nodes[next]?
    match n.inputs, n.op with
    | [i, j], .binary .add =>
      if i.1 = id then some (next, some j.1, rest)
      else if j.1 = id then some (next, some i.1, rest)
      else some (id, none, next :: rest)
    | _, _ => some (id, none, next :: rest)

/-- The bias, onnx.rs:550-575: a missing bias is zero, a leading dimension of one is dropped, and the size must be the number of rows. -/
def gemmBiasTensor [Zero R] (m : OnnxGraph R) (rows : ℕ) (bias : Option ℕ) : Option (Tensor R) := do
  let b ← match bias with
    | some k => do
      let n ← m.nodes[k]?
      n.constTensor
    | none => some ⟨[rows], List.replicate rows 0⟩
  let b' ← match b.shape with
    | [_] => some b
    | [d, k] => if d = 1 then some ⟨[k], b.data⟩ else none
    | _ => none
  let k ← b'.shape[0]?
  if k = rows then some b' else none

/-- The weights, the last constant input: onnx.rs:380-388. -/
def gemmWeights (m : OnnxGraph R) (i j : ℕ × ℕ) : Option (ℕ × ℕ) := do
  let c ← m.isConst j.1
  if c then some j
  else do
    let c ← m.isConst i.1
    if c then some i else none

/-- The input, the first one from another node than the weights: onnx.rs:411-413. -/
def gemmInput (i j : ℕ × ℕ) (weights : ℕ) : Option (ℕ × ℕ) :=
  if i.1 ≠ weights then some i else if j.1 ≠ weights then some j else none

/-- `load_gemm`, onnx.rs:365-581. -/
def loadGemm [Zero R] (m : OnnxGraph R) (id : ℕ) (n : OnnxNode R) (rest : List ℕ) : Option (OnnxLoaded R) :=
  match n.op, n.inputs with
  | .einsum _ _, [i, j] => do
    let wl ← gemmWeights m i j
    let wn ← m.nodes[wl.1]?
    let w ← wn.constTensor
    let w ← gemmMatrix w
    let il ← gemmInput i j wl.1
    let xn ← m.nodes[il.1]?
    let xs ← xn.shapes[il.2]?
    let w ← gemmOrient w xs.prod
    let b ← gemmBias m id rest
    let rows ← w.shape[0]?
    let bias ← gemmBiasTensor m rows b.2.1
    let d ← DenseLayer.new w bias
    some ⟨b.1, [⟨some il.1, il.2⟩], .dense d, b.2.2⟩
  | _, _ => none

/-- `check_conv2d_attributes`, onnx.rs:648-698. -/
def checkConv (s : OnnxPool) : Bool :=
  (match s.strides with
    | some l => l.all (· == 1)
    | none => false) &&
  (match s.padding with
    | .explicit b a => b.all (· == 0) && a.all (· == 0)
    | _ => false) &&
  (match s.dilations with
    | some l => l.all (· == 1)
    | none => false) &&
  s.kernel.all (1 < ·) &&
  (match s.kernel with
    | [a, b] => a == b
    | _ => false)

/-- `Convolution::new` and `new_without_bias` with the choice between them, onnx.rs:607-613, convolution.rs:124-134; `is_empty` (tensor.rs:670-672) holds for tensors without
dimensions. `filter.kw()` is the first dimension. -/
def convLayer [Zero R] (filter bias : Tensor R) : Option (OnnxLayer R) :=
  match filter.shape with
  | [o, _, _, _] =>
    match bias.shape with
    | [] => some (.conv filter ⟨[o], List.replicate o 0⟩)
    | d :: _ => if o = d then some (.conv filter bias) else none
  | _ => none

/-- `load_conv`, onnx.rs:583-617. -/
def loadConv [Zero R] (m : OnnxGraph R) (id : ℕ) (n : OnnxNode R) (rest : List ℕ) : Option (OnnxLoaded R) :=
  match n.op, n.inputs with
  | .conv s _, [x, f, b] =>
    if checkConv s then do
      let fn ← m.nodes[f.1]?
      let bn ← m.nodes[b.1]?
      let ft ← fn.constTensor
      let bt ← bn.constTensor
      let l ← convLayer ft bt
      some ⟨id, [⟨some x.1, x.2⟩], l, rest⟩
    else none
  | _, _ => none

/-- The loader of that name. -/
def OnnxLoader.load [Zero R] (m : OnnxGraph R) (id : ℕ) (n : OnnxNode R) (rest : List ℕ) : OnnxLoader → Option (OnnxLoaded R)
  | .conv => loadConv m id n rest
  | .gemm => loadGemm m id n rest
  | .relu => loadRelu m id n rest
  | .flatten => loadFlatten id n rest
  | .pool => loadMaxPool id n rest
  | .reshape => loadReshape id n rest

/-- `parse_node`, onnx.rs:159-203: the loader is that of the first key, in the order of the hash map, that occurs in the name. The edges of the first node become inputs of
the model. -/
def parseNode [Zero R] (keys : List (List Char × OnnxLoader)) (m : OnnxGraph R) (id : ℕ) (rest : List ℕ) (first : Bool) : Option (OnnxLoaded R) := do
  let n ← m.nodes[id]?
  let k ← keys.find? fun k => decide (k.1 <:+: n.name)
  let l ← k.2.load m id n rest
  some (if first then { l with inputs := l.inputs.map fun e => ⟨none, e.index⟩ } else l)

/-- The loop of `from_inference_model`, onnx.rs:95-109: the model and the id of its last node. Every call takes at least one id, so the fuel (the number of ids) is never
short. -/
def loadNodes [Zero R] (keys : List (List Char × OnnxLoader)) (m : OnnxGraph R) : ℕ → List ℕ → Bool → ℕ → Graph (OnnxLayer R) → Option (Graph (OnnxLayer R) × ℕ)
  | _, [], _, last, g => some (g, last)
  | 0, _ :: _, _, _, _ => none
  | fuel + 1, id :: rest, first, _, g => do
    let l ← parseNode keys m id rest first
    let r := addNodeWithId g l.id (Node.new OnnxLayer.numOutputs l.inputs l.layer)
    if r.2 then loadNodes keys m fuel l.rest false l.id r.1 else none

/-- `from_inference_model`, onnx.rs:78-121: the shape of the input and the nodes of the model. -/
def loadOnnx [Zero R] (keys : List (List Char × OnnxLoader)) (m : OnnxGraph R) : Option (List ℕ × Graph (OnnxLayer R)) :=
  match m.order with
  | [] => none
  | src :: ids => do
    let n ← m.nodes[src]?
    let shape ← match n.op with
      | .source shape => some shape
      | _ => none
    let d ← shape[0]?
    let r ← loadNodes keys m ids.length ids true 0 []
    if m.outputs.any fun o => o.1 == r.2 then
      let routed := routeOutput r.1 (some (m.outputs.map fun o => ⟨some o.1, o.2⟩))
      if routed.2 then some (if d = 1 then shape.drop 1 else shape, routed.1) else none
    else none

end Model
