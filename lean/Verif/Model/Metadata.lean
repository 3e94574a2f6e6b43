import Verif.Model.GraphRun

/-!
Quantising a whole model and recording its scaling factors, `zkml/src/quantization/{strategy,metadata}.rs`.

Simplifications: a scaling factor is an abstract type `S`, float layers an abstract type `L`, quantised layers and requantisation layers an abstract type `M`, the
quantisation of one layer (`quantize_op`) is a parameter; shapes are dropped; errors and panics are `none`.
-/

namespace Model

variable {L M S : Type}

/-- `QuantizeOutput`, layers/provable/mod.rs:391-398. -/
structure QuantizedLayer (M S : Type) where
  op : M
  outs : List S
  requants : Option (List M)

/-- The assertion of `with_requants`, layers/provable/mod.rs:415-420: one requantisation layer for each scaling factor. -/
def QuantizedLayer.formed (q : QuantizedLayer M S) : Bool :=
  match q.requants with
  | none => true
  | some rs => q.outs.length == rs.length

/-- What `quantize_model` has computed so far: the quantised nodes, the two maps of `MetadataBuilder` (metadata.rs:44-48), and the requantisation layers to insert. -/
structure QuantizeState (M S : Type) where
  nodes : Graph M
  ins : List (ℕ × List S)
  outs : List (ℕ × List S)
  requants : List (ℕ × List M)

/-- The closure of `quantize_model`, strategy.rs:263-275. `compute_input_scaling` (metadata.rs:69-90) looks up an edge among the scaling factors of the inputs of the model,
`inputs`, or of the outputs of the nodes before; that is `edgeValue` on scaling factors. `set_layers_scaling` is metadata.rs:59-67. -/
def quantizeNode (quantize : ℕ → L → List S → Option (QuantizedLayer M S)) (inputs : List S) (st : QuantizeState M S) (x : ℕ × Node L) :
    Option (QuantizeState M S) := do
  let ins ← x.2.inputs.mapM (edgeValue inputs st.outs)
  let q ← quantize x.1 x.2.op ins
  if q.formed then
    some ⟨st.nodes ++ [(x.1, ⟨x.2.inputs, x.2.outputs, q.op⟩)], mapSet x.1 ins st.ins, mapSet x.1 q.outs st.outs,
      st.requants ++ q.requants.toList.map fun rs => (x.1, rs)⟩
  else none

/-- The graph and the two maps. -/
structure ScaledGraph (M S : Type) where
  graph : Graph M
  ins : List (ℕ × List S)
  outs : List (ℕ × List S)

/-- The loop that records the factors of requantisation nodes, strategy.rs:289-291. -/
def recordScalings (pairs : List (ℕ × S)) (m : List (ℕ × List S)) : List (ℕ × List S) := pairs.foldl (fun m p => mapSet p.1 [p.2] m) m

/-- One round of the loop that inserts requantisation nodes, strategy.rs:278-292. -/
def insertRequants (st : ScaledGraph M S) (x : ℕ × List M) : Option (ScaledGraph M S) := do
  let r ← addRequantNodes st.graph x.2 x.1
  let sc ← mapGet x.1 st.outs
  if r.2.length = sc.length then some ⟨r.1, recordScalings (r.2.zip sc) st.ins, recordScalings (r.2.zip sc) st.outs⟩ else none

/-- `MetadataBuilder::build`, metadata.rs:98-143: the scaling factors of the outputs of the model. It collects them as `run_with_tracker` collects values: by the index of
the first edge to the outside of every output of every output node. -/
def outputScalings (st : ScaledGraph M S) : Option (List S) := do
  let acc ← (outputNodes st.graph).foldlM (collectNode st.outs) []
  outputsInOrder acc

/-- `quantize_model`, strategy.rs:251-296: the quantised graph with the recorded factors, and the factors of the outputs of the model. -/
def quantizeModel (quantize : ℕ → L → List S → Option (QuantizedLayer M S)) (g : Graph L) (inputs : List S) : Option (ScaledGraph M S × List S) := do
  let nodes ← intoForward g
  let st ← nodes.foldlM (quantizeNode quantize inputs) ⟨[], [], [], []⟩
  let sg ← st.requants.foldlM insertRequants ⟨st.nodes, st.ins, st.outs⟩
  let outs ← outputScalings sg
  some (sg, outs)

end Model
