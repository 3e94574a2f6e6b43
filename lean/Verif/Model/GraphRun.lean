import Verif.Model.Graph

/-!
Changing, running and proving along the graph of a model: `add_requant_nodes` and `run_with_tracker` of `zkml/src/model/mod.rs`, `claims_for_node`, `input_claims` and
`bind_outputs_to_node` of `zkml/src/layers/provable/mod.rs`, and the loops of `zkml/src/iop/{prover,verifier}.rs` that call them.

Simplifications: tensors are an abstract type `V`, shapes are dropped, layers are an abstract type `L` with their evaluation as a parameter, a layer's prover or verifier is
a parameter, errors and panics are `none`.
-/

namespace Model

variable {L V S F : Type}

/-! ### Requantisation nodes -/

/-- The requantisation node for output `i` of node `id`, model/mod.rs:178-196. -/
def requantNode (id i : ℕ) (wire : List Edge) (requant : L) : Node L :=
  ⟨wire.map fun _ => ⟨some id, i⟩, [wire], requant⟩

/-- All the requantisation nodes, model/mod.rs:172-198: as many as there are both outputs and requantisation layers. -/
def requantNodes (id : ℕ) (outputs : List (List Edge)) (requants : List L) : List (Node L) :=
  List.zipWith (fun wire r => requantNode id wire.2 wire.1 r) outputs.zipIdx requants

/-- The loop adding them, model/mod.rs:208-211. -/
def addNodes : List (Node L) → Graph L → Option (Graph L × List ℕ)
  | [], g => some (g, [])
  | n :: ns, g =>
    match addNode g n with
    | (_, none) => none
    | (g', some id) => do
      let r ← addNodes ns g'
      some (r.1, id :: r.2)

/-- The body of the rerouting loop, model/mod.rs:230-250: input `e.index` of node `e.node` becomes output `i` of the requantisation node `rid`; it must have been an
output of `id`. -/
def rerouteEdge (id rid i : ℕ) (g : Graph L) (e : Edge) : Option (Graph L) :=
  match e.node with
  | none => some g
  | some b => do
    let n ← mapGet b g
    let old ← n.inputs[e.index]?
    if old.node = some id then some (mapSet b { n with inputs := n.inputs.set e.index ⟨some rid, i⟩ } g) else none

/-- The rerouting loop for one requantisation node, model/mod.rs:226-252. -/
def rerouteNode (id : ℕ) (g : Graph L) (rid : ℕ) : Option (Graph L) := do
  let n ← mapGet rid g
  n.outputs.zipIdx.foldlM (fun g wire => wire.1.foldlM (rerouteEdge id rid wire.2) g) g

/-- `add_requant_nodes`, model/mod.rs:170-265. -/
def addRequantNodes (g : Graph L) (requants : List L) (id : ℕ) : Option (Graph L × List ℕ) := do
  let n ← mapGet id g
  let r ← addNodes (requantNodes id n.outputs requants) (mapSet id { n with outputs := List.replicate n.outputs.length [] } g)
  let g' ← r.2.foldlM (rerouteNode id) r.1
  some (g', r.2)

/-! ### Running a model -/

/-- The value an input edge refers to: model/mod.rs:424-447. -/
def edgeValue (input : List V) (trace : List (ℕ × List V)) (e : Edge) : Option V :=
  match e.node with
  | none => input[e.index]?
  | some a => do
    let outs ← mapGet a trace
    outs[e.index]?

/-- One step of the loop of `run_with_tracker`, model/mod.rs:423-478; `eval` is `Node::run`. -/
def runStep (eval : L → List V → Option (List V)) (g : Graph L) (input : List V) (trace : List (ℕ × List V)) (id : ℕ) :
    Option (List (ℕ × List V)) := do
  let n ← mapGet id g
  let ins ← n.inputs.mapM (edgeValue input trace)
  let out ← eval n.op ins
  some (mapSet id out trace)

/-- The loop of `run_with_tracker`, model/mod.rs:416-478. -/
def runTrace (eval : L → List V → Option (List V)) (g : Graph L) (input : List V) : Option (List (ℕ × List V)) :=
  (forwardOrder g).foldlM (runStep eval g input) []

/-- One output wire, model/mod.rs:494-510: it is collected under the index of its first edge to the outside. -/
def collectWire (acc : List (ℕ × V)) (x : List Edge × V) : Option (List (ℕ × V)) :=
  match x.1.find? (·.node.isNone) with
  | none => some acc
  | some e => if (mapGet e.index acc).isSome then none else some (mapSet e.index x.2 acc)

/-- One output node, model/mod.rs:483-510. -/
def collectNode (trace : List (ℕ × List V)) (acc : List (ℕ × V)) (x : ℕ × Node L) : Option (List (ℕ × V)) := do
  let outs ← mapGet x.1 trace
  if outs.length = x.2.outputs.length then (x.2.outputs.zip outs).foldlM collectWire acc else none

/-- The collected outputs must have the indices `0, …, n-1`; they are returned in that order: model/mod.rs:512-523 (the map is a `BTreeMap`, so its first and last keys
are compared with `0` and `n - 1`). -/
def outputsInOrder (acc : List (ℕ × V)) : Option (List V) :=
  let sorted := acc.insertionSort fun x y => x.1 ≤ y.1
  match sorted.head?, sorted.getLast? with
  | some x, some y => if x.1 = 0 ∧ y.1 = sorted.length - 1 then some (sorted.map (·.2)) else none
  | _, _ => none

/-- `run_with_tracker`, model/mod.rs:415-526: the outputs of every node and the outputs of the model. -/
def runModel (eval : L → List V → Option (List V)) (g : Graph L) (input : List V) : Option (List (ℕ × List V) × List V) := do
  let trace ← runTrace eval g input
  let acc ← (outputNodes g).foldlM (collectNode trace) []
  let outs ← outputsInOrder acc
  some (trace, outs)

/-! ### Claims along the edges -/

/-- One output of `claims_for_node`, provable/mod.rs:235-264. -/
def claimForWire (claimsByNode : List (ℕ × List (Claim F))) (outputClaims : List (Claim F)) (wire : List Edge) : Option (Claim F) :=
  match wire with
  | [e] =>
    match e.node with
    | some b => do
      let cs ← mapGet b claimsByNode
      cs[e.index]?
    | none => outputClaims[e.index]?
  | _ => none

/-- `claims_for_node`, provable/mod.rs:235-270. -/
def claimsForNode (n : Node L) (claimsByNode : List (ℕ × List (Claim F))) (outputClaims : List (Claim F)) : Option (List (Claim F)) :=
  n.outputs.mapM (claimForWire claimsByNode outputClaims)

/-- One step of the backward loop of the prover (iop/prover.rs:437-461) and of the verifier (iop/verifier.rs:179-214). `layer` is the prover or verifier of the node: it
gets the node's id and the claims about its outputs and returns the claims about its inputs; `S` is everything else it changes (transcript, accumulated openings). For a
layer that is not provable it returns the claims it got. -/
def backwardStep (layer : S → ℕ → Node L → List (Claim F) → Option (S × List (Claim F))) (g : Graph L) (outputClaims : List (Claim F))
    (st : S × List (ℕ × List (Claim F))) (id : ℕ) : Option (S × List (ℕ × List (Claim F))) := do
  let n ← mapGet id g
  let claims ← claimsForNode n st.2 outputClaims
  let r ← layer st.1 id n claims
  some (r.1, mapSet id r.2 st.2)

/-- The backward loop. -/
def backwardPass (layer : S → ℕ → Node L → List (Claim F) → Option (S × List (Claim F))) (g : Graph L) (outputClaims : List (Claim F)) (s : S) :
    Option (S × List (ℕ × List (Claim F))) :=
  (backwardOrder g).foldlM (backwardStep layer g outputClaims) (s, [])

/-- The claims about the inputs of the model made for one node, provable/mod.rs:281-291. -/
def inputClaimsOfNode (claimsByNode : List (ℕ × List (Claim F))) (x : ℕ × Node L) : Option (List (ℕ × Claim F)) := do
  let l ← x.2.inputs.zipIdx.mapM fun e =>
    match e.1.node with
    | some _ => some none
    | none => do
      let cs ← mapGet x.1 claimsByNode
      let c ← cs[e.2]?
      some (some (e.1.index, c))
  some (l.filterMap (·))

/-- `input_claims`, provable/mod.rs:273-308, over the nodes in the order given; the claims of all nodes are returned in one list. The set of indices must be
`{0, …, n-1}` for some `n > 0`. -/
def inputClaims (g : Graph L) (claimsByNode : List (ℕ × List (Claim F))) (order : List ℕ) : Option (List (ℕ × Claim F)) := do
  let nodes ← order.mapM fun id => (mapGet id g).map fun n => (id, n)
  let claims ← nodes.mapM (inputClaimsOfNode claimsByNode)
  let l := claims.flatten
  let idx := (l.map (·.1)).dedup.insertionSort (· ≤ ·)
  if idx ≠ [] ∧ idx.head? = some 0 ∧ idx.getLast? = some (idx.length - 1) then some l else none

/-- One output wire in `bind_outputs_to_node`, provable/mod.rs:317-335: the set of outputs found and the map from nodes to outputs. -/
def bindWire (id : ℕ) (st : List ℕ × List (ℕ × List ℕ)) (wire : List Edge) : Option (List ℕ × List (ℕ × List ℕ)) :=
  let idxs := (wire.filter (·.node.isNone)).map (·.index)
  if idxs.Nodup ∧ (∀ k ∈ idxs, k ∉ st.1) then some (st.1 ++ idxs, if idxs = [] then st.2 else mapSet id idxs st.2) else none

/-- The loop of `bind_outputs_to_node` over the nodes, provable/mod.rs:316-341, which stops once all outputs are found. -/
def bindNodes (numOutputs : ℕ) : List (ℕ × Node L) → List ℕ × List (ℕ × List ℕ) → Option (List ℕ × List (ℕ × List ℕ))
  | [], st => some st
  | x :: xs, st => do
    let st' ← x.2.outputs.foldlM (bindWire x.1) st
    if st'.1.length = numOutputs then some st' else bindNodes numOutputs xs st'

/-- `bind_outputs_to_node`, provable/mod.rs:310-344. -/
def bindOutputs (numOutputs : ℕ) (nodes : List (ℕ × Node L)) : Option (List (ℕ × List ℕ)) := do
  let st ← bindNodes numOutputs nodes ([], [])
  if st.1.length = numOutputs then some st.2 else none

/-- One claim about an output: `challenges` draws as many challenges as the output has variables, `evalAt` evaluates the output there; provable/mod.rs:513-536 and
iop/prover.rs:424-436. -/
def outputClaim (challenges : S → ℕ → List F × S) (numVars : V → ℕ) (evalAt : V → List F → F) (s : S) (v : V) : Claim F × S :=
  let r := challenges s (numVars v)
  (⟨r.1, evalAt v r.1⟩, r.2)

/-- The prover's output claims: in the order of the outputs, iop/prover.rs:424-436. -/
def proverOutputClaims (challenges : S → ℕ → List F × S) (numVars : V → ℕ) (evalAt : V → List F → F) (s : S) (outputs : List V) : List (Claim F) × S :=
  outputs.foldl (fun st v =>
    let r := outputClaim challenges numVars evalAt st.2 v
    (st.1 ++ [r.1], r.2)) ([], s)

/-- The verifier's output claims, iop/verifier.rs:115-143: for the nodes in the order of the hash map, the claims of the outputs bound to the node are drawn and put at
their indices; the others stay `Claim::default()`, given as `dflt`. -/
def verifierOutputClaims (dflt : Claim F) (challenges : S → ℕ → List F × S) (numVars : V → ℕ) (evalAt : V → List F → F) (s : S) (outputs : List V)
    (bound : List (ℕ × List ℕ)) : Option (List (Claim F) × S) :=
  (bound.flatMap (·.2)).foldlM (fun st k => do
    let v ← outputs[k]?
    let r := outputClaim challenges numVars evalAt st.2 v
    some (st.1.set k r.1, r.2)) (List.replicate outputs.length dflt, s)

end Model
