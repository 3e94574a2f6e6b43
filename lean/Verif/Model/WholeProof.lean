import Verif.Model.GraphRun
import Verif.Model.Elementwise
import Verif.Model.LogUp

/-!
The proof of a whole model: `Prover::prove` (`zkml/src/iop/prover.rs`), `Verifier::verify` (`zkml/src/iop/verifier.rs`) and the parts of `zkml/src/layers/{mod,provable/mod}.rs` that
dispatch on the kind of layer.

Simplifications: a layer `L`, its proof `P`, a table `T`, its proof `TP` and the proof `C` of the openings are abstract types, and what the code does with a single one of them is a parameter;
`S` is everything the prover or the verifier changes besides the maps modelled here (the transcript, the accumulated claims about commitments, the lookup witnesses). Errors and panics are `none`.
-/

namespace Model

/-- The variants of `LayerCtx`, layers/mod.rs:100-124 (those of `Layer`, lines 67-92, are the same without `table`). -/
inductive LayerKind
  | dense | convolution | matMul | qkv | mha | concatMatMul | layerNorm | softmax | add | logits | reshape | embeddings | positional | schoolBookConvolution | activation | requant | pooling
  | table | flatten
deriving DecidableEq

/-- `LayerCtx::has_proof`, layers/mod.rs:207-212. -/
def LayerKind.hasProof : LayerKind → Bool
  | .flatten | .table | .schoolBookConvolution => false
  | _ => true

/-- `is_provable` of `LayerCtx`, layers/provable/mod.rs:712-733: `unreachable!` for the school-book convolution and for tables; false for the layers that only rearrange (flatten.rs:37-39,
reshape.rs:251-253), true for all others. -/
def LayerKind.ctxProvable : LayerKind → Option Bool
  | .schoolBookConvolution | .table => none
  | .flatten | .reshape => some false
  | _ => some true

/-- `is_provable` of `Layer`, layers/mod.rs:357-379: negated for the school-book convolution, whose own method returns false (convolution.rs:1389-1391). -/
def LayerKind.opProvable : LayerKind → Bool
  | .flatten | .reshape => false
  | _ => true

/-- What the verifier does with single layers, tables and openings. -/
structure VerifierApi (L P T TP C S F : Type) where
  /-- The variant of the layer. -/
  kind : L → LayerKind
  /-- `output_shapes` for the pairs of unpadded and padded input shapes, layers/mod.rs:222-231. -/
  shapes : L → List (List ℕ × List ℕ) → List (List ℕ × List ℕ)
  /-- `VerifiableCtx::verify`, layers/provable/mod.rs:743-820: the proof, the claims about the outputs, the shapes of inputs and outputs. -/
  verify : L → P → List (Claim F) → List (List ℕ × List ℕ) → List (List ℕ × List ℕ) → S → Option (List (Claim F) × S)
  /-- `get_lookup_data`, layers/mod.rs:779-809, with numerators and denominators paired; empty for `None`. -/
  lookupData : P → List (F × F)
  /-- `EmbeddingsCtx::verify_input_claim`, transformer/embeddings.rs:536-572. -/
  embeddingsCheck : L → List (Tensor F) → List (Claim F) → Bool
  /-- `read_challenges`, lib.rs:145-150. -/
  draw : S → ℕ → List F × S
  /-- Steps 1: `write_to_transcript` and `ChallengeStorage::initialise`, iop/verifier.rs:79-87. -/
  start : S → Option S
  /-- `ctx.lookup`. -/
  tables : List T
  /-- `verify_table`, iop/verifier.rs:318-384. -/
  verifyTable : T → TP → S → Option S
  /-- `fractional_outputs` of a table proof, paired. -/
  tableData : TP → List (F × F)
  /-- `CommitmentVerifier::verify`, called at iop/verifier.rs:273-274. -/
  opening : C → S → Bool

/-- `Proof`, iop/mod.rs:18-32. -/
structure WholeProof (P TP C : Type) where
  steps : List (ℕ × P)
  tableProofs : List TP
  commit : C

section
variable {L P T TP C S F : Type}

/-- The nodes of an order together with their ids. -/
def nodesOf (g : Graph L) (order : List ℕ) : Option (Graph L) :=
  order.mapM fun id => (mapGet id g).map fun n => (id, n)

/-- The lookup data of one node, iop/verifier.rs:92-104: a node with a proof must have one in the map. -/
def nodeFractions (api : VerifierApi L P T TP C S F) (g : Graph L) (steps : List (ℕ × P)) (id : ℕ) : Option (List (F × F)) := do
  let n ← mapGet id g
  if (api.kind n.op).hasProof then do
    let p ← mapGet id steps
    some (api.lookupData p)
  else some []

/-- All numerators and denominators: those of the nodes in inference order, then those of all table proofs, iop/verifier.rs:91-110. -/
def allFractions (api : VerifierApi L P T TP C S F) (g : Graph L) (proof : WholeProof P TP C) : Option (List (F × F)) := do
  let fr ← (forwardOrder g).mapM (nodeFractions api g proof.steps)
  some (fr.flatten ++ proof.tableProofs.flatMap api.tableData)

/-- The shapes on an input edge, iop/verifier.rs:149-176: from the node's step, or the declared unpadded shape and the shape of the given tensor. -/
def edgeShape (unpadded : List (List ℕ)) (inputs : List (List ℕ)) (steps : List (ℕ × List (List ℕ × List ℕ) × List (List ℕ × List ℕ))) (e : Edge) : Option (List ℕ × List ℕ) :=
  match e.node with
  | some a => do
    let st ← mapGet a steps
    st.2[e.index]?
  | none => do
    let u ← unpadded[e.index]?
    let p ← inputs[e.index]?
    some (u, p)

/-- The shapes of the inputs and outputs of every node, iop/verifier.rs:145-181. -/
def shapeSteps (api : VerifierApi L P T TP C S F) (g : Graph L) (unpadded inputs : List (List ℕ)) :
    Option (List (ℕ × List (List ℕ × List ℕ) × List (List ℕ × List ℕ))) :=
  (forwardOrder g).foldlM (fun steps id => do
    let n ← mapGet id g
    let ins ← n.inputs.mapM (edgeShape unpadded inputs steps)
    some (mapSet id (ins, api.shapes n.op ins) steps)) []

/-- What the verifier does at one node of the backward pass, iop/verifier.rs:186-218. -/
def verifyNode (api : VerifierApi L P T TP C S F) (shapes : List (ℕ × List (List ℕ × List ℕ) × List (List ℕ × List ℕ))) (steps : List (ℕ × P)) (s : S) (id : ℕ) (n : Node L)
    (claims : List (Claim F)) : Option (S × List (Claim F)) := do
  let p ← if (api.kind n.op).hasProof then (mapGet id steps).map some else some none
  let sh ← mapGet id shapes
  let b ← (api.kind n.op).ctxProvable
  if b then do
    let p ← p
    let r ← api.verify n.op p claims sh.1 sh.2 s
    some (r.2, r.1)
  else some (s, claims)

end

section
variable {L P T TP C S F : Type} [Field F] [DecidableEq F]

/-- The claim about one output: a point is drawn and the tensor evaluated there, layers/provable/mod.rs:518-535, iop/prover.rs:424-438. -/
def tensorClaim (draw : S → ℕ → List F × S) (s : S) (t : Tensor F) : Option (Claim F × S) := do
  let y ← evaluateTensor t.data (draw s (Nat.log2 t.data.length)).1
  some (⟨(draw s (Nat.log2 t.data.length)).1, y⟩, (draw s (Nat.log2 t.data.length)).2)

/-- The claims about several outputs, one after the other. -/
def tensorClaims (draw : S → ℕ → List F × S) : List (Tensor F) → S → Option (List (Claim F) × S)
  | [], s => some ([], s)
  | t :: ts, s => do
    let r ← tensorClaim draw s t
    let rs ← tensorClaims draw ts r.2
    some (r.1 :: rs.1, rs.2)

/-- `compute_model_output_claims`, layers/provable/mod.rs:513-536, 822-888: all layers draw the claims but `Logits`, which returns default claims and draws nothing
(transformer/logits.rs:680-689). -/
def computeOutputClaims (draw : S → ℕ → List F × S) (k : LayerKind) (s : S) (ts : List (Tensor F)) : Option (List (Claim F) × S) :=
  if k = .logits then some (ts.map fun _ => ⟨[], 0⟩, s) else tensorClaims draw ts s

/-- The claims are put at the indices of their outputs, iop/verifier.rs:139-141. -/
def setClaims (idxs : List ℕ) (cls acc : List (Claim F)) : List (Claim F) :=
  (idxs.zip cls).foldl (fun acc x => acc.set x.1 x.2) acc

/-- The loop over the nodes that outputs are bound to, iop/verifier.rs:119-143. -/
def outputLoop (draw : S → ℕ → List F × S) (kind : L → LayerKind) (g : Graph L) (outputs : List (Tensor F)) : List (ℕ × List ℕ) → List (Claim F) × S → Option (List (Claim F) × S)
  | [], st => some st
  | x :: rest, st => do
    let n ← mapGet x.1 g
    let ts ← x.2.mapM fun k => outputs[k]?
    let r ← computeOutputClaims draw (kind n.op) st.2 ts
    outputLoop draw kind g outputs rest (setClaims x.2 r.1 st.1, r.2)

/-- `verify_input_claim`, layers/provable/mod.rs:542-562, 890-932: every input is evaluated at the point of its claim, except for `Embeddings`. -/
def inputCheck (api : VerifierApi L P T TP C S F) (op : L) (ts : List (Tensor F)) (cls : List (Claim F)) : Bool :=
  if api.kind op = .embeddings then api.embeddingsCheck op ts cls
  else ts.length == cls.length && (ts.zip cls).all fun x => evaluateTensor x.1.data x.2.point == some x.2.eval

/-- The check of the claims about the inputs of the model made for one node, iop/verifier.rs:247-271; nodes without such inputs are not in the list of `input_claims`. -/
def nodeInputCheck (api : VerifierApi L P T TP C S F) (inputs : List (Tensor F)) (cs : List (ℕ × List (Claim F))) (x : ℕ × Node L) : Option Unit := do
  let l ← inputClaimsOfNode cs x
  if l = [] then some ()
  else do
    let ts ← l.mapM fun y => inputs[y.1]?
    if inputCheck api x.2.op ts (l.map (·.2)) then some () else none

/-- Steps 4 to 8, iop/verifier.rs:183-297. -/
def verifyTail (api : VerifierApi L P T TP C S F) (g : Graph L) (shapes : List (ℕ × List (List ℕ × List ℕ) × List (List ℕ × List ℕ))) (proof : WholeProof P TP C)
    (inputs : List (Tensor F)) (fr : List (F × F)) (outC : List (Claim F)) (s : S) : Option Unit := do
  let r ← backwardPass (verifyNode api shapes proof.steps) g outC s
  let s' ← (proof.tableProofs.zip api.tables).foldlM (fun s x => api.verifyTable x.2 x.1 s) r.1
  let _ ← inputClaims g r.2 (forwardOrder g)
  let nodes ← nodesOf g (forwardOrder g)
  let _ ← nodes.mapM (nodeInputCheck api inputs r.2)
  if api.opening proof.commit s' && finalCheck fr then some () else none

/-- `Verifier::verify`, iop/verifier.rs:72-294. `hashOrder` is the order in which the hash map from nodes to outputs is visited. -/
def verifyWhole (api : VerifierApi L P T TP C S F) (hashOrder : List (ℕ × List ℕ) → List (ℕ × List ℕ)) (g : Graph L) (unpadded : List (List ℕ)) (proof : WholeProof P TP C)
    (inputs outputs : List (Tensor F)) (s : S) : Option Unit := do
  let s ← api.start s
  let fr ← allFractions api g proof
  let nodes ← nodesOf g (backwardOrder g)
  let bound ← bindOutputs outputs.length nodes
  let out ← outputLoop api.draw api.kind g outputs (hashOrder bound) (List.replicate outputs.length ⟨[], 0⟩, s)
  let shapes ← shapeSteps api g unpadded (inputs.map Tensor.shape)
  verifyTail api g shapes proof inputs fr out.1 out.2

/-- What the prover does with single layers, tables and openings. -/
structure ProverApi (L P TP C S F : Type) where
  /-- The variant of the layer. -/
  kind : L → LayerKind
  /-- `ProvableOp::prove`, layers/mod.rs:525-592: the inputs and outputs of the layer and the claims about the outputs give the claims about the inputs and the proof pushed. -/
  prove : L → ℕ → List (Tensor F) → List (Tensor F) → List (Claim F) → S → Option (List (Claim F) × P × S)
  /-- `read_challenges`. -/
  draw : S → ℕ → List F × S
  /-- `write_to_transcript` and `instantiate_witness_ctx`, iop/prover.rs:408-409. -/
  start : S → Option S
  /-- `prove_tables`, iop/prover.rs:110-157. -/
  tables : S → Option (List TP × S)
  /-- `CommitmentProver::prove`, called at iop/prover.rs:474-476. -/
  opening : S → Option C

/-- What the prover does at one node, iop/prover.rs:441-463: `trace` gives the inputs and outputs of the node in the inference. The proof is pushed into the map (line 105). -/
def proveNode (api : ProverApi L P TP C S F) (trace : ℕ → List (Tensor F) × List (Tensor F)) (st : S × List (ℕ × P)) (id : ℕ) (n : Node L) (claims : List (Claim F)) :
    Option ((S × List (ℕ × P)) × List (Claim F)) :=
  if (api.kind n.op).opProvable then do
    let r ← api.prove n.op id (trace id).1 (trace id).2 claims st.1
    some ((r.2.2, mapSet id r.2.1 st.2), r.1)
  else some (st, claims)

/-- `Prover::prove`, iop/prover.rs:401-487. -/
def proveWhole (api : ProverApi L P TP C S F) (g : Graph L) (trace : ℕ → List (Tensor F) × List (Tensor F)) (outputs : List (Tensor F)) (s : S) : Option (WholeProof P TP C) := do
  let s ← api.start s
  let out ← tensorClaims api.draw outputs s
  let r ← backwardPass (proveNode api trace) g out.1 (out.2, [])
  let t ← api.tables r.1.1
  let c ← api.opening t.2
  some ⟨r.1.2, t.1, c⟩

end

/-! ### Models of additions and flattenings -/

/-- The layers of a model that only adds two tensors with multipliers, and flattens. -/
inductive AdditiveLayer
  | add (leftMul rightMul : ℤ)
  | flatten
deriving DecidableEq

/-- `Evaluate::evaluate` of these layers, add.rs:184-211, flatten.rs:43-55. -/
def additiveEval : AdditiveLayer → List (Tensor ℤ) → Option (List (Tensor ℤ))
  | .add a b, [x, y] => (addEvaluate a b x.data y.data).map fun d => [⟨x.shape, d⟩]
  | .add _ _, _ => none
  | .flatten, l => flattenEvaluate l

/-- The variants of these layers. -/
def AdditiveLayer.kind : AdditiveLayer → LayerKind
  | .add _ _ => .add
  | .flatten => .flatten

/-- `to_fields` of a tensor, quantization/mod.rs:244-267. -/
def Tensor.toFields {F : Type} [Field F] (p : ℕ) (t : Tensor ℤ) : Tensor F := ⟨t.shape, t.data.map (toField p)⟩

section
variable {T TP C S F : Type} [Field F] [DecidableEq F]

/-- The verifier for these layers, add.rs:586-627; everything else is as in `base`. -/
def additiveVerifier (p : ℕ) (base : VerifierApi AdditiveLayer (AddProof F) T TP C S F) : VerifierApi AdditiveLayer (AddProof F) T TP C S F :=
  { base with
    kind := AdditiveLayer.kind
    lookupData := fun _ => []
    verify := fun l proof claims _ _ s =>
      match l, claims with
      | .add a b, [last] => (verifyAdd (toField p a) (toField p b) false proof last).map fun r => (r.1, s)
      | _, _ => none }

/-- The prover for these layers, add.rs:81-148, for a context without tables; everything else is as in `base`. -/
def additiveProver (p : ℕ) (base : ProverApi AdditiveLayer (AddProof F) TP C S F) : ProverApi AdditiveLayer (AddProof F) TP C S F :=
  { base with
    kind := AdditiveLayer.kind
    tables := fun s => some ([], s)
    prove := fun l _ ins _ claims s =>
      match l, ins, claims with
      | .add a b, [x, y], [last] => (proveAdd (toField p a) (toField p b) false x.data y.data last).map fun r => (r.1, r.2.2, s)
      | _, _, _ => none }

end

end Model
