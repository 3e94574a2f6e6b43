import Verif.Model.WholeProof
import Verif.Model.LookupProvers
import Verif.Model.LayerPad
import Verif.Model.QuantLayers
import Verif.Model.Layers
import Verif.Model.ConvProver

/-!
Prover and verifier of a feed-forward network of dense, convolution, ReLU, requantisation, 2×2 max pooling and flatten layers: the parameters of Model/WholeProof filled in for these layers, with the
generation of the lookup witnesses (`zkml/src/lookup/context.rs`), the challenges of the tables (`zkml/src/iop/mod.rs`), the table proofs (`zkml/src/iop/{prover,verifier}.rs`) and the
claims accumulated for the openings.

Simplifications: the polynomial commitment scheme is a parameter (`commit`, `openAll`, `verifyAll`); a commitment together with its witness is its commitment; challenges are kept by table,
not by name (the names of the tables here are different); `order` lists the tables in the order of the `BTreeMap`s and `BTreeSet`s; the elements looked up are kept in lists instead of
maps with counts; the output shapes are a parameter; the shape of the unpadded input of a convolution, which inference and verifier compute from those of the model, is kept with the layer, and
the data a convolution leaves for its proof is computed again by the prover.
-/

namespace Model

/-- The layers, with their contexts: a dense layer of `2^m` rows and `2^n` columns with the id of its node (dense.rs:45-55), ReLU and pooling with the number of variables of the output
(activation.rs:52-59, pooling.rs:51-57), requantisation (requant.rs:73-80), flatten, and a convolution with the id of its node and the shape of its
unpadded input (convolution.rs:49-60, 63-88). -/
inductive NetLayer
  | dense (id m n : ℕ) (W b : List ℤ)
  | relu (n : ℕ)
  | requant (r : Requant)
  | pooling (n : ℕ)
  | flatten
  | conv (id : ℕ) (layer : Conv) (unpadded : List ℕ)

/-- The variants of these layers. -/
def NetLayer.kind : NetLayer → LayerKind
  | .dense _ _ _ _ _ => .dense
  | .relu _ => .activation
  | .requant _ => .requant
  | .pooling _ => .pooling
  | .flatten => .flatten
  | .conv _ _ _ => .convolution

/-- `Evaluate::evaluate` of these layers: dense.rs:157-186, activation.rs:137-152, requant.rs:126-137,
pooling.rs:108-123, flatten.rs:43-55, convolution.rs:284-306. `bl` is `BIT_LEN` and `convOp` what a convolution computes from its input and the shape of the unpadded
input; these layers have one input here. -/
def netEval (convOp : Conv → Tensor ℤ → List ℕ → Option (Tensor ℤ)) (bl : ℕ) : NetLayer → List (Tensor ℤ) → Option (List (Tensor ℤ))
  | .dense _ m n W b, [x] => ((DenseLayer.mk ⟨[2 ^ m, 2 ^ n], W⟩ ⟨[2 ^ m], b⟩ [2 ^ m, 2 ^ n]).evaluate x).map fun y => [y]
  | .relu _, [x] => some [reluOp x]
  | .requant r, [x] => (r.op bl x.data).map fun d => [⟨x.shape, d⟩]
  | .pooling _, [x] => (x.maxpool2d 2 2).map fun y => [y]
  | .flatten, l => flattenEvaluate l
  | .conv _ layer u, [x] => (convOp layer x u).map fun y => [y]
  | _, _ => none

/-- The proofs of these layers, layers/mod.rs:128-150. -/
inductive NetProof (F C : Type)
  | dense (proof : DenseProof F)
  | activation (proof : ActivationProof F C)
  | requant (proof : RequantProof F C)
  | pooling (proof : PoolingProof F C)
  | conv (proof : ConvProof F)

/-- `TableProof`, iop/mod.rs:35-44. -/
structure NetTableProof (F C : Type) where
  commit : C
  lookup : LogUpProof F

/-- What prover and verifier change: transcript, `ChallengeStorage` (iop/mod.rs:58-63), and the claims of the commitment prover or verifier about the polynomials of the model (of a node, by
name) and about committed witnesses. -/
structure NetState (TS F C : Type) where
  ts : TS
  constant : F
  challenges : List (TableType × F)
  modelClaims : List (ℕ × String × Claim F)
  witnessClaims : List (C × Claim F)

/-- The parameters: number of threads, characteristic, `BIT_LEN`, contents of the tables of approximated functions, order of the tables, `write_to_transcript` (iop/context.rs:211-214), the
two-adicity of the field, a root of unity of that order and `to_element` for convolutions, and the commitment scheme with the opening of all claims at once (commit/context.rs:305-420, 500-605). -/
structure NetEnv (F C CP : Type) (T : Transcript F) where
  threads : ℕ
  p : ℕ
  bl : ℕ
  contents : TableType → ℤ → ℤ
  order : List TableType
  absorb : T.State → T.State
  adicity : ℕ
  root : F
  toE : F → ℤ
  commit : List F → C
  openAll : List (ℕ × String × Claim F) → List (C × Claim F) → T.State → Option CP
  verifyAll : List (ℕ × String × Claim F) → List (C × Claim F) → CP → T.State → Bool

/-! ### Tables and lookup witnesses -/

/-- The tables a layer declares in `step_info`: activation.rs:163, requant.rs:146-147, pooling.rs:133. `clamping_size` panics on underflow: no tables then. -/
def NetLayer.tables : NetLayer → List TableType
  | .relu _ => [.relu]
  | .requant r => match r.clampingSize with
    | some size => [.range, .clamping size]
    | none => []
  | .pooling _ => [.range]
  | _ => []

/-- The rows a layer looks up in every table, as counted by `gen_lookup_witness`: activation.rs:239-316, requant.rs:216-347, pooling.rs:210-272; none for the other layers. -/
def nodeLookups (bl : ℕ) : NetLayer → List (Tensor ℤ) → List (Tensor ℤ) → Option (List (TableType × List (List ℤ)))
  | .relu _, [x], [y] => some [(.relu, List.zipWith (fun a b => [a, b]) x.data y.data)]
  | .requant r, [x], [_] => do
    let size ← r.clampingSize
    let w := x.data.map (r.witness bl)
    some [(.range, (List.range (r.shift / bl)).flatMap fun j => w.map fun v => [v.2.2.getD j 0]), (.clamping size, w.map fun v => [v.1, v.2.1])]
  | .pooling _, [x], [_] => do
    let polys ← computePolys x
    some [(.range, polys.flatMap fun d => d.map fun v => [v])]
  | .dense _ _ _ _ _, _, _ => some []
  | .conv _ _ _, _, _ => some []
  | .flatten, _, _ => some []
  | _, _, _ => none

/-- The rows all nodes look up, context.rs:650-667. -/
def netLookups (bl : ℕ) (g : Graph NetLayer) (trace : ℕ → List (Tensor ℤ) × List (Tensor ℤ)) : Option (List (TableType × List (List ℤ))) := do
  let l ← (forwardOrder g).mapM fun id => do
    let n ← mapGet id g
    nodeLookups bl n.op (trace id).1 (trace id).2
  some l.flatten

/-- The rows looked up in one table. -/
def rowsOf (lookups : List (TableType × List (List ℤ))) (t : TableType) : List (List ℤ) := (lookups.filter fun x => x.1 == t).flatMap fun x => x.2

/-- `ctx.lookup`: the tables declared by the layers. -/
def ctxTables (order : List TableType) (g : Graph NetLayer) : List TableType := order.filter fun t => g.any fun x => x.2.op.tables.contains t

/-- The keys of `element_count`: the tables with lookups, context.rs:676-678, 745. -/
def usedTables (order : List TableType) (lookups : List (TableType × List (List ℤ))) : List TableType := order.filter fun t => lookups.any fun x => x.1 == t

/-- The labels in `generate_challenge`, context.rs:463-480; none for the tables with one column, whose challenge is 1. -/
def tableLabel : TableType → Option String
  | .gelu _ _ _ => some "GELU"
  | .relu => some "Relu"
  | .range | .error _ _ => none
  | .clamping _ => some "Clamping"
  | .softmax _ _ _ => some "Softmax"
  | .zero _ => some "Zero"
  | .invSqrt _ _ => some "InverseSQRT"

section
variable {F C CP : Type} [Field F] [DecidableEq F] {T : Transcript F}

/-- The loop over the tables, iop/mod.rs:77-85, context.rs:770-776. -/
def tableChallenges (T : Transcript F) : List TableType → T.State → List (TableType × F) × T.State
  | [], ts => ([], ts)
  | t :: rest, ts =>
    let r : F × T.State := match tableLabel t with
      | some label => T.labelled ts label
      | none => (1, ts)
    let rs := tableChallenges T rest r.2
    ((t, r.1) :: rs.1, rs.2)

/-- `ChallengeStorage::initialise`, iop/mod.rs:70-90, and `initialise_from_table_set`, context.rs:757-781, after `write_to_transcript`: nothing is drawn if the context has no tables
(`noTables`), context.rs:641-644, iop/verifier.rs:85-89. -/
def netStart (e : NetEnv F C CP T) (noTables : Bool) (tables : List TableType) (s : NetState T.State F C) : NetState T.State F C :=
  if noTables then { s with ts := e.absorb s.ts, constant := 0, challenges := [] }
  else
    let c := T.labelled (e.absorb s.ts) "table_constant"
    let r := tableChallenges T tables c.2
    { s with ts := r.2, constant := c.1, challenges := r.1 }

/-- `get_challenges_by_name`, iop/mod.rs:92-96. -/
def NetState.challenge (s : NetState T.State F C) (t : TableType) : Option (F × F) := (mapGet t s.challenges).map fun x => (s.constant, x)

/-! ### Layers -/

/-- `Convolution::op`, convolution.rs:320-348, in the field of the proofs. -/
def NetEnv.convOp (e : NetEnv F C CP T) (layer : Conv) (x : Tensor ℤ) (unpadded : List ℕ) : Option (Tensor ℤ) := layer.op e.adicity e.root (toField e.p) e.toE x unpadded

/-- The proof of a convolution with the claims about filter and bias, convolution.rs:618-634, 697-1033, from the integer input and output: the shape of the unpadded output is that of the
inference. -/
def netConvProof (e : NetEnv F C CP T) (layer : Conv) (unpadded : List ℕ) (x y : Tensor ℤ) (last : Claim F) (ts : T.State) : Option (ConvProof F × Claim F × Claim F × T.State) := do
  let og ← conv2dShape unpadded layer.unpadded
  let d ← layer.provingData e.adicity e.root (toField e.p) e.toE x
  proveConv e.threads T e.adicity e.root (toField e.p) layer d og y.shape last ts

/-- `ProvableOp::prove` of these layers: dense.rs:297-313, activation.rs:221-237, requant.rs:197-214,
pooling.rs:192-208, convolution.rs:618-636. `trace` has the integer inputs and outputs of the nodes, from which
the lookup witnesses are made. -/
def netProve (e : NetEnv F C CP T) (trace : ℕ → List (Tensor ℤ) × List (Tensor ℤ)) (l : NetLayer) (id : ℕ) (ins : List (Tensor F)) (claims : List (Claim F)) (s : NetState T.State F C) :
    Option (List (Claim F) × NetProof F C × NetState T.State F C) :=
  match l, ins, trace id, claims with
  | .dense _ m n W b, [x], _, [last] => do
    let (proof, claim, common, ts) ← proveDense e.threads T m n (W.map (toField e.p)) (b.map (toField e.p)) last x.data s.ts
    some ([claim], .dense proof, { s with ts := ts, modelClaims := s.modelClaims ++ common.map fun y => (id, y.1, y.2) })
  | .relu _, _, ([x], [y]), [last] => do
    let (c, csc) ← s.challenge .relu
    let (col1, col2) ← activationWitness e.p none x.data y.data
    let (proof, claim, wit, ts) ← proveActivation e.threads T e.p none ([col1, col2].map e.commit) last x.data y.data c csc s.ts
    some ([claim], .activation proof, { s with ts := ts, witnessClaims := s.witnessClaims ++ wit })
  | .requant r, _, ([x], [_]), [last] => do
    let size ← r.clampingSize
    let (c, csc) ← s.challenge (.clamping size)
    let (cin, cout, chunks) := requantColumns e.p e.bl r x.data
    let (proof, claim, wit, ts) ← proveRequant e.threads T e.p e.bl r ((cin :: cout :: chunks).map e.commit) last x.data c csc s.ts
    some ([claim], .requant proof, { s with ts := ts, witnessClaims := s.witnessClaims ++ wit })
  | .pooling n, _, ([x], [y]), [last] => do
    let (c, csc) ← s.challenge .range
    let polys ← computePolys x
    let (proof, claim, wit, ts) ← provePooling e.threads T e.p n (((polys ++ [y.data]).map fun d => d.map (toField e.p)).map e.commit) last x y.data c csc s.ts
    some ([claim], .pooling proof, { s with ts := ts, witnessClaims := s.witnessClaims ++ wit })
  | .conv _ layer u, _, ([x], [y]), [last] => do
    let ctx ← layer.verifyCtx
    let (proof, fc, bc, ts) ← netConvProof e layer u x y last s.ts
    let claim ← convInputClaim ctx.filterSize proof
    some ([claim], .conv proof, { s with ts := ts, modelClaims := s.modelClaims ++ [(id, "ConvFilter", fc), (id, "ConvBias", bc)] })
  | _, _, _, _ => none

/-- `VerifiableCtx::verify` of these layers: dense.rs:354-363, activation.rs:349-375, requant.rs:381-403,
pooling.rs:306-330, convolution.rs:675-688. `sh` are the unpadded and padded shapes of the inputs. -/
def netVerify (e : NetEnv F C CP T) (l : NetLayer) (proof : NetProof F C) (claims : List (Claim F)) (sh : List (List ℕ × List ℕ)) (s : NetState T.State F C) :
    Option (List (Claim F) × NetState T.State F C) :=
  match l, proof, claims with
  | .dense id _ n _ _, .dense proof, [last] => do
    let (claim, common, ts) ← verifyDense T n last proof s.ts
    some ([claim], { s with ts := ts, modelClaims := s.modelClaims ++ common.map fun y => (id, y.1, y.2) })
  | .relu n, .activation proof, [last] => do
    let (c, csc) ← s.challenge .relu
    let (claim, wit, ts) ← verifyActivation T n none last proof c csc s.ts
    some ([claim], { s with ts := ts, witnessClaims := s.witnessClaims ++ wit })
  | .requant r, .requant proof, [last] => do
    let size ← r.clampingSize
    let (c, csc) ← s.challenge (.clamping size)
    let (claim, wit, ts) ← verifyRequant T e.p e.bl r last proof c csc s.ts
    some ([claim], { s with ts := ts, witnessClaims := s.witnessClaims ++ wit })
  | .pooling n, .pooling proof, [last] => do
    let (c, csc) ← s.challenge .range
    let (claim, wit, ts) ← verifyPooling T n last proof c csc s.ts
    some ([claim], { s with ts := ts, witnessClaims := s.witnessClaims ++ wit })
  | .conv id layer _, .conv proof, [last] =>
    match sh with
    | [(u, pd)] => do
      let ctx ← layer.verifyCtx
      let (claim, fc, bc, ts) ← verifyConv T e.adicity e.root ctx u pd last proof s.ts
      some ([claim], { s with ts := ts, modelClaims := s.modelClaims ++ [(id, "ConvFilter", fc), (id, "ConvBias", bc)] })
    | _ => none
  | _, _, _ => none

/-- `get_lookup_data`, layers/mod.rs:779-809. `fractional_outputs` panics on circuits with less than four outputs, which the verification of the lookup rejects: no fractions then. -/
def netLookupData : NetProof F C → List (F × F)
  | .dense _ => []
  | .conv _ => []
  | .activation proof => (fractionalOutputs proof.lookup.circuitOutputs).getD []
  | .pooling proof => (fractionalOutputs proof.lookup.circuitOutputs).getD []
  | .requant proof => (fractionalOutputs proof.clampingLookup.circuitOutputs).getD [] ++ (fractionalOutputs proof.shiftedLookup.circuitOutputs).getD []

/-! ### Table proofs -/

/-- One step of the loop of `prove_tables`, iop/prover.rs:114-157, with the multiplicities of context.rs:694-716. The tables here have no committed column. -/
def netProveTable (e : NetEnv F C CP T) (lookups : List (TableType × List (List ℤ))) (t : TableType) (s : NetState T.State F C) : Option (NetTableProof F C × NetState T.State F C) :=
  if hasTableClaim t then none else do
    let mult : List F := multiplicities (mergedColumn e.contents e.bl t) ((rowsOf lookups t).map mergeRow)
    let (c, csc) ← s.challenge t
    let input ← LogUpInput.newTable (tableColumns e.p e.contents e.bl t) mult c csc
    let (proof, ts) ← batchProve e.threads T input s.ts
    let c0 ← proof.outputClaims[0]?
    some (⟨e.commit mult, proof⟩, { s with ts := ts, witnessClaims := s.witnessClaims ++ [(e.commit mult, c0)] })

/-- `prove_tables`, iop/prover.rs:110-157. -/
def netProveTables (e : NetEnv F C CP T) (lookups : List (TableType × List (List ℤ))) : List TableType → NetState T.State F C → Option (List (NetTableProof F C) × NetState T.State F C)
  | [], s => some ([], s)
  | t :: rest, s => do
    let r ← netProveTable e lookups t s
    let rs ← netProveTables e lookups rest r.2
    some (r.1 :: rs.1, rs.2)

/-- `verify_table`, iop/verifier.rs:318-384, called at lines 217-236. The tables here have no committed column. -/
def netVerifyTable (e : NetEnv F C CP T) (t : TableType) (tp : NetTableProof F C) (s : NetState T.State F C) : Option (NetState T.State F C) :=
  if hasTableClaim t then none else do
    let (c, csc) ← s.challenge t
    let (claims, _, ts) ← verifyLogup T tp.lookup 1 c csc s.ts
    let c0 ← claims[0]?
    let _ ← verifyTableClaims e.p e.bl t c0.point (claims.map Claim.eval)
    some { s with ts := ts, witnessClaims := s.witnessClaims ++ [(tp.commit, c0)] }

/-! ### The whole -/

/-- The verifier of such networks. -/
def netVerifier (e : NetEnv F C CP T) (g : Graph NetLayer) (shapes : NetLayer → List (List ℕ × List ℕ) → List (List ℕ × List ℕ)) :
    VerifierApi NetLayer (NetProof F C) TableType (NetTableProof F C) CP (NetState T.State F C) F where
  kind := NetLayer.kind
  shapes := shapes
  verify := fun l proof claims sh _ s => netVerify e l proof claims sh s
  lookupData := netLookupData
  embeddingsCheck := fun _ _ _ => false
  draw := fun s n => ((T.sampleN n s.ts).1, { s with ts := (T.sampleN n s.ts).2 })
  start := fun s => some (netStart e (ctxTables e.order g).isEmpty (ctxTables e.order g) s)
  tables := ctxTables e.order g
  verifyTable := netVerifyTable e
  tableData := fun tp => (fractionalOutputs tp.lookup.circuitOutputs).getD []
  opening := fun cp s => e.verifyAll s.modelClaims s.witnessClaims cp s.ts

/-- The prover of such networks for an inference with the given inputs and outputs of the nodes. -/
def netProver (e : NetEnv F C CP T) (g : Graph NetLayer) (trace : ℕ → List (Tensor ℤ) × List (Tensor ℤ)) :
    ProverApi NetLayer (NetProof F C) (NetTableProof F C) CP (NetState T.State F C) F where
  kind := NetLayer.kind
  prove := fun l id ins _ claims s => netProve e trace l id ins claims s
  draw := fun s n => ((T.sampleN n s.ts).1, { s with ts := (T.sampleN n s.ts).2 })
  start := fun s =>
    if (ctxTables e.order g).isEmpty then some (netStart e true [] s)
    else (netLookups e.bl g trace).map fun l => netStart e false (usedTables e.order l) s
  tables := fun s =>
    if (ctxTables e.order g).isEmpty then some ([], s)
    else (netLookups e.bl g trace).bind fun l => netProveTables e l (usedTables e.order l) s
  opening := fun s => e.openAll s.modelClaims s.witnessClaims s.ts

end

end Model
