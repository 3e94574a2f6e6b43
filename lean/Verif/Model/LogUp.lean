import Verif.Model.Slices
import Verif.Model.Eq
import Verif.Model.Layers
import Verif.Model.Terms
import Verif.Model.Tables

/-!
Model of the lookup argument: zkml/src/lookup/logup_gkr/{circuit,structs,verifier,prover}.rs, the multiplicities of
zkml/src/lookup/context.rs and the lookup part of zkml/src/iop/verifier.rs.

`none` stands for a panic or an error. Columns are given as extension field elements (the code stores base field
elements and embeds them).
-/

namespace Model

variable {F : Type} [Field F] [DecidableEq F]

/-! ### The circuit, circuit.rs -/

/-- `LogUpLayer`, circuit.rs:15-31. -/
inductive LogUpLayer (F : Type) where
  | generic (num den : List F)
  | initialTable (num den : List F)
  | initialLookup (den : List F)
deriving DecidableEq

/-- The denominators of a layer. -/
def LogUpLayer.den : LogUpLayer F → List F
  | .generic _ d | .initialTable _ d | .initialLookup d => d

/-- `LogUpLayer::num_vars`, circuit.rs:35-42; `ceil_log2(0)` panics. -/
def LogUpLayer.numVars (l : LogUpLayer F) : Option ℕ := ceilLog2 (l.den.length / 2)

/-- `slice::split_at`, which panics when the index is out of bounds. -/
def splitAt? (k : ℕ) (l : List F) : Option (List F × List F) :=
  if k ≤ l.length then some (l.take k, l.drop k) else none

/-- Addition of `Fraction`s, structs.rs:44-74. -/
def fracAdd (a b : F × F) : F × F := (a.1 * b.2 + a.2 * b.1, a.2 * b.2)

/-- `LogUpLayer::next_layer`, circuit.rs:50-100: `none` is a panic, `some none` the end of the circuit. -/
def LogUpLayer.next (l : LogUpLayer F) : Option (Option (LogUpLayer F)) := do
  let nv ← l.numVars
  if nv = 0 then some none
  else
    match l with
    | .generic num den | .initialTable num den => do
      let (n1, n2) ← splitAt? (2 ^ nv) num
      let (d1, d2) ← splitAt? (2 ^ nv) den
      let fr := List.zipWith fracAdd (n1.zip d1) (n2.zip d2)
      some (some (.generic (fr.map Prod.fst) (fr.map Prod.snd)))
    | .initialLookup den => do
      let (d1, d2) ← splitAt? (2 ^ nv) den
      let fr := List.zipWith (fun a b => fracAdd (-1, a) (-1, b)) d1 d2
      some (some (.generic (fr.map Prod.fst) (fr.map Prod.snd)))

/-- `LogUpCircuit::new`, circuit.rs:192-196, `iter::successors` with fuel: a layer is always longer than the next one, so
the length of the first one is enough. -/
def circuitLayers : ℕ → LogUpLayer F → Option (List (LogUpLayer F))
  | 0, _ => none
  | fuel + 1, l => do
    match ← l.next with
    | none => some [l]
    | some l' => do
      let rest ← circuitLayers fuel l'
      some (l :: rest)

/-- `LogUpCircuit::new`. -/
def circuit (l : LogUpLayer F) : Option (List (LogUpLayer F)) := circuitLayers l.den.length l

/-- `flat_evals`, circuit.rs:119-131. -/
def LogUpLayer.flat : LogUpLayer F → List F
  | .generic n d | .initialTable n d => n ++ d
  | .initialLookup d => d

/-- `LogUpCircuit::outputs`, circuit.rs:273-275. -/
def circuitOutputs (l : LogUpLayer F) : Option (List F) := do
  let ls ← circuit l
  let last ← ls.getLast?
  some last.flat

/-- The merged denominators, circuit.rs:216-236 and 254-275: entry `i` is `constant + Σ_j csc^j · col_j[i]`; a column that
is too short panics. -/
def mergedDen (cols : List (List F)) (constant csc : F) : Option (List F) :=
  match cols with
  | [] => none
  | c :: _ => (List.range c.length).mapM fun i =>
      (cols.zip ((List.range cols.length).map fun (j : ℕ) => csc ^ j)).foldlM
        (fun acc cj => do
          let x ← cj.1[i]?
          some (acc + cj.2 * x)) constant

/-- The first layer of `new_lookup_circuit`, circuit.rs:202-229. -/
def lookupLayer (cols : List (List F)) (constant csc : F) : Option (LogUpLayer F) := do
  let den ← mergedDen cols constant csc
  some (.initialLookup den)

/-- The first layer of `new_table_circuit`, circuit.rs:236-270. -/
def tableLayer (cols : List (List F)) (mult : List F) (constant csc : F) : Option (LogUpLayer F) := do
  let den ← mergedDen cols constant csc
  some (.initialTable mult den)

/-! ### Outputs and the final test -/

/-- Indexing the first four entries. -/
def quad (e : List F) : Option (F × F × F × F) := do
  let e0 ← e[0]?
  let e1 ← e[1]?
  let e2 ← e[2]?
  let e3 ← e[3]?
  some (e0, e1, e2, e3)

/-- `LogUpProof::fractional_outputs`, structs.rs:328-338, as a list of pairs. -/
def fractionalOutputs (outs : List (List F)) : Option (List (F × F)) :=
  outs.mapM fun e => do
    let (e0, e1, e2, e3) ← quad e
    some (e0 * e3 + e1 * e2, e2 * e3)

/-- Step 8 of `Verifier::verify`, iop/verifier.rs:274-291. -/
def finalCheck (fr : List (F × F)) : Bool :=
  let r := fr.foldl (fun acc nd => (acc.1 * nd.2 + nd.1 * acc.2, acc.2 * nd.2)) (0, 1)
  r.1 == 0 && r.2 != 0

/-- The circuits of all lookups (columns and column challenge of each) and of all tables (columns, multiplicities and
column challenge of each), which share the constant challenge, followed by `fractional_outputs` and the final test:
structs.rs:206-236, 277-287, iop/verifier.rs:274-291. -/
def lookupTest (lookups : List (List (List F) × F)) (tables : List (List (List F) × List F × F)) (constant : F) :
    Option Bool := do
  let ls ← lookups.mapM fun x => lookupLayer x.1 constant x.2
  let ts ← tables.mapM fun x => tableLayer x.1 x.2.1 constant x.2.2
  let outs ← (ls ++ ts).mapM circuitOutputs
  let fr ← fractionalOutputs outs
  some (finalCheck fr)

/-- The multiplicities of `generate_lookup_witnesses`, context.rs:690-713: `tableKeys` is the merged table column and
`lookupKeys` lists all merged values looked up in this table (the code keeps a map with their counts). -/
def multiplicities (tableKeys lookupKeys : List ℤ) : List F :=
  tableKeys.map fun k =>
    if k ∈ lookupKeys then
      let tableCount := tableKeys.count k
      ((lookupKeys.count k : ℕ) : F) * (if tableCount ≠ 1 then ((tableCount : ℕ) : F)⁻¹ else 1)
    else 0

/-- The columns of rows of integers, embedded entry by entry with `ι` (`to_field`): the columns of the tables,
context.rs:158-290 (`tableColumns`), and of the lookups the layers make, e.g. layers/activation.rs:262-290,
layers/requant.rs:270-300. -/
def intCols (ι : ℤ → F) (w : ℕ) (rows : List (List ℤ)) : List (List F) :=
  (List.range w).map fun j => rows.map fun r => ι (r.getD j 0)

/-! ### Proofs and their verification, verifier.rs -/

/-- `LogUpProof`, structs.rs:313-319; `isTable` is `proof_type == ProofType::Table`. -/
structure LogUpProof (F : Type) where
  sumcheckProofs : List (IOPProof F)
  roundEvals : List (List F)
  outputClaims : List (Claim F)
  circuitOutputs : List (List F)
  isTable : Bool

/-- The folds `(acc + comb * term, comb * alpha)` from `(0, 1)`, e.g. verifier.rs:44-56. -/
def alphaFold (alpha : F) (ts : List F) : F :=
  (ts.foldl (fun s t => (s.1 + s.2 * t, s.2 * alpha)) ((0 : F), (1 : F))).1

/-- Term of one instance in the first claim, verifier.rs:44-56. -/
def outputTerm (b lambda : F) (e : List F) : Option F := do
  let (e0, e1, e2, e3) ← quad e
  some (b * (e1 - e0) + e0 + lambda * (b * (e3 - e2) + e2))

/-- Terms of one instance with four evaluations, verifier.rs:87-100: for the next claim and for the check of the
sumcheck. -/
def roundTerm4 (eq lambda b nextLambda : F) (e : List F) : Option (F × F) := do
  let (e0, e1, e2, e3) ← quad e
  some (b * (e2 - e0) + e0 + nextLambda * (b * (e1 - e3) + e3), eq * (e0 * e1 + e2 * e3 + lambda * e3 * e1))

/-- Terms of one instance with two evaluations, verifier.rs:116-123. -/
def roundTerm2 (eq lambda b : F) (e : List F) : Option (F × F) := do
  let e0 ← e[0]?
  let e1 ← e[1]?
  some (b * (e0 - e1) + e1, eq * (-e1 - e0 + lambda * e0 * e1))

/-- The state of the loop of `verify_logup_proof`. -/
structure LogUpState (F S : Type) where
  claim : F
  alpha : F
  lambda : F
  point : List F
  ts : S
  deriving DecidableEq

/-- The folds over the evaluations of a round, verifier.rs:84-140: next claim and value for the sumcheck. -/
def roundClaims (inst : ℕ) (eq alpha lambda b nextAlpha nextLambda : F) (evals : List F) : Option (F × F) :=
  if inst = 0 then none
  else do
    let terms ← if evals.length / inst = 4 then (chunks 4 evals).mapM (roundTerm4 eq lambda b nextLambda)
      else (chunks 2 evals).mapM (roundTerm2 eq lambda b)
    some (alphaFold nextAlpha (terms.map Prod.fst), alphaFold alpha (terms.map Prod.snd))

/-- One iteration of the loop of `verify_logup_proof`, verifier.rs:60-150. -/
def logupRound (T : Transcript F) (inst i : ℕ) (st : LogUpState F T.State) (sp : IOPProof F) (evals : List F) :
    Option (LogUpState F T.State) := do
  let ts := T.appendExt st.ts st.claim
  let eq := identityEval st.point sp.point
  let (sub, ts) ← verify T st.claim sp 3 (i + 1) ts
  let (b, ts) := T.labelled ts "logup_batching"
  let (nextAlpha, ts) := T.labelled ts "logup_alpha"
  let (nextLambda, ts) := T.labelled ts "logup_lambda"
  let (next, sc) ← roundClaims inst eq st.alpha st.lambda b nextAlpha nextLambda evals
  if sc = sub.expected then some ⟨next, nextAlpha, nextLambda, sub.point ++ [b], ts⟩ else none

/-- The loop of `verify_logup_proof`. -/
def logupRounds (T : Transcript F) (inst : ℕ) :
    ℕ → List (IOPProof F × List F) → LogUpState F T.State → Option (LogUpState F T.State)
  | _, [], st => some st
  | i, (sp, evals) :: rest, st => do
    let st' ← logupRound T inst i st sp evals
    logupRounds T inst (i + 1) rest st'

/-- The inner fold of `calculate_final_eval`, verifier.rs:181-190, 198-207. -/
def columnsEval (constant csc : F) (evals : List F) : F :=
  (evals.foldl (fun s e => (s.1 + e * s.2, s.2 * csc)) (constant, (1 : F))).1

/-- `calculate_final_eval`, verifier.rs:165-211. -/
def finalEval (isTable : Bool) (claims : List (Claim F)) (constant csc alpha lambda : F) (inst : ℕ) : Option F :=
  if isTable then
    match claims with
    | [] => none
    | m :: cols => some (m.eval + lambda * columnsEval constant csc (cols.map Claim.eval))
  else if inst = 0 ∨ claims.length / inst = 0 then none
  else some (alphaFold alpha ((chunks (claims.length / inst) claims).map fun c =>
    columnsEval constant csc (c.map Claim.eval)))

/-- The first steps of `verify_logup_proof`, verifier.rs:24-58. Appending the number of instances as a base field element
is `appendUsize`. -/
def logupInit (T : Transcript F) (inst : ℕ) (outs : List (List F)) (ts : T.State) : Option (LogUpState F T.State) := do
  let ts := T.appendUsize ts inst
  let ts := outs.foldl T.appendExts ts
  let (b, ts) := T.labelled ts "initial_batching"
  let (alpha, ts) := T.labelled ts "initial_alpha"
  let (lambda, ts) := T.labelled ts "initial_lambda"
  let terms ← outs.mapM (outputTerm b lambda)
  some ⟨alphaFold alpha terms, alpha, lambda, [b], ts⟩

/-- `verify_logup_proof`, verifier.rs:16-160: the claims, the fractions of the circuits, and the transcript. -/
def verifyLogup (T : Transcript F) (proof : LogUpProof F) (inst : ℕ) (constant csc : F) (ts : T.State) :
    Option (List (Claim F) × List (F × F) × T.State) := do
  let fr ← fractionalOutputs proof.circuitOutputs
  let st ← logupInit T inst proof.circuitOutputs ts
  let st ← logupRounds T inst 0 (proof.sumcheckProofs.zip proof.roundEvals) st
  let e ← finalEval proof.isTable proof.outputClaims constant csc st.alpha st.lambda inst
  if e = st.claim then some (proof.outputClaims, fr, st.ts) else none

/-- The lookup part of `Verifier::verify`, iop/verifier.rs:96-106, 220-245, 276-297: the fractions of the node proofs
(`nodeFr`) and of all table proofs are collected, the table proofs are verified by `verifyOne` against the tables of
the context they are zipped with, and the sum of all fractions is tested. -/
def verifyLookups {P Tb S : Type} (outputsOf : P → List (List F)) (verifyOne : P → Tb → S → Option S)
    (nodeFr : List (F × F)) (tableProofs : List P) (tables : List Tb) (s : S) : Option S := do
  let tableFr ← tableProofs.mapM fun p => fractionalOutputs (outputsOf p)
  let s ← (tableProofs.zip tables).foldlM (fun s pt => verifyOne pt.1 pt.2 s) s
  if finalCheck (nodeFr ++ tableFr.flatten) then some s else none

end Model
