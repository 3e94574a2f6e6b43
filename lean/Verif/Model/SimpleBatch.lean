import Verif.Model.BasefoldBatch

/-!
Committing to several polynomials at once and opening all of them at one point: `batch_commit`, `simple_batch_open` and `simple_batch_verify` of `mpcs/src/basefold.rs`, `simple_batch_commit_phase` of
`mpcs/src/basefold/commit_phase.rs` and the queries of kind `SimpleBatched` of `mpcs/src/basefold/query_phase.rs`. The simplifications are those of `Model/Basefold.lean`: the committed polynomials are over the
extension field.
-/

namespace Model

variable {B E D : Type}

/-- `SimpleBatchSingleQueryResultWithMerklePath`, query_phase.rs:1432-1439, with `SimpleBatchCommitmentSingleQueryResult`, 1328-1334, and `SimpleBatchLeavesPair`, 560-566. -/
structure SbQuery (B E D : Type) where
  oracle : List (CodeQuery B E D)
  leaves : FieldType (B × B) (E × E)
  index : ℕ
  path : List D

/-- `BasefoldProof`, structure.rs:334-345, with a query result of kind `SimpleBatched`. -/
structure SbProof (B E D : Type) where
  messages : List (List E)
  roots : List D
  finalMessage : List E
  queries : List (ℕ × SbQuery B E D)
  trivial : List (FieldType B E)

/-- `BasefoldCommitmentWithWitness`, structure.rs:63-72; `num_polys` is the length of `bhEvals`. -/
structure SbCommitted (B E D : Type) where
  tree : MerkleTree B E D
  bhEvals : List (List E)
  numVars : ℕ

variable [Field E] [DecidableEq E] [DecidableEq D]

/-- `get_poly_bh_evals_and_codeword` above the size of the base code, basefold.rs:107-153. -/
def bhEvalsCodeword (S : CodeScheme E) (evals : List E) : Option (List E × List E) := do
  let message ← bfMessage S evals
  let codeword ← S.encode message
  let bhEvals ← reverseIndexBits evals
  let codeword ← reverseIndexBits codeword
  some (bhEvals, codeword)

/-- `batch_commit`, basefold.rs:356-446. -/
def sbCommit (S : CodeScheme E) (H : MerkleHasher B E D) (polys : List (Mle E)) : Option (SbCommitted B E D) := do
  let first ← polys.head?
  if polys.all (fun p => p.numVars = first.numVars) then
    if S.maxLog < first.numVars then none
    else if first.numVars ≤ S.basecodeLog then do
      let tree ← MerkleTree.fromBatchLeaves H (polys.map fun p => .ext p.evals)
      some ⟨tree, polys.map fun p => p.evals, first.numVars⟩
    else do
      let r ← polys.mapM fun p => bhEvalsCodeword S p.evals
      let tree ← MerkleTree.fromBatchLeaves H (r.map fun x => .ext x.2)
      some ⟨tree, r.map fun x => x.1, first.numVars⟩
  else none

/-- `batch_leaves`, merkle_tree.rs:92-103, and the same sum over the tables, commit_phase.rs:389-399: entry by entry the sum of the tables weighted with the coefficients. -/
def sbWeightedSum (coeffs : List E) (size : ℕ) (tables : List (FieldType B E)) : Option (List E) :=
  (List.range size).mapM fun i => do
    let xs ← tables.mapM fun t => t.indexExt i
    some (List.zipWith (· * ·) xs coeffs).sum

/-- `simple_batch_commit_phase`, commit_phase.rs:363-499; the loop is that of `commit_phase`. -/
def sbCommitPhase (S : CodeScheme E) (env : BfEnv B E D) (point coeffs : List E) (comm : SbCommitted B E D) (numVars rounds : ℕ) (ts : env.T.State) :
    Option (CommitPhase B E D env.T.State) :=
  if point.length = numVars ∧ comm.bhEvals.length = coeffs.length then do
    let first ← comm.tree.leaves.head?
    let oracle ← sbWeightedSum coeffs first.len comm.tree.leaves
    let evals ← sbWeightedSum coeffs (2 ^ numVars) (comm.bhEvals.map fun l => (.ext l : FieldType B E))
    let eq ← reverseIndexBits (buildEq point)
    let p ← bfFirstRound eq evals
    bfCommitLoop S env rounds p.1 p.2.1 oracle p.2.2 ts
  else none

/-- `simple_batch_basefold_get_query`, query_phase.rs:474-535, and `from_single_query_result`, 1446-1464. -/
def sbGetQuery (comm : SbCommitted B E D) (trees : List (MerkleTree B E D)) (index : ℕ) : Option (ℕ × SbQuery B E D) := do
  let p1 := index ||| 1
  let p0 := p1 - 1
  let left ← comm.tree.leaves.mapM fun t => t.indexExt p0
  let right ← comm.tree.leaves.mapM fun t => t.indexExt p1
  let path ← comm.tree.path p0
  let oracle ← bfGetOracle trees (index >>> 1)
  some (index, ⟨oracle, .ext (left.zip right), p0, path⟩)

/-- The coefficients of the batch, `eq_xt`, basefold.rs:806-818 and 1138-1147, with the transcript. -/
def sbCoeffs (T : Transcript E) (n : ℕ) (ts : T.State) : List E × T.State :=
  let t := sampleBatch T (batchSizeLog n) ts
  ((buildEq t.1).take n, t.2)

/-- `simple_batch_open`, basefold.rs:777-861. -/
def sbOpen (S : CodeScheme E) (env : BfEnv B E D) (polys : List (Mle E)) (comm : SbCommitted B E D) (point evals : List E) (ts : env.T.State) :
    Option (SbProof B E D × env.T.State) := do
  let first ← polys.head?
  if comm.numVars ≤ S.basecodeLog then some (⟨[], [], [], [], comm.bhEvals.map fun l => .ext l⟩, ts)
  else if polys.all (fun p => p.numVars = first.numVars) ∧ comm.bhEvals.length = polys.length ∧ comm.bhEvals.length = evals.length then do
    let c := sbCoeffs env.T evals.length ts
    let rounds ← checkedSub first.numVars S.basecodeLog
    let cp ← sbCommitPhase S env point c.1 comm first.numVars rounds c.2
    let r := bfSampleQueries env.T S.numQueries cp.ts
    let size ← comm.tree.leaves.head?
    let queries ← r.1.mapM fun x => sbGetQuery comm cp.trees (env.toUsize x % size.len)
    some (⟨cp.messages, cp.roots, cp.finalMessage, queries, []⟩, r.2)
  else none

/-- `SimpleBatchLeavesPair::batch`, query_phase.rs:583-600; more pairs than coefficients panic. -/
def batchPair (embed : B → E) (coeffs : List E) (leaves : FieldType (B × B) (E × E)) : Option (E × E) :=
  let l := match leaves with
    | .ext l => l
    | .base l => l.map fun x => (embed x.1, embed x.2)
  if l.length ≤ coeffs.length then some ((List.zipWith (fun c x => c * x.1) coeffs l).sum, (List.zipWith (fun c x => c * x.2) coeffs l).sum) else none

/-- `check_merkle_path`, query_phase.rs:1390-1412. -/
def SbQuery.checkPath (H : MerkleHasher B E D) (q : SbQuery B E D) (root : D) : Option Unit := do
  let ok ← match q.leaves with
    | .ext l => authenticateBatch H q.path (.ext (l.map fun x => x.1)) (.ext (l.map fun x => x.2)) q.index root
    | .base l => authenticateBatch H q.path (.base (l.map fun x => x.1)) (.base (l.map fun x => x.2)) q.index root
  if ok then some () else none

/-- `SimpleBatchSingleQueryResultWithMerklePath::check`, query_phase.rs:1467-1530; the loop over the rounds is that of a single query. -/
def SbQuery.check (S : CodeScheme E) (env : BfEnv B E D) (q : SbQuery B E D) (challenges coeffs : List E) (numVars : ℕ) (final : List E) (roots : List D) (root : D) (index : ℕ) :
    Option Unit := do
  checkPaths env.hasher q.oracle roots
  q.checkPath env.hasher root
  let cur ← batchPair env.embed coeffs q.leaves
  queryFold S env.embed numVars final challenges 0 q.oracle (index ||| 1) cur

/-- `SimpleBatchQueriesResultWithMerklePath::check`, query_phase.rs:1582-1612. -/
def sbCheckQueries (S : CodeScheme E) (env : BfEnv B E D) (challenges coeffs : List E) (numVars : ℕ) (final : List E) (roots : List D) (root : D) :
    List (ℕ × SbQuery B E D) → List ℕ → Option Unit
  | q :: qs, index :: indices =>
    if q.1 = index then do
      q.2.check S env challenges coeffs numVars final roots root q.1
      sbCheckQueries S env challenges coeffs numVars final roots root qs indices
    else none
  | _, _ => some ()

/-- `simple_batch_verifier_query_phase`, query_phase.rs:292-371. -/
def sbQueryPhase (S : CodeScheme E) (env : BfEnv B E D) (indices : List ℕ) (proof : SbProof B E D) (challenges coeffs : List E) (numVars : ℕ) (root : D) (partialEq evals : List E) :
    Option Unit := do
  let codeword ← bfFinalCodeword S proof.finalMessage
  sbCheckQueries S env challenges coeffs numVars codeword proof.roots root proof.queries indices
  let claim ← innerProduct coeffs evals
  let final ← innerProduct proof.finalMessage partialEq
  sumcheckEquations proof.messages challenges claim final

/-- `simple_batch_verify`, basefold.rs:1100-1202: the transcript when it accepts. -/
def sbVerify (S : CodeScheme E) (env : BfEnv B E D) (root : D) (commVars commPolys : Option ℕ) (point evals : List E) (proof : SbProof B E D) (ts : env.T.State) : Option env.T.State :=
  if commPolys = none ∨ commPolys = some evals.length then
    if proof.trivial ≠ [] then do
      let tree ← MerkleTree.fromBatchLeaves env.hasher proof.trivial
      let r ← tree.root
      if root = r then some ts else none
    else if commVars = none ∨ commVars = some point.length then do
      let rounds ← checkedSub point.length S.basecodeLog
      let b := sbCoeffs env.T evals.length ts
      let c ← bfChallenges env rounds proof.messages proof.roots b.2
      let ts := env.T.appendExts c.2 proof.finalMessage
      let r := bfSampleQueries env.T S.numQueries ts
      let indices := r.1.map fun x => env.toUsize x % 2 ^ (point.length + S.rateLog)
      let coeff ← eqXYEval (point.drop (point.length - c.1.length)) c.1.reverse
      let partialEq := (buildEq (point.take (point.length - c.1.length))).map (· * coeff)
      sbQueryPhase S env indices proof c.1 b.1 point.length root partialEq evals
      some r.2
    else none
  else none

end Model
