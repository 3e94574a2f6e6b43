import Verif.Model.Encoding
import Verif.Model.Eq
import Verif.Model.Sumcheck

/-!
Opening one polynomial of the commitment scheme: `mpcs/src/basefold.rs` (`commit`, `open`, `verify`), `mpcs/src/basefold/commit_phase.rs`
(`commit_phase`), `mpcs/src/basefold/sumcheck.rs` and `mpcs/src/basefold/query_phase.rs` (single queries).

Simplifications: the polynomial that is committed is over the extension field `E` (over the base field `B` the code runs the same steps and
embeds). Proof objects may contain elements of both fields, as in the code. Timers are dropped, parallel iterators are sequential, panics
and errors are `none`. `digest_to_transcript` and `ext_to_usize` are parameters.
-/

namespace Model

variable {B E D : Type}

/-! ### sumcheck.rs -/

section Sumcheck

variable {F : Type} [Field F]

/-- `one_level_interp_hc`, sumcheck.rs:43-50. -/
def oneLevelInterp (evals : List F) : Option (List F) :=
  if evals.length = 1 then some evals
  else do
    let cs ← (chunks 2 evals).mapM pairDiff
    some cs.flatten

/-- `one_level_eval_hc`, sumcheck.rs:52-57. -/
def oneLevelEval (evals : List F) (c : F) : Option (List F) :=
  (chunks 2 evals).mapM fun chunk => do
    let a ← chunk[0]?
    let b ← chunk[1]?
    some (a + c * b)

/-- The accumulation over pairs of chunks, sumcheck.rs:77-91. -/
def piFold : List (List F) → List (List F) → F × F × F → Option (F × F × F)
  | [a0, a1] :: as, [b0, b1] :: bs, acc =>
    piFold as bs (acc.1 + a0 * b0, acc.2.1 + (a1 * b0 + a0 * b1), acc.2.2 + a1 * b1)
  | [], _, acc => some acc
  | _, [], acc => some acc
  | _, _, _ => none

/-- `parallel_pi`, sumcheck.rs:67-93; the `fold`/`reduce` of rayon is a sequential fold. -/
def parallelPi (evals eq : List F) : Option (List F) :=
  if evals.length = 1 then do
    let e ← evals[0]?
    some [e, e, e]
  else do
    let r ← piFold (chunks 2 evals) (chunks 2 eq) (0, 0, 0)
    some [r.1, r.2.1, r.2.2]

/-- `sum_check_first_round`, sumcheck.rs:22-33: the new `eq` and values, and the message. -/
def bfFirstRound (eq evals : List F) : Option (List F × List F × List F) := do
  let eq ← oneLevelInterp eq
  let evals ← oneLevelInterp evals
  let msg ← parallelPi evals eq
  some (eq, evals, msg)

/-- `sum_check_last_round`, sumcheck.rs:149-152. -/
def bfLastRound (eq evals : List F) (c : F) : Option (List F × List F) := do
  let evals ← oneLevelEval evals c
  let eq ← oneLevelEval eq c
  some (eq, evals)

/-- `sum_check_challenge_round`, sumcheck.rs:130-147. -/
def bfChallengeRound (eq evals : List F) (c : F) : Option (List F × List F × List F) := do
  let p ← bfLastRound eq evals c
  bfFirstRound p.1 p.2

/-- `degree_2_zero_plus_one`, arithmetic.rs:144-146. -/
def degree2ZeroPlusOne (poly : List F) : Option F := do
  let a ← poly[0]?
  let b ← poly[1]?
  let c ← poly[2]?
  some (a + a + b + c)

/-- `degree_2_eval`, arithmetic.rs:148-150. -/
def degree2Eval (poly : List F) (x : F) : Option F := do
  let a ← poly[0]?
  let b ← poly[1]?
  let c ← poly[2]?
  some (a + x * b + x * x * c)

/-- `inner_product`, arithmetic.rs:69-78: `zip_eq` panics on different lengths. -/
def innerProduct (a b : List F) : Option F :=
  if a.length = b.length then some (List.zipWith (· * ·) a b).sum else none

/-- `build_eq_x_r_vec`, virtual_poly.rs:414-452. It does not depend on the thread count nor on the uninitialised memory (C04), so the
sequential version on zeroed memory stands for it. -/
def buildEq (r : List F) : List F := buildEqSeq r (List.replicate (2 ^ r.length) 0)

end Sumcheck

/-! ### Proof objects -/

/-- `CodewordPointPair`, query_phase.rs:541-544. -/
inductive PointPair (B E : Type) where
  | ext : E → E → PointPair B E
  | base : B → B → PointPair B E

/-- `CodewordSingleQueryResultWithMerklePath`, query_phase.rs:655-661, with `CodewordSingleQueryResult`, 603-613. -/
structure CodeQuery (B E D : Type) where
  points : PointPair B E
  index : ℕ
  path : List D

/-- `SingleQueryResultWithMerklePath`, query_phase.rs:879-886. -/
structure SingleQuery (B E D : Type) where
  oracle : List (CodeQuery B E D)
  commitment : CodeQuery B E D

/-- `BasefoldProof`, structure.rs:334-345, for the opening of one polynomial: the query result is of kind `Single` and the proof of the
batching sumcheck is absent. -/
structure BfProof (B E D : Type) where
  messages : List (List E)
  roots : List D
  finalMessage : List E
  queries : List (ℕ × SingleQuery B E D)
  trivial : List (FieldType B E)

/-- `BasefoldCommitmentWithWitness`, structure.rs:63-72, for one polynomial over the extension field. -/
structure BfCommitted (B E D : Type) where
  tree : MerkleTree B E D
  bhEvals : List E
  numVars : ℕ

/-- The hash function, the embedding of the base field, the transcript and `ext_to_usize`. -/
structure BfEnv (B E D : Type) where
  hasher : MerkleHasher B E D
  embed : B → E
  T : Transcript E
  appendDigest : T.State → D → T.State
  toUsize : E → ℕ

variable [Field E] [DecidableEq E] [DecidableEq D]

/-! ### Commitment -/

/-- The message that is encoded: coefficients, bit-reversed for codes that fold even and odd positions, basefold.rs:108-134 and
query_phase.rs:161-164. -/
def bfMessage (S : CodeScheme E) (evals : List E) : Option (List E) := do
  let coeffs ← interpolateHypercube evals
  if S.leftRight then some coeffs else reverseIndexBits coeffs

/-- `commit`, basefold.rs:304-354, with `get_poly_bh_evals_and_codeword`, 86-154. -/
def bfCommit (S : CodeScheme E) (H : MerkleHasher B E D) (numVars : ℕ) (evals : List E) : Option (BfCommitted B E D) :=
  if S.maxLog < numVars then none
  else if numVars ≤ S.basecodeLog then do
    let tree ← MerkleTree.fromBatchLeaves H [.ext evals]
    some ⟨tree, evals, numVars⟩
  else do
    let message ← bfMessage S evals
    let codeword ← S.encode message
    let bhEvals ← reverseIndexBits evals
    let codeword ← reverseIndexBits codeword
    let tree ← MerkleTree.fromBatchLeaves H [.ext codeword]
    some ⟨tree, bhEvals, numVars⟩

/-! ### Opening -/

/-- What `commit_phase` returns, with the transcript. -/
structure CommitPhase (B E D : Type) (State : Type) where
  messages : List (List E)
  roots : List D
  trees : List (MerkleTree B E D)
  finalMessage : List E
  ts : State

/-- The last iteration of the loop of `commit_phase`, commit_phase.rs:83-106, 131-146. -/
def bfLastStep (S : CodeScheme E) (env : BfEnv B E D) (eq evals oracle last : List E) (ts : env.T.State) :
    Option (CommitPhase B E D env.T.State) := do
  let ts := env.T.appendExts ts last
  let c := env.T.labelled ts "commit round"
  let _ ← foldCodeword S oracle c.1
  let p ← bfLastRound eq evals c.1
  let final ← reverseIndexBits p.2
  some ⟨[last], [], [], final, env.T.appendExts c.2 final⟩

/-- The loop of `commit_phase`, commit_phase.rs:83-171; `rounds` iterations are left. The tree of the new oracle is pushed when its root is
computed; the code pushes it in the next iteration. With no round the code panics (`num_rounds - 1`, line 79). -/
def bfCommitLoop (S : CodeScheme E) (env : BfEnv B E D) : (rounds : ℕ) → (eq evals oracle last : List E) → env.T.State →
    Option (CommitPhase B E D env.T.State)
  | 0, _, _, _, _, _ => none
  | 1, eq, evals, oracle, last, ts => bfLastStep S env eq evals oracle last ts
  | rounds + 2, eq, evals, oracle, last, ts => do
    let c := env.T.labelled (env.T.appendExts ts last) "commit round"
    let oracle ← foldCodeword S oracle c.1
    let p ← bfChallengeRound eq evals c.1
    let tree ← MerkleTree.fromBatchLeaves env.hasher [.ext oracle]
    let root ← tree.root
    let rest ← bfCommitLoop S env (rounds + 1) p.1 p.2.1 oracle p.2.2 (env.appendDigest c.2 root)
    some ⟨last :: rest.messages, root :: rest.roots, tree :: rest.trees, rest.finalMessage, rest.ts⟩

/-- The codeword of a commitment, `get_codewords()[0]`. -/
def BfCommitted.codeword (comm : BfCommitted B E D) : Option (List E) :=
  match comm.tree.leaves with
  | .ext l :: _ => some l
  | _ => none

/-- `commit_phase`, commit_phase.rs:30-183. -/
def bfCommitPhase (S : CodeScheme E) (env : BfEnv B E D) (point : List E) (comm : BfCommitted B E D) (rounds : ℕ) (ts : env.T.State) :
    Option (CommitPhase B E D env.T.State) := do
  let oracle ← comm.codeword
  let eq ← reverseIndexBits (buildEq point)
  let p ← bfFirstRound eq comm.bhEvals
  bfCommitLoop S env rounds p.1 p.2.1 oracle p.2.2 ts

/-- The pair of neighbours of position `index` in a tree, with its path: query_phase.rs:381-394, 400-408 and 895-911. -/
def bfGetPair (tree : MerkleTree B E D) (index : ℕ) : Option (CodeQuery B E D) := do
  let p1 := index ||| 1
  let p0 := p1 - 1
  let leaves ← match tree.leaves with
    | .ext l :: _ => some l
    | _ => none
  let a ← leaves[p0]?
  let b ← leaves[p1]?
  let path ← tree.path p0
  some ⟨.ext a b, p0, path⟩

/-- The loop over the trees, query_phase.rs:398-409. -/
def bfGetOracle : List (MerkleTree B E D) → ℕ → Option (List (CodeQuery B E D))
  | [], _ => some []
  | tree :: trees, index => do
    let q ← bfGetPair tree index
    let qs ← bfGetOracle trees (index >>> 1)
    some (q :: qs)

/-- `basefold_get_query`, query_phase.rs:373-417, and `from_single_query_result`, 887-912. -/
def bfGetQuery (comm : BfCommitted B E D) (trees : List (MerkleTree B E D)) (index : ℕ) : Option (ℕ × SingleQuery B E D) := do
  let q ← bfGetPair comm.tree index
  let qs ← bfGetOracle trees (index >>> 1)
  some (index, ⟨qs, q⟩)

/-- The challenges labelled `query indices`. -/
def bfSampleQueries (T : Transcript E) : ℕ → T.State → List E × T.State
  | 0, ts => ([], ts)
  | n + 1, ts =>
    let c := T.labelled ts "query indices"
    let r := bfSampleQueries T n c.2
    (c.1 :: r.1, r.2)

/-- `open`, basefold.rs:466-539. -/
def bfOpen (S : CodeScheme E) (env : BfEnv B E D) (evals : List E) (numVars : ℕ) (comm : BfCommitted B E D) (point : List E)
    (ts : env.T.State) : Option (BfProof B E D × env.T.State) :=
  if comm.numVars ≤ S.basecodeLog then some (⟨[], [], [], [], [.ext evals]⟩, ts)
  else do
    let rounds ← checkedSub numVars S.basecodeLog
    let cp ← bfCommitPhase S env point comm rounds ts
    let r := bfSampleQueries env.T S.numQueries cp.ts
    let size ← comm.codeword
    let queries ← r.1.mapM fun x => bfGetQuery comm cp.trees (env.toUsize x % size.length)
    some (⟨cp.messages, cp.roots, cp.finalMessage, queries, []⟩, r.2)

/-! ### Verification -/

/-- `as_ext`, query_phase.rs:546-553. -/
def PointPair.toExt (embed : B → E) : PointPair B E → E × E
  | .ext a b => (a, b)
  | .base a b => (embed a, embed b)

/-- `check_merkle_path`, query_phase.rs:669-690. -/
def CodeQuery.checkPath (H : MerkleHasher B E D) (q : CodeQuery B E D) (root : D) : Option Unit := do
  let ok ← match q.points with
    | .ext a b => authenticate H q.path (.ext [a, b]) q.index root
    | .base a b => authenticate H q.path (.base [a, b]) q.index root
  if ok then some () else none

/-- `check_merkle_paths`, query_phase.rs:848-857. -/
def checkPaths (H : MerkleHasher B E D) : List (CodeQuery B E D) → List D → Option Unit
  | q :: qs, root :: roots => do
    q.checkPath H root
    checkPaths H qs roots
  | _, _ => some ()

/-- The loop of `check`, query_phase.rs:938-973: `i` is the round, `oracle` are the queries from that round on, `right` is `right_index`. -/
def queryFold (S : CodeScheme E) (embed : B → E) (numVars : ℕ) (final : List E) :
    List E → ℕ → List (CodeQuery B E D) → ℕ → E × E → Option Unit
  | [], _, _, _, _ => some ()
  | [c], i, _, right, cur => do
    let left ← checkedSub right 1
    let level ← checkedSub (numVars + S.rateLog) (i + 1)
    let x ← S.verifierCoeffs level (left >>> 1)
    let value ← final[right >>> 1]?
    if interpolate2Weights x.1 cur.1 x.2.1 cur.2 x.2.2 c = value then some () else none
  | c :: c' :: cs, i, oracle, right, cur => do
    let left ← checkedSub right 1
    let level ← checkedSub (numVars + S.rateLog) (i + 1)
    let x ← S.verifierCoeffs level (left >>> 1)
    let q ← oracle.head?
    let next := q.points.toExt embed
    if interpolate2Weights x.1 cur.1 x.2.1 cur.2 x.2.2 c = (if (right >>> 1) &&& 1 = 0 then next.1 else next.2) then
      queryFold S embed numVars final (c' :: cs) (i + 1) oracle.tail ((right >>> 1) ||| 1) next
    else none

/-- `SingleQueryResultWithMerklePath::check`, query_phase.rs:915-975. -/
def SingleQuery.check (S : CodeScheme E) (env : BfEnv B E D) (q : SingleQuery B E D) (challenges : List E) (numVars : ℕ) (final : List E)
    (roots : List D) (root : D) (index : ℕ) : Option Unit := do
  checkPaths env.hasher q.oracle roots
  q.commitment.checkPath env.hasher root
  queryFold S env.embed numVars final challenges 0 q.oracle (index ||| 1) (q.commitment.points.toExt env.embed)

/-- `QueriesResultWithMerklePath::check`, query_phase.rs:1031-1059. -/
def checkQueries (S : CodeScheme E) (env : BfEnv B E D) (challenges : List E) (numVars : ℕ) (final : List E) (roots : List D) (root : D) :
    List (ℕ × SingleQuery B E D) → List ℕ → Option Unit
  | q :: qs, index :: indices =>
    if index = q.1 then do
      q.2.check S env challenges numVars final roots root q.1
      checkQueries S env challenges numVars final roots root qs indices
    else none
  | _, _ => some ()

/-- The sumcheck equations, query_phase.rs:190-209: the claimed sum, then one message and one challenge at a time. -/
def sumcheckEquations : List (List E) → List E → E → E → Option Unit
  | m :: ms, c :: cs, claim, final => do
    let s ← degree2ZeroPlusOne m
    if claim = s then do
      let v ← degree2Eval m c
      match cs with
      | [] => if v = final then some () else none
      | _ => sumcheckEquations ms cs v final
    else none
  | _, _, _, _ => none

/-- The final codeword the verifier computes, query_phase.rs:159-174. -/
def bfFinalCodeword (S : CodeScheme E) (finalMessage : List E) : Option (List E) := do
  let message ← bfMessage S finalMessage
  let codeword ← S.encodeSmall message
  reverseIndexBits codeword

/-- `verifier_query_phase`, query_phase.rs:141-210. -/
def bfQueryPhase (S : CodeScheme E) (env : BfEnv B E D) (indices : List ℕ) (proof : BfProof B E D) (challenges : List E) (numVars : ℕ)
    (root : D) (partialEq : List E) (eval : E) : Option Unit := do
  let codeword ← bfFinalCodeword S proof.finalMessage
  checkQueries S env challenges numVars codeword proof.roots root proof.queries indices
  let final ← innerProduct proof.finalMessage partialEq
  sumcheckEquations proof.messages challenges eval final

/-- The loop over the rounds, basefold.rs:904-918: the challenges and the transcript. -/
def bfChallenges (env : BfEnv B E D) : (rounds : ℕ) → List (List E) → List D → env.T.State → Option (List E × env.T.State)
  | 0, _, _, ts => some ([], ts)
  | 1, messages, _, ts => do
    let m ← messages.head?
    let c := env.T.labelled (env.T.appendExts ts m) "commit round"
    some ([c.1], c.2)
  | rounds + 2, messages, roots, ts => do
    let m ← messages.head?
    let c := env.T.labelled (env.T.appendExts ts m) "commit round"
    let root ← roots.head?
    let r ← bfChallenges env (rounds + 1) messages.tail roots.tail (env.appendDigest c.2 root)
    some (c.1 :: r.1, r.2)

/-- The trivial proof, basefold.rs:873-894. -/
def bfVerifyTrivial (env : BfEnv B E D) (root : D) (point : List E) (eval : E) (trivial : List (FieldType B E)) : Option Unit := do
  let tree ← MerkleTree.fromBatchLeaves env.hasher trivial
  let r ← tree.root
  if root = r then do
    let first ← trivial.head?
    let evals := match first with
      | .ext l => l
      | .base l => l.map env.embed
    let value ← (⟨Nat.log 2 evals.length, evals⟩ : Mle E).evaluate point
    if eval = value then some () else none
  else none

/-- The non-trivial part of `verify`, basefold.rs:896-961. -/
def bfVerifyFull (S : CodeScheme E) (env : BfEnv B E D) (root : D) (commVars : Option ℕ) (point : List E) (eval : E) (proof : BfProof B E D)
    (ts : env.T.State) : Option env.T.State :=
  if commVars = none ∨ commVars = some point.length then do
    let rounds ← checkedSub point.length S.basecodeLog
    let c ← bfChallenges env rounds proof.messages proof.roots ts
    let ts := env.T.appendExts c.2 proof.finalMessage
    let r := bfSampleQueries env.T S.numQueries ts
    let indices := r.1.map fun x => env.toUsize x % 2 ^ (point.length + S.rateLog)
    let coeff ← eqXYEval (point.drop (point.length - c.1.length)) c.1.reverse
    let partialEq := (buildEq (point.take (point.length - c.1.length))).map (· * coeff)
    bfQueryPhase S env indices proof c.1 point.length root partialEq eval
    some r.2
  else none

/-- `verify`, basefold.rs:863-962: the transcript when it accepts. -/
def bfVerify (S : CodeScheme E) (env : BfEnv B E D) (root : D) (commVars : Option ℕ) (point : List E) (eval : E) (proof : BfProof B E D)
    (ts : env.T.State) : Option env.T.State :=
  if proof.trivial ≠ [] then do
    bfVerifyTrivial env root point eval proof.trivial
    some ts
  else bfVerifyFull S env root commVars point eval proof ts

end Model
