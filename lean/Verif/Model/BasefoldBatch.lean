import Verif.Model.Basefold

/-!
Opening many polynomials at many points with one proof: `mpcs/src/basefold.rs` (`batch_open`, `batch_verify`), `mpcs/src/sum_check.rs`,
`mpcs/src/sum_check/classic.rs` and `classic/coeff.rs`, `mpcs/src/basefold/commit_phase.rs` (`batch_commit_phase`) and
`mpcs/src/basefold/query_phase.rs` (batched queries). This is the call the model prover makes, zkml/src/commit/context.rs:408 and 590.

Simplifications, besides those of `Model.Basefold`: the messages of the first sumcheck are lists of elements of the extension field (the code also
reads messages over the base field). The expression handed to that sumcheck is always a sum of products `eq_xy(i) * poly(i) * scalar`, so the
model keeps the list of these products instead of the expression tree. Sums over threads are sequential. The `sanity-check` feature is off.
`1 << (num_vars - len)` is not reduced modulo `2^64`.
-/

namespace Model

variable {B E D : Type}

/-- `Evaluation`, mpcs/src/lib.rs:280-303. -/
structure Evaluation (F : Type) where
  poly : ℕ
  point : ℕ
  value : F
deriving DecidableEq

/-- `BatchedSingleQueryResultWithMerklePath`, query_phase.rs:1080-1087. -/
structure BatchQuery (B E D : Type) where
  oracle : List (CodeQuery B E D)
  commitments : List (CodeQuery B E D)

/-- `BasefoldProof`, structure.rs:334-345, with the query result of kind `Batched`. -/
structure BatchProof (B E D : Type) where
  messages : List (List E)
  roots : List D
  finalMessage : List E
  queries : List (ℕ × BatchQuery B E D)
  sumcheck : Option (List (List E))
  trivial : List (FieldType B E)

/-- `BasefoldCommitment`, structure.rs:161-166: root and number of variables. -/
structure BfCommitment (D : Type) where
  root : D
  numVars : Option ℕ

/-! ### The sumcheck of `sum_check/classic.rs` -/

section Classic

variable {F : Type} [Field F]

/-- A product `eq_xy(i) * poly(i) * scalar` of the expression, with the tables of the prover's state. -/
structure ProductTerm (F : Type) where
  scalar : F
  eq : Mle F
  poly : Mle F

/-- `evaluate_serial`, coeff.rs:281-294, with `LAZY`: the first and the last coefficient. -/
def karatsubaSerial : List F → List F → ℕ → F × F → F × F
  | l0 :: l1 :: ls, r0 :: r1 :: rs, n + 1, acc => karatsubaSerial ls rs n (acc.1 + l0 * r0, acc.2 + (l1 - l0) * (r1 - r0))
  | _, _, _, acc => acc

/-- The number of pairs and how often each is counted, coeff.rs:264-279. -/
def karatsubaSizes (size polyLen : ℕ) : ℕ × ℕ :=
  if size < polyLen ∨ size = 1 then (size, 1)
  else if size = polyLen then (polyLen / 2, 2)
  else (polyLen / 2, if polyLen / 2 ≠ 0 then size / (polyLen / 2) else 1)

/-- `karatsuba::<true>`, coeff.rs:228-339, for a table `lhs` of the `eq` polynomial and a table `rhs`; `size` is `state.size()`. The threads'
partial sums are one sum. -/
def karatsuba (size : ℕ) (lhs rhs : Mle F) : Option (F × F) :=
  if 2 ^ lhs.numVars = 1 then do
    let l ← lhs.evals[0]?
    let r ← rhs.evals[0]?
    some (l * r * size, 0)
  else
    let n := karatsubaSizes size (2 ^ lhs.numVars)
    let r := karatsubaSerial lhs.evals rhs.evals n.1 (0, 0)
    some (r.1 * n.2, r.2 * n.2)

/-- `prove_round`, coeff.rs:194-219: the middle coefficient is computed from the claimed sum. -/
def classicRound (size : ℕ) (sum : F) (terms : List (ProductTerm F)) : Option (List F) := do
  let c ← terms.foldlM (fun (acc : F × F) t => do
    let k ← karatsuba size t.eq t.poly
    some (acc.1 + t.scalar * k.1, acc.2 + t.scalar * k.2)) (0, 0)
  some [c.1, sum - (c.1 + c.1) - c.2, c.2]

/-- Fixing a variable unless the table is constant, classic.rs:108-112, 141-146. -/
def fixUnlessConstant (m : Mle F) (c : F) : Option (Mle F) :=
  if 0 < m.numVars then m.fixVariablesInPlace [c] else some m

/-- The polynomial's table after a round, classic.rs:113-148: in the first round `fix_variables` is called whatever the size. -/
def fixPoly (first : Bool) (m : Mle F) (c : F) : Option (Mle F) :=
  if first then m.fixVariables [c] else fixUnlessConstant m c

/-- `next_round`, classic.rs:98-151. -/
def nextTerm (first : Bool) (c : F) (t : ProductTerm F) : Option (ProductTerm F) := do
  let eq ← fixUnlessConstant t.eq c
  let poly ← fixPoly first t.poly c
  some ⟨t.scalar, eq, poly⟩

/-- The loop of `ClassicSumCheck::prove`, classic.rs:252-279; `rounds` rounds are left. It returns the messages, the challenges and the transcript. -/
def classicLoop (T : Transcript F) : (rounds : ℕ) → Bool → F → List (ProductTerm F) → T.State → Option (List (List F) × List F × T.State)
  | 0, _, _, _, ts => some ([], [], ts)
  | rounds + 1, first, sum, terms, ts => do
    let msg ← classicRound (2 ^ rounds) sum terms
    let c := T.labelled (T.appendExts ts msg) "sumcheck round"
    let terms ← terms.mapM (nextTerm first c.1)
    let r ← classicLoop T rounds false (horner msg c.1) terms c.2
    some (msg :: r.1, c.1 :: r.2.1, r.2.2)

/-- `ClassicSumCheck::prove`, classic.rs:231-286: `ProverState::new` asserts that there is a variable, line 46. -/
def classicProve (T : Transcript F) (numVars : ℕ) (sum : F) (terms : List (ProductTerm F)) (ts : T.State) :
    Option (List (List F) × List F × T.State) :=
  if 0 < numVars then classicLoop T numVars true sum terms ts else none

/-- The transcript part of `ClassicSumCheck::verify`, classic.rs:296-310. -/
def classicChallenges (T : Transcript F) : ℕ → List (List F) → T.State → Option (List F × T.State)
  | 0, _, ts => some ([], ts)
  | n + 1, msgs, ts => do
    let m ← msgs.head?
    let c := T.labelled (T.appendExts ts m) "sumcheck round"
    let r ← classicChallenges T n msgs.tail c.2
    some (c.1 :: r.1, r.2)

/-- `verify_consistency`, classic.rs:197-217, with `sum` and `evaluate`, coeff.rs:54-60: a message is a list of coefficients of any length; an empty one panics at `self[0]`. -/
def classicConsistency [DecidableEq F] : F → List (List F) → List F → Option F
  | sum, m :: ms, c :: cs => do
    let m0 ← m[0]?
    if sum = m0 + m.sum then classicConsistency (horner m c) ms cs else none
  | sum, _, _ => some sum

/-- `ClassicSumCheck::verify`, classic.rs:287-314: the new claim, the challenges and the transcript. The degree is not used. -/
def classicVerify [DecidableEq F] (T : Transcript F) (numVars : ℕ) (sum : F) (msgs : List (List F)) (ts : T.State) :
    Option (F × List F × T.State) := do
  let c ← classicChallenges T numVars msgs ts
  let v ← classicConsistency sum msgs c.1
  some (v, c.1, c.2)

end Classic

variable [Field E] [DecidableEq E] [DecidableEq D]

/-! ### Batching of the claims -/

/-- The challenges labelled `batch coeffs`, basefold.rs:587-593 and 1002-1009. -/
def sampleBatch (T : Transcript E) : ℕ → T.State → List E × T.State
  | 0, ts => ([], ts)
  | n + 1, ts =>
    let c := T.labelled ts "batch coeffs"
    let r := sampleBatch T n c.2
    (c.1 :: r.1, r.2)

/-- `evals.len().next_power_of_two().ilog2()`, basefold.rs:586 and 1001. -/
def batchSizeLog (n : ℕ) : ℕ := Nat.log 2 (nextPow2 n)

/-- `inner_product_three` of values, multiplicities and coefficients, basefold.rs:602-609 and 1013-1020; a point index out of range or a point
longer than `num_vars` panics. -/
def batchTarget (numVars : ℕ) (points : List (List E)) (evals : List (Evaluation E)) (eqXt : List E) : Option E := do
  let terms ← (evals.zip eqXt).mapM fun p => do
    let point ← points[p.1.point]?
    let d ← checkedSub numVars point.length
    some (p.1.value * ((2 ^ d : ℕ) : E) * p.2)
  some terms.sum

/-- `multiply_poly`, util.rs:203-218. -/
def multiplyPoly (m : Mle E) (c : E) : Mle E := ⟨m.numVars, m.evals.map (· * c)⟩

/-- `resize_num_vars`, util.rs:222-246: the values are repeated. -/
def resizeNumVars (m : Mle E) (n : ℕ) : Option (Mle E) := do
  let evals ← (List.range (2 ^ n)).mapM fun i => m.evals[i &&& (2 ^ m.numVars - 1)]?
  some ⟨n, evals⟩

/-- `add_polynomial_with_coeff`, util.rs:248-319. -/
def addPolynomialWithCoeff (lhs rhs : Mle E) (c : E) : Option (Mle E) :=
  if rhs.numVars = 0 then some lhs
  else if lhs.numVars = 0 then some (multiplyPoly rhs c)
  else do
    let lhs ← if lhs.numVars < rhs.numVars then resizeNumVars lhs rhs.numVars else some lhs
    let evals ← lhs.evals.zipIdx.mapM fun p => do
      let r ← rhs.evals[if rhs.numVars < lhs.numVars then p.2 &&& (2 ^ rhs.numVars - 1) else p.2]?
      some (p.1 + c * r)
    some ⟨lhs.numVars, evals⟩

/-- The accumulator of a point with another polynomial added, basefold.rs:618-643; `num_vars == 0` marks an accumulator without polynomial. -/
def mergeInto (acc : E × Mle E) (poly : Mle E) (c : E) : Option (E × Mle E) :=
  if acc.2.numVars = 0 then some (c, poly)
  else do
    let m ← addPolynomialWithCoeff (if acc.1 = 1 then acc.2 else multiplyPoly acc.2 acc.1) poly c
    some (1, m)

/-- The merged polynomials, one for each point, basefold.rs:612-646. -/
def mergePolys (polys : List (Mle E)) (numPoints : ℕ) (evals : List (Evaluation E)) (eqXt : List E) : Option (List (E × Mle E)) :=
  (evals.zip eqXt).foldlM (fun acc p => do
    let cur ← acc[p.1.point]?
    let poly ← polys[p.1.poly]?
    let new ← mergeInto cur poly p.2
    some (acc.set p.1.point new)) (List.replicate numPoints (1, ⟨0, []⟩))

/-- The coefficient of each committed polynomial, basefold.rs:703-710 and 1034-1042. -/
def batchCoeffs (numComms : ℕ) (points : List (List E)) (evals : List (Evaluation E)) (eqXt challenges : List E) : Option (List E) := do
  let eqs ← points.mapM fun point => if point.length ≤ challenges.length then eqXYEval (challenges.take point.length) point else none
  (evals.zip eqXt).foldlM (fun acc p => do
    let cur ← acc[p.1.poly]?
    let e ← eqs[p.1.point]?
    some (acc.set p.1.poly (cur + e * p.2))) (List.replicate numComms 0)

/-! ### Opening -/

/-- Adding the codewords that have the size of the running oracle, commit_phase.rs:213-222 and 266-276. -/
def mergeOracle (words : List (List E × E)) (oracle : List E) : List E :=
  (words.filter fun w => w.1.length = oracle.length).foldl (fun r w => List.zipWith (fun r a => r + a * w.2) r w.1) oracle

/-- The table of the sumcheck with one polynomial added, commit_phase.rs:228-237: every value is added to a chunk. -/
def addRepeated (numVars : ℕ) (acc : List E) (bh : List E) (c : E) : Option (List E) := do
  let k ← log2Strict bh.length
  let d ← checkedSub numVars k
  let chunks' := chunks (2 ^ d) acc
  some ((List.zipWith (fun rs v => rs.map (· + v * c)) chunks' bh).flatten ++ (chunks'.drop bh.length).flatten)

/-- The last iteration of the loop of `batch_commit_phase`, commit_phase.rs:252-258, 280-286, 304-320. -/
def batchLastStep (S : CodeScheme E) (env : BfEnv B E D) (eq evals oracle last : List E) (ts : env.T.State) :
    Option (CommitPhase B E D env.T.State) := do
  let ts := env.T.appendExts ts last
  let c := env.T.labelled ts "commit round"
  let _ ← foldCodeword S oracle c.1
  let p ← bfLastRound eq evals c.1
  let final ← reverseIndexBits p.2
  some ⟨[last], [], [], final, env.T.appendExts c.2 final⟩

/-- The loop of `batch_commit_phase`, commit_phase.rs:250-346; `rounds` iterations are left and `oracle` already contains the codewords of its size.
The tree of the new oracle is pushed and the codewords are added when the root is computed; the code does both in the next iteration. -/
def batchCommitLoop (S : CodeScheme E) (env : BfEnv B E D) (words : List (List E × E)) : (rounds : ℕ) → (eq evals oracle last : List E) →
    env.T.State → Option (CommitPhase B E D env.T.State)
  | 0, _, _, _, _, _ => none
  | 1, eq, evals, oracle, last, ts => batchLastStep S env eq evals oracle last ts
  | rounds + 2, eq, evals, oracle, last, ts => do
    let c := env.T.labelled (env.T.appendExts ts last) "commit round"
    let oracle ← foldCodeword S oracle c.1
    let p ← bfChallengeRound eq evals c.1
    let tree ← MerkleTree.fromBatchLeaves env.hasher [.ext oracle]
    let root ← tree.root
    let rest ← batchCommitLoop S env words (rounds + 1) p.1 p.2.1 (mergeOracle words oracle) p.2.2 (env.appendDigest c.2 root)
    some ⟨last :: rest.messages, root :: rest.roots, tree :: rest.trees, rest.finalMessage, rest.ts⟩

/-- `batch_commit_phase`, commit_phase.rs:187-358. -/
def batchCommitPhase (S : CodeScheme E) (env : BfEnv B E D) (point : List E) (comms : List (BfCommitted B E D)) (coeffs : List E)
    (numVars rounds : ℕ) (ts : env.T.State) : Option (CommitPhase B E D env.T.State) := do
  let words ← comms.mapM BfCommitted.codeword
  let oracle := mergeOracle (words.zip coeffs) (List.replicate (2 ^ (numVars + S.rateLog)) 0)
  let evals ← (comms.zip coeffs).foldlM (fun acc p => addRepeated numVars acc p.1.bhEvals p.2) (List.replicate (2 ^ numVars) 0)
  let eq ← reverseIndexBits (buildEq point)
  let p ← bfFirstRound eq evals
  batchCommitLoop S env (words.zip coeffs) rounds p.1 p.2.1 oracle p.2.2 ts

/-- `batch_basefold_get_query`, query_phase.rs:418-469, and `from_batched_single_query_result`, 1094-1114; `sizeLog` is the logarithm of the size of
the largest codeword. -/
def batchGetQuery (comms : List (BfCommitted B E D)) (trees : List (MerkleTree B E D)) (sizeLog index : ℕ) : Option (ℕ × BatchQuery B E D) := do
  let qs ← bfGetOracle trees (index >>> 1)
  let cs ← comms.mapM fun comm => do
    let word ← comm.codeword
    let k ← log2Strict word.length
    let d ← checkedSub sizeLog k
    bfGetPair comm.tree (index >>> d)
  some (index, ⟨qs, cs⟩)

/-- The largest number, `iter().max().unwrap()`. -/
def maxOf : List ℕ → Option ℕ
  | [] => none
  | a :: l => some (l.foldl max a)

/-- The part of `batch_open` before the commit phase, basefold.rs:583-711: the sumcheck's messages, the challenges, the coefficients and the transcript. -/
def batchReduce (T : Transcript E) (polys : List (Mle E)) (numComms : ℕ) (points : List (List E)) (evals : List (Evaluation E)) (numVars : ℕ)
    (ts : T.State) : Option (List (List E) × List E × List E × T.State) := do
  let t := sampleBatch T (batchSizeLog evals.length) ts
  let eqXt := buildEq t.1
  let target ← batchTarget numVars points evals eqXt
  let merged ← mergePolys polys points.length evals eqXt
  let terms := List.zipWith (fun m point => (⟨m.1, ⟨point.length, buildEq point⟩, m.2⟩ : ProductTerm E)) merged points
  let sc ← classicProve T numVars target terms t.2
  let coeffs ← batchCoeffs numComms points evals eqXt sc.2.1
  some (sc.1, sc.2.1, coeffs, sc.2.2)

/-- The checks at the start of `batch_open`, basefold.rs:560-581, with `validate_input`, lib.rs:344-367. -/
def batchOpenChecks (S : CodeScheme E) (polys : List (Mle E)) (comms : List (BfCommitted B E D)) (points : List (List E)) : Bool :=
  (polys.all fun p => S.basecodeLog < p.numVars ∧ p.numVars ≤ S.maxLog) && (comms.all fun c => S.basecodeLog < c.numVars) &&
    points.all fun p => p.length ≤ S.maxLog

/-- `batch_open`, basefold.rs:546-770, without the early return for empty input. -/
def batchOpenFull (S : CodeScheme E) (env : BfEnv B E D) (polys : List (Mle E)) (comms : List (BfCommitted B E D)) (points : List (List E))
    (evals : List (Evaluation E)) (ts : env.T.State) : Option (BatchProof B E D × env.T.State) := do
  let numVars ← maxOf (polys.map Mle.numVars)
  if batchOpenChecks S polys comms points then
    let red ← batchReduce env.T polys comms.length points evals numVars ts
    let rounds ← checkedSub numVars S.basecodeLog
    let cp ← batchCommitPhase S env red.2.1 comms red.2.2.1 numVars rounds red.2.2.2
    let r := bfSampleQueries env.T S.numQueries cp.ts
    let queries ← r.1.mapM fun x => batchGetQuery comms cp.trees (numVars + S.rateLog) (env.toUsize x % 2 ^ (numVars + S.rateLog))
    some (⟨cp.messages, cp.roots, cp.finalMessage, queries, some red.1, []⟩, r.2)
  else none

/-- `batch_open`, basefold.rs:546-770. -/
def batchOpen (S : CodeScheme E) (env : BfEnv B E D) (polys : List (Mle E)) (comms : List (BfCommitted B E D)) (points : List (List E))
    (evals : List (Evaluation E)) (ts : env.T.State) : Option (BatchProof B E D × env.T.State) :=
  if polys = [] ∧ comms.length = 0 ∧ points = [] ∧ evals = [] then some (⟨[], [], [], [], none, []⟩, ts)
  else batchOpenFull S env polys comms points evals ts

/-! ### Verification -/

/-- The pair of the current round with the committed polynomials of `v` variables added, query_phase.rs:1158-1176; `vars` and `coeffs` belong to the
commitments from position `k` on. -/
def addMatching (embed : B → E) (queries : List (CodeQuery B E D)) (v left : ℕ) : (k : ℕ) → List ℕ → List E → E × E → Option (E × E)
  | _, [], _, cur => some cur
  | k, n :: vars, coeffs, cur =>
    if n = v then do
      let q ← queries[k]?
      let c ← coeffs.head?
      if q.index >>> 1 = left >>> 1 then
        addMatching embed queries v left (k + 1) vars coeffs.tail
          (cur.1 + (q.points.toExt embed).1 * c, cur.2 + (q.points.toExt embed).2 * c)
      else none
    else addMatching embed queries v left (k + 1) vars coeffs.tail cur

/-- The same for one value in the last round, query_phase.rs:1204-1226. -/
def addMatchingLast (embed : B → E) (queries : List (CodeQuery B E D)) (v next : ℕ) : (k : ℕ) → List ℕ → List E → E → Option E
  | _, [], _, res => some res
  | k, n :: vars, coeffs, res =>
    if n = v then do
      let q ← queries[k]?
      let c ← coeffs.head?
      if q.index >>> 1 = next >>> 1 then
        addMatchingLast embed queries v next (k + 1) vars coeffs.tail
          (res + (if next &&& 1 = 0 then (q.points.toExt embed).1 else (q.points.toExt embed).2) * c)
      else none
    else addMatchingLast embed queries v next (k + 1) vars coeffs.tail res

/-- What does not change during the check of one query: the number of variables, the final codeword, the sizes, coefficients and queries of the commitments. -/
structure BatchCheck (B E D : Type) where
  numVars : ℕ
  final : List E
  vars : List ℕ
  coeffs : List E
  queries : List (CodeQuery B E D)

/-- One fold of a query, query_phase.rs:1158-1186: the pair with the matching commitments added, folded with the challenge. -/
def batchFoldStep (S : CodeScheme E) (embed : B → E) (K : BatchCheck B E D) (c : E) (i right : ℕ) (cur : E × E) : Option E := do
  let left ← checkedSub right 1
  let v ← checkedSub K.numVars i
  let cur ← addMatching embed K.queries v left 0 K.vars K.coeffs cur
  let level ← checkedSub (K.numVars + S.rateLog) (i + 1)
  let x ← S.verifierCoeffs level (left >>> 1)
  some (interpolate2Weights x.1 cur.1 x.2.1 cur.2 x.2.2 c)

/-- The loop of `check`, query_phase.rs:1155-1232. -/
def batchQueryFold (S : CodeScheme E) (embed : B → E) (K : BatchCheck B E D) : List E → ℕ → List (CodeQuery B E D) → ℕ → E × E → Option Unit
  | [], _, _, _, _ => some ()
  | [c], i, _, right, cur => do
    let res ← batchFoldStep S embed K c i right cur
    let v ← checkedSub K.numVars (i + 1)
    let res ← addMatchingLast embed K.queries v (right >>> 1) 0 K.vars K.coeffs res
    let value ← K.final[right >>> 1]?
    if res = value then some () else none
  | c :: c' :: cs, i, oracle, right, cur => do
    let res ← batchFoldStep S embed K c i right cur
    let q ← oracle.head?
    let next := q.points.toExt embed
    if res = (if (right >>> 1) &&& 1 = 0 then next.1 else next.2) then
      batchQueryFold S embed K (c' :: cs) (i + 1) oracle.tail ((right >>> 1) ||| 1) next
    else none

/-- `BatchedSingleQueryResultWithMerklePath::check`, query_phase.rs:1116-1236. -/
def BatchQuery.check (S : CodeScheme E) (env : BfEnv B E D) (q : BatchQuery B E D) (challenges : List E) (numVars : ℕ) (final : List E)
    (roots commRoots : List D) (vars : List ℕ) (coeffs : List E) (index : ℕ) : Option Unit := do
  checkPaths env.hasher q.oracle roots
  checkPaths env.hasher q.commitments commRoots
  batchQueryFold S env.embed ⟨numVars, final, vars, coeffs, q.commitments⟩ challenges 0 q.oracle (index ||| 1) (0, 0)

/-- `BatchedQueriesResultWithMerklePath::check`, query_phase.rs:1286-1319. -/
def checkBatchQueries (S : CodeScheme E) (env : BfEnv B E D) (challenges : List E) (numVars : ℕ) (final : List E) (roots commRoots : List D)
    (vars : List ℕ) (coeffs : List E) : List (ℕ × BatchQuery B E D) → List ℕ → Option Unit
  | q :: qs, index :: indices =>
    if index = q.1 then do
      q.2.check S env challenges numVars final roots commRoots vars coeffs q.1
      checkBatchQueries S env challenges numVars final roots commRoots vars coeffs qs indices
    else none
  | _, _ => some ()

/-- `batch_verifier_query_phase`, query_phase.rs:213-288. -/
def batchQueryPhase (S : CodeScheme E) (env : BfEnv B E D) (indices : List ℕ) (proof : BatchProof B E D) (challenges : List E) (numVars : ℕ)
    (commRoots : List D) (vars : List ℕ) (coeffs partialEq : List E) (eval : E) : Option Unit := do
  let codeword ← bfFinalCodeword S proof.finalMessage
  checkBatchQueries S env challenges numVars codeword proof.roots commRoots vars coeffs proof.queries indices
  let final ← innerProduct proof.finalMessage partialEq
  sumcheckEquations proof.messages challenges eval final

/-- The part of `batch_verify` after the first sumcheck, basefold.rs:1044-1096. -/
def batchVerifyTail (S : CodeScheme E) (env : BfEnv B E D) (commRoots : List D) (vars : List ℕ) (coeffs point : List E) (numVars rounds : ℕ)
    (eval : E) (proof : BatchProof B E D) (ts : env.T.State) : Option env.T.State := do
  let c ← bfChallenges env rounds proof.messages proof.roots ts
  let ts := env.T.appendExts c.2 proof.finalMessage
  let r := bfSampleQueries env.T S.numQueries ts
  let indices := r.1.map fun x => env.toUsize x % 2 ^ (numVars + S.rateLog)
  let coeff ← eqXYEval (point.drop (point.length - c.1.length)) c.1.reverse
  let partialEq := (buildEq (point.take (point.length - c.1.length))).map (· * coeff)
  batchQueryPhase S env indices proof c.1 numVars commRoots vars coeffs partialEq eval
  some r.2

/-- The first sumcheck of `batch_verify`, basefold.rs:1000-1042: the new claim, its point, the coefficients and the transcript. -/
def batchVerifyReduce (T : Transcript E) (numComms : ℕ) (points : List (List E)) (evals : List (Evaluation E)) (numVars : ℕ)
    (msgs : List (List E)) (ts : T.State) : Option (E × List E × List E × T.State) := do
  let t := sampleBatch T (batchSizeLog evals.length) ts
  let eqXt := buildEq t.1
  let target ← batchTarget numVars points evals eqXt
  let sc ← classicVerify T numVars target msgs t.2
  let coeffs ← batchCoeffs numComms points evals eqXt sc.2.1
  some (sc.1, sc.2.1, coeffs, sc.2.2)

/-- Every claim's point has as many coordinates as the commitment has variables, basefold.rs:991-996. -/
def batchSizesOk (vars : List ℕ) (points : List (List E)) (evals : List (Evaluation E)) : Bool :=
  evals.all fun e => match points[e.point]?, vars[e.poly]? with
    | some p, some v => p.length = v
    | _, _ => false

/-- `batch_verify`, basefold.rs:964-1098, without the early return; `validate_input` compares the points with their own maximum. -/
def batchVerifyFull (S : CodeScheme E) (env : BfEnv B E D) (comms : List (BfCommitment D)) (points : List (List E)) (evals : List (Evaluation E))
    (proof : BatchProof B E D) (ts : env.T.State) : Option env.T.State := do
  let numVars ← maxOf (points.map List.length)
  let rounds ← checkedSub numVars S.basecodeLog
  let vars ← comms.mapM BfCommitment.numVars
  if batchSizesOk vars points evals ∧ vars ≠ [] ∧ (∀ v ∈ vars, S.basecodeLog ≤ v) ∧ proof.trivial.length = 0 then do
    let msgs ← proof.sumcheck
    let red ← batchVerifyReduce env.T comms.length points evals numVars msgs ts
    batchVerifyTail S env (comms.map BfCommitment.root) vars red.2.2.1 red.2.1 numVars rounds red.1 proof red.2.2.2
  else none

/-- `batch_verify`, basefold.rs:964-1098: the transcript when it accepts. -/
def batchVerify (S : CodeScheme E) (env : BfEnv B E D) (comms : List (BfCommitment D)) (points : List (List E)) (evals : List (Evaluation E))
    (proof : BatchProof B E D) (ts : env.T.State) : Option env.T.State :=
  if comms.length = 0 ∧ points = [] ∧ evals = [] ∧ proof.trivial.length = 0 then some ts
  else batchVerifyFull S env comms points evals proof ts

end Model
