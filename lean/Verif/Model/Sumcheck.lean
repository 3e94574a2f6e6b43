import Verif.Model.Mle
import Mathlib.Algebra.BigOperators.Group.List.Basic

/-!
Model of `sumcheck/src/util.rs`, `sumcheck/src/prover.rs`, `sumcheck/src/verifier.rs` and of the code
generated by `sumcheck_macro/src/lib.rs`.

Panics (`assert!`, `expect`, `unwrap`, out of range indexing, `inverse()` of zero, `usize` underflow) are
`none`. Timers, spans and `Arc` uniqueness are not modelled. Sums whose order depends on rayon are
written in index order (addition in a field is commutative and associative).
-/

namespace Model

variable {F : Type} [Field F] [DecidableEq F]

/-! ### util.rs: batch inversion, extrapolation, interpolation -/

/-- First pass of `serial_batch_inversion_and_mul`, util.rs:71-76: running products over the nonzero
entries; returns `prod` and the final `tmp`. -/
def invPass1 : List F → F → List F × F
  | [], tmp => ([], tmp)
  | f :: fs, tmp =>
    if f = 0 then invPass1 fs tmp
    else
      let r := invPass1 fs (tmp * f)
      ((tmp * f) :: r.1, r.2)

/-- Second pass, util.rs:85-98, on the *reversed* vector, `ss` is the reversed and shifted `prod`
(`prod.into_iter().rev().skip(1).chain(Some(ONE))`). When `ss` is exhausted `zip` stops. -/
def invPass2 : List F → List F → F → List F
  | [], _, _ => []
  | f :: fs, ss, tmp =>
    if f = 0 then f :: invPass2 fs ss tmp
    else match ss with
      | [] => f :: fs
      | s :: ss' => (tmp * s) :: invPass2 fs ss' (tmp * f)

/-- `serial_batch_inversion_and_mul`, util.rs:63-99. `try_inverse().unwrap()` panics on zero. -/
def serialBatchInversionAndMul (v : List F) (coeff : F) : Option (List F) :=
  let p := invPass1 v 1
  if p.2 = 0 then none
  else some (invPass2 v.reverse (p.1.reverse.drop 1 ++ [1]) (p.2⁻¹ * coeff)).reverse

/-- `par_chunks_mut(k)`: consecutive chunks of `k` elements, the last may be shorter. `fuel` bounds the
number of chunks (callers pass the length of the list). -/
def chunksOf (k : ℕ) : ℕ → List F → List (List F)
  | 0, _ => []
  | fuel + 1, l => if l = [] then [] else l.take k :: chunksOf k fuel (l.drop k)

/-- `batch_inversion_and_mul`, util.rs:48-59, on a pool of `threads` threads. -/
def batchInversionAndMul (threads : ℕ) (v : List F) (coeff : F) : Option (List F) :=
  if threads = 0 then none else do
    let k := max (v.length / threads) 1
    let cs ← (chunksOf k v.length v).mapM fun c => serialBatchInversionAndMul c coeff
    some cs.flatten

/-- How a computation is run: single threaded or on a rayon pool of the given size. -/
inductive Exec where
  | serial
  | parallel (threads : ℕ)

/-- `serial_batch_inversion` / `batch_inversion`, util.rs:38-45. -/
def batchInversion (ex : Exec) (v : List F) : Option (List F) :=
  match ex with
  | .serial => serialBatchInversionAndMul v 1
  | .parallel t => batchInversionAndMul t v 1

/-- `barycentric_weights`, util.rs:19-35: `∏_{i≠j} (p_j - p_i)`, then inverted. -/
def barycentricWeights (ex : Exec) (points : List F) : Option (List F) :=
  batchInversion ex
    ((List.range points.length).map fun j =>
      (((List.range points.length).filter fun i => i ≠ j).map fun i =>
        points.getD j 0 - points.getD i 0).prod)

/-- `inner_extrapolate`, util.rs:109-136. -/
def extrapolate (ex : Exec) (points weights evals : List F) (at_ : F) : Option F := do
  let inv ← batchInversion ex (points.map fun p => at_ - p)
  let coeffs := List.zipWith (· * ·) inv weights
  let sumInv := if coeffs.sum = 0 then 0 else coeffs.sum⁻¹
  some ((List.zipWith (· * ·) coeffs evals).sum * sumInv)

/-- `field_factorial`, util.rs:199-205: the product of `2..=a`. -/
def fieldFactorial (a : ℕ) : F :=
  (List.range (a - 1)).foldl (fun (res : F) (i : ℕ) => res * ((i + 2 : ℕ) : F)) 1

/-- One iteration of the loop of `interpolate_uni_poly`, util.rs:184-192; the state is
`(res, denom_up, denom_down)`. `inverse()` panics on zero. -/
def interpStep (p : List F) (x prod : F) (s : F × F × F) (i : ℕ) : Option (F × F × F) :=
  let e := x - (i : F)
  if s.2.1 * e = 0 then none
  else
    let res := s.1 + p.getD i 0 * prod * s.2.2 * (s.2.1 * e)⁻¹
    if i ≠ 0 then
      some (res, s.2.1 * (-((p.length - i : ℕ) : F)), s.2.2 * (i : F))
    else some (res, s.2.1, s.2.2)

/-- `interpolate_uni_poly`, util.rs:148-195. `len - 1` underflows on an empty list. -/
def interpolateUniPoly (p : List F) (x : F) : Option F :=
  if p.length = 0 then none
  else do
    let prod := (List.range p.length).foldl (fun (acc : F) (e : ℕ) => acc * (x - (e : F))) 1
    let s ← (List.range p.length).reverse.foldlM (interpStep p x prod)
      (0, fieldFactorial (p.length - 1), 1)
    some s.1

/-! ### Generated code -/

/-- `idx_of_one_bits`, sumcheck_macro/src/lib.rs:367-376 (for `n ≥ 1`). -/
def idxOfOneBits (n : ℕ) : List ℕ :=
  (List.range (Nat.log2 n + 1)).filter fun j => n.testBit j

/-- `c_j`, lib.rs:153-160: `c_0 = v[b+1] - v[b]`, `c_j = c_{j-1} + c_{j-1}`. -/
def cTerm (d : F) : ℕ → F
  | 0 => d
  | j + 1 => cTerm d j + cTerm d j

/-- The factor a table contributes to row `i` (1-based) at position `b`, lib.rs:181-205:
`v[b]`, `v[b+1]`, or the sum of the `c` terms plus `v[b+1]`. -/
def rowFactor (i : ℕ) (lo hi : F) : F :=
  if i = 1 then lo
  else if i = 2 then hi
  else ((idxOfOneBits (i - 2)).map (cTerm (hi - lo))).sum + hi

/-- One entry of the additive array: the product of the factors of all tables, lib.rs:176-208. -/
def rowItem (i b : ℕ) (vs : List (List F)) : F :=
  (vs.map fun v => rowFactor i (v.getD b 0) (v.getD (b + 1) 0)).prod

/-- The code generated for a product of `vs.length` tables, lib.rs:229-249, in a virtual polynomial
with `maxNumVars` variables and (1-based) `round`. Reading past the end of a table shorter than the
first one panics; so does the `usize` underflow in `num_vars_multiplicity`. The reordering of factors by
field type (lib.rs:88-143) permutes the product and is not modelled. -/
def codegen (maxNumVars round : ℕ) (vs : List (List F)) : Option (List F) :=
  match vs with
  | [] => none
  | v1 :: _ =>
    if vs.all fun v => decide (v1.length ≤ v.length) then do
      let d := vs.length
      let res : List F :=
        if v1.length = 1 then List.replicate (d + 1) (rowItem 1 0 vs)
        else (List.range (d + 1)).map fun i =>
          ((List.range (v1.length / 2)).map fun h => rowItem (i + 1) (2 * h) vs).sum
      let l ← ceilLog2 v1.length
      let used := max l 1 + round - 1
      if used ≤ maxNumVars then
        let m := maxNumVars - used
        some (if 0 < m then res.map fun e => e * ((2 ^ m : ℕ) : F) else res)
      else none
    else none

/-! ### Prover -/

/-- `IOPProverState`, sumcheck/src/structs.rs:38-48, with the fields of its virtual polynomial. -/
structure ProverState (F : Type) where
  challenges : List F
  round : ℕ
  maxDegree : ℕ
  maxNumVars : ℕ
  products : List (F × List ℕ)
  mles : List (Mle F)
  /-- `extrapolation_aux` -/
  aux : List (List F × List F)

/-- `extrapolation_aux` for `degree` in `1..max_degree`, prover.rs:76-85, 601-610 (built with the parallel
`batch_inversion`). -/
def extrapolationAux (threads maxDegree : ℕ) : Option (List (List F × List F)) :=
  (List.range (maxDegree - 1)).mapM fun k => do
    let points : List F := (List.range (k + 2)).map fun (i : ℕ) => (i : F)
    let w ← barycentricWeights (.parallel threads) points
    some (points, w)

/-- `prover_init_with_extrapolation_aux`, prover.rs:325-345 and `prover_init_parallel`, 590-618. -/
def proverInit (threads maxDegree maxNumVars : ℕ) (products : List (F × List ℕ)) (mles : List (Mle F)) :
    Option (ProverState F) :=
  if maxNumVars = 0 then none
  else do
    let aux ← extrapolationAux threads maxDegree
    some ⟨[], 0, maxDegree, maxNumVars, products, mles, aux⟩

/-- Binding the first variable of all tables in the round after the first message,
prover.rs:389-397 (`fix_variables`) and 661-670 (`fix_variables_parallel`). -/
def fixFirst (ex : Exec) (r : F) (m : Mle F) : Option (Mle F) :=
  if 0 < m.numVars then
    match ex with
    | .serial => m.fixVariables [r]
    | .parallel _ => m.fixVariablesParallel [r]
  else none

/-- Binding a variable in all later rounds, prover.rs:398-412 and 671-685. -/
def fixNext (ex : Exec) (r : F) (m : Mle F) : Option (Mle F) :=
  if 0 < m.numVars then
    match ex with
    | .serial => m.fixVariablesInPlace [r]
    | .parallel _ => m.fixVariablesInPlaceParallel [r]
  else some m

/-- The contribution of one product to the round message, prover.rs:432-462 and 699-730: generated code,
times the coefficient, extended by extrapolation to `max_degree + 1` values. -/
def productMessage (ex : Exec) (st : ProverState F) (p : F × List ℕ) : Option (List F) := do
  let fs ← p.2.mapM fun i => st.mles[i]?
  if p.2.length ∈ [1, 2, 3, 4, 5] ∧ p.2.length ≤ st.maxDegree then
    let raw ← codegen st.maxNumVars st.round (fs.map fun m => m.evals)
    let sum := raw.map fun s => s * p.1
    let ext ← (List.range (st.maxDegree - p.2.length)).mapM fun i => do
      let pw ← st.aux[p.2.length - 1]?
      extrapolate ex pw.1 pw.2 sum ((p.2.length + 1 + i : ℕ) : F)
    some (sum ++ ext)
  else none

/-- `AdditiveVec +=`, util.rs:316-323. -/
def addVec (a b : List F) : List F := List.zipWith (· + ·) a b

/-- Step 1 of a round, prover.rs:377-413 and 651-686: record the challenge and bind it in every table. -/
def bindChallenge (ex : Exec) (st : ProverState F) (challenge : Option F) : Option (ProverState F) :=
  match challenge with
  | none => if st.round = 0 then some st else none
  | some r =>
    if st.round = 0 then none
    else do
      let ch := st.challenges ++ [r]
      let ms ← st.mles.mapM (if ch.length = 1 then fixFirst ex r else fixNext ex r)
      some { st with challenges := ch, mles := ms }

/-- `prove_round_and_update_state`, prover.rs:351-471, and `prove_round_and_update_state_parallel`,
625-741. The parallel version reduces with `.unwrap()`, so it panics without products. -/
def proveRound (ex : Exec) (st : ProverState F) (challenge : Option F) :
    Option (List F × ProverState F) :=
  if st.round < st.maxNumVars then do
    let st1 ← bindChallenge ex st challenge
    let st2 := { st1 with round := st1.round + 1 }
    let msgs ← st2.products.mapM (productMessage ex st2)
    match ex, msgs with
    | .parallel _, [] => none
    | _, _ => some (msgs.foldl addVec (List.replicate (st2.maxDegree + 1) 0), st2)
  else none

/-- After the last round the last challenge is recorded and bound, prover.rs:539-571, 184-216. With one
variable the tables are still the caller's, so the copying version is used and a table without
variables is kept. -/
def proverFinish (st : ProverState F) (r : F) : Option (ProverState F) := do
  let ms ← st.mles.mapM fun m =>
    if 0 < m.numVars then
      if st.maxNumVars = 1 then m.fixVariables [r] else m.fixVariablesInPlace [r]
    else some m
  some { st with challenges := st.challenges ++ [r], mles := ms }

/-- `get_mle_final_evaluations`, prover.rs:474-490. -/
def finalEvaluations (st : ProverState F) : Option (List F) :=
  st.mles.mapM fun m => match m.evals with
    | [v] => some v
    | _ => none

/-- The interface of a transcript, transcript/src/lib.rs: `append_message(&usize.to_le_bytes())`,
`append_field_element_ext`, `get_and_append_challenge(b"Internal round")` (the sumcheck's), `append_message` of a
label, and `read_challenge`. Nothing is assumed about them. -/
structure Transcript (F : Type) where
  State : Type
  appendUsize : State → ℕ → State
  appendExt : State → F → State
  challenge : State → F × State
  appendMsg : State → String → State
  sample : State → F × State

/-- `prover_msg.evaluations.iter().for_each(|e| transcript.append_field_element_ext(e))`. -/
def Transcript.appendExts (T : Transcript F) (s : T.State) (es : List F) : T.State :=
  es.foldl T.appendExt s

/-- `read_challenges(n)`, zkml/src/lib.rs:145-150 (the non-test build). -/
def Transcript.sampleN (T : Transcript F) : ℕ → T.State → List F × T.State
  | 0, s => ([], s)
  | n + 1, s =>
    let (c, s) := T.sample s
    let (cs, s) := T.sampleN n s
    (c :: cs, s)

/-- `get_and_append_challenge(label)`, transcript/src/lib.rs:74-78. -/
def Transcript.labelled (T : Transcript F) (s : T.State) (label : String) : F × T.State :=
  T.sample (T.appendMsg s label)

/-- The prover's loop, prover.rs:520-536: `rounds` more rounds; returns messages, final state, last
challenge and transcript. -/
def proveLoop (ex : Exec) (T : Transcript F) :
    ℕ → ProverState F → Option F → T.State → Option (List (List F) × ProverState F × Option F × T.State)
  | 0, st, ch, ts => some ([], st, ch, ts)
  | n + 1, st, ch, ts => do
    let (msg, st') ← proveRound ex st ch
    let (c, ts') := T.challenge (T.appendExts ts msg)
    let (msgs, st'', ch'', ts'') ← proveLoop ex T n st' (some c) ts'
    some (msg :: msgs, st'', ch'', ts'')

/-- `IOPProof`, structs.rs:16-19. -/
structure IOPProof (F : Type) where
  point : List F
  proofs : List (List F)

/-- `prove_parallel`, prover.rs:498-585. Also `prove_batch_polys` with one worker (prover.rs:37-321) when
`ex = .serial`. -/
def prove (threads : ℕ) (ex : Exec) (T : Transcript F) (maxDegree maxNumVars : ℕ)
    (products : List (F × List ℕ)) (mles : List (Mle F)) (ts : T.State) :
    Option (IOPProof F × ProverState F × T.State) :=
  if maxNumVars = 0 then
    some (⟨[], []⟩, ⟨[], 0, maxDegree, 0, products, mles, []⟩, ts)
  else do
    let ts := T.appendUsize (T.appendUsize ts maxNumVars) maxDegree
    let st ← proverInit threads maxDegree maxNumVars products mles
    let (msgs, st, ch, ts) ← proveLoop ex T maxNumVars st none ts
    let r ← ch
    let st ← proverFinish st r
    some (⟨st.challenges, msgs⟩, st, ts)

/-! ### Verifier -/

/-- `SumCheckSubClaim`, structs.rs:70-78. -/
structure SubClaim (F : Type) where
  point : List F
  expected : F
deriving DecidableEq

/-- The verifier's loop, verifier.rs:30-37 with `verify_round_and_update_state`, 66-102: `i` counts up to
`num_vars`; returns received messages, challenges and transcript. -/
def verifyLoop (T : Transcript F) (proofs : List (List F)) :
    ℕ → ℕ → T.State → Option (List (List F) × List F × T.State)
  | 0, _, ts => some ([], [], ts)
  | n + 1, i, ts => do
    let msg ← proofs[i]?
    let (c, ts') := T.challenge (T.appendExts ts msg)
    let (ms, cs, ts'') ← verifyLoop T proofs n (i + 1) ts'
    some (msg :: ms, c :: cs, ts'')

/-- `check_and_generate_subclaim`, verifier.rs:112-168, on the received messages and challenges. -/
def checkSubclaim (numVars maxDegree : ℕ) (msgs : List (List F)) (challenges : List F)
    (assertedSum : F) : Option (SubClaim F) :=
  if msgs.length ≠ numVars then none
  else do
    let exps ← (msgs.zip challenges).mapM fun mc =>
      if mc.1.length ≠ maxDegree + 1 then none else interpolateUniPoly mc.1 mc.2
    let expected := assertedSum :: exps
    let _ ← ((msgs.zip expected).take numVars).mapM fun me => do
      let e0 ← me.1[0]?
      let e1 ← me.1[1]?
      if e0 + e1 ≠ me.2 then none else some ()
    let e ← expected[numVars]?
    some ⟨challenges, e⟩

/-- `IOPVerifierState::verify`, verifier.rs:12-43. -/
def verify (T : Transcript F) (claimedSum : F) (proof : IOPProof F) (maxDegree maxNumVars : ℕ)
    (ts : T.State) : Option (SubClaim F × T.State) :=
  if maxNumVars = 0 then some (⟨[], claimedSum⟩, ts)
  else do
    let ts := T.appendUsize (T.appendUsize ts maxNumVars) maxDegree
    let (ms, cs, ts) ← verifyLoop T proof.proofs maxNumVars 0 ts
    let sc ← checkSubclaim maxNumVars maxDegree ms cs claimedSum
    some (sc, ts)

end Model
