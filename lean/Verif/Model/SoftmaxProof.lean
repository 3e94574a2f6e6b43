import Verif.Model.Attention
import Verif.Model.LookupLayers
import Verif.Model.LogUpProver
import Verif.Model.Slices
import Verif.Model.Terms

/-!
Model of the prover and the verifier of the quantised softmax, zkml/src/layers/transformer/softmax.rs:571-888, 1267-1586.

Simplifications: as in Model/LookupLayers; `1 << extra_vars` does not overflow.
-/

namespace Model

variable {F : Type} [Field F] [DecidableEq F] {C : Type}

/-- `SoftmaxProof`, softmax.rs:102-118. -/
structure SoftmaxProof (F C : Type) where
  logupProofs : List (LogUpProof F)
  commitments : List C
  accumulation : IOPProof F
  mask : IOPProof F
  evaluations : List F

/-- `SoftmaxProof::get_lookup_data`, softmax.rs:120-128: the fractions of all lookup proofs it holds. -/
def softmaxFractions (proof : SoftmaxProof F C) : Option (List (F × F)) := do
  let fr ← proof.logupProofs.mapM fun p => fractionalOutputs p.circuitOutputs
  some fr.flatten

/-- The fields of `SoftmaxCtx`, softmax.rs:1153-1170, that the verifier uses apart from the names of the tables. -/
structure SoftmaxCtx where
  scalar : ℤ
  bkm : ℤ
  zeroChunks : ℕ
  zeroVars : ℕ

/-- `instances_per_proof`, softmax.rs:1328-1332. -/
def softmaxInstances (K : ℕ) : List ℕ := if K ≠ 0 then [1, 2, 1, K] else [1, 2, 1]

/-- The verification of the lookup proofs, softmax.rs:1342-1357. -/
def verifyLogups (T : Transcript F) : List (LogUpProof F × (F × F) × ℕ) → T.State → Option (List (List (Claim F)) × T.State)
  | [], ts => some ([], ts)
  | (p, (constant, csc), inst) :: rest, ts => do
    let (claims, _, ts) ← verifyLogup T p inst constant csc ts
    let (cs, ts) ← verifyLogups T rest ts
    some (claims :: cs, ts)

/-- `step_by(2)`. -/
def stepBy2 {α : Type} : List α → List α
  | [] => []
  | [a] => [a]
  | a :: _ :: rest => a :: stepBy2 rest

/-- The folds `(acc + beta * claim * bc, bc * alpha)`, softmax.rs:1449-1452, 1461-1466. -/
def betaFold (alpha beta : F) (evals : List F) (s : F × F) : F × F :=
  evals.foldl (fun s c => (s.1 + beta * c * s.2, s.2 * alpha)) s

/-- The value compared with the first sumcheck, softmax.rs:1442-1476; `zeroBeta` is only read if there are zero chunks. -/
def softmaxCalc (K : ℕ) (alpha expBeta rangeBeta zeroBeta errorBeta lastBeta twoMult : F) (evals : List F) : Option F := do
  let out ← evals[1]?
  let s := (evals.take 2).foldl (fun s c => (s.1 + c * s.2, s.2 * alpha)) ((0 : F), (1 : F))
  let s := betaFold alpha rangeBeta ((evals.drop 2).take 2) (expBeta * s.1, s.2)
  if K ≠ 0 then
    let s' := betaFold alpha zeroBeta (evals.drop 5) s
    some (s'.1 + s'.2 * ((stepBy2 (evals.drop 6)).prod * out) * (errorBeta * twoMult + alpha * lastBeta))
  else some (s.1 + s.2 * errorBeta * twoMult * out + s.2 * alpha * lastBeta * out)

/-- The evaluation of the masked input, softmax.rs:1485-1509. -/
def softmaxRecombine (K zv tv : ℕ) (evals : List F) : Option F := do
  let e0 ← evals[0]?
  let e2 ← evals[2]?
  let e3 ← evals[3]?
  let m := e0 * ((2 ^ 16 : ℕ) : F) + e3 * ((2 ^ 8 : ℕ) : F) + e2
  if K ≠ 0 then some ((stepBy2 (evals.drop 5)).foldl (fun s e => (s.1 + e * s.2, s.2 * ((2 ^ zv : ℕ) : F))) (m, ((2 ^ (16 + tv) : ℕ) : F))).1
  else some m

/-- `inverse`, which panics on zero. -/
def checkedInv (x : F) : Option F := if x = 0 then none else some x⁻¹

/-- The evaluation of the input, softmax.rs:1536-1546, from that of the sumcheck. `p` is the characteristic. -/
def softmaxInputEval (p : ℕ) (ctx : SoftmaxCtx) (eq tril expected shift : F) : Option F := do
  let ninf : F := toField p (-(ctx.bkm / 2 ^ 16 + 1) * 2 ^ 16)
  let bias := ninf * (1 - tril)
  let inv ← checkedInv (eq * tril)
  let sinv ← checkedInv (toField p ctx.scalar : F)
  some (((expected - eq * bias) * inv - shift) * sinv)

/-- The claims handed to the commitment verifier, softmax.rs:1547-1582; indexing beyond the end panics. -/
def softmaxWitness (K : ℕ) (commitments : List C) (evals : List F) (sp shiftPoint : List F) : Option (List (C × Claim F)) := do
  let c4 ← commitments[4]?
  let e4 ← evals[4]?
  let all := commitments.zip (evals.map fun e => (⟨sp, e⟩ : Claim F))
  some (all.take 4 ++ [(c4, ⟨shiftPoint, e4⟩)] ++ if K ≠ 0 then all.drop 5 else [])

/-- `zero_table_beta_eval`, softmax.rs:1457-1459; zero, and never read, if there are no zero chunks. -/
def softmaxZeroBeta (K : ℕ) (claims : List (List (Claim F))) (sp : List F) : Option F :=
  if K ≠ 0 then (claims[3]?.bind fun z => z[0]?).bind fun z0 => eqXYEval z0.point sp else some 0

/-- `softmax_table_vars`, softmax.rs:1492-1493; zero, and never read, if there are no zero chunks. -/
def softmaxTableVars (ctx : SoftmaxCtx) : Option ℕ := if ctx.zeroChunks ≠ 0 then ceilLog2 (ctx.bkm / 2 ^ 16).toNat else some 0

/-- `SoftmaxCtx::verify` from the second sumcheck on, softmax.rs:1485-1584. -/
def verifySoftmaxMask (T : Transcript F) (p : ℕ) (ctx : SoftmaxCtx) (shape : List ℕ) (extra : ℕ) (proof : SoftmaxProof F C) (sp : List F) (ts : T.State) :
    Option (Claim F × List (C × Claim F) × T.State) := do
  let tv ← softmaxTableVars ctx
  let m ← softmaxRecombine ctx.zeroChunks ctx.zeroVars tv proof.evaluations
  let (sub2, ts) ← verify T (-m) proof.mask 3 sp.length ts
  let eq ← eqXYEval sub2.point sp
  let rows ← shape.dropLast.getLast?.bind ceilLog2
  let columns ← shape.getLast?.bind ceilLog2
  let tril := evalZeroifier (sub2.point.take columns) ((sub2.point.drop columns).take rows)
  let shift ← proof.evaluations[4]?
  let input ← softmaxInputEval p ctx eq tril sub2.expected shift
  let wit ← softmaxWitness ctx.zeroChunks proof.commitments proof.evaluations sp (sub2.point.drop extra)
  some (⟨sub2.point, input⟩, wit, ts)

/-- `SoftmaxCtx::verify` up to the check of the first sumcheck, softmax.rs:1288-1483. `chals` are the challenges of the tables, in order. Returns `extra_vars` and the point of the sumcheck. -/
def verifySoftmaxFirst (T : Transcript F) (ctx : SoftmaxCtx) (chals : List (F × F)) (last : Claim F) (proof : SoftmaxProof F C) (ts : T.State) :
    Option (ℕ × List F × T.State) := do
  let (claims, ts) ← verifyLogups T (proof.logupProofs.zip (chals.zip (softmaxInstances ctx.zeroChunks))) ts
  let exp ← claims[0]?
  let range ← claims[1]?
  let error ← claims[2]?
  let (alpha, ts) := T.labelled ts "batching_challenge"
  let zero := if claims.length = 4 then claims.getD 3 [] else []
  let claimed := alphaFold alpha ((exp ++ range ++ zero ++ error).map Claim.eval ++ [last.eval])
  let exp0 ← exp[0]?
  let range0 ← range[0]?
  let error0 ← error[0]?
  let extra ← checkedSub exp0.point.length error0.point.length
  let full := List.replicate extra (2 : F)⁻¹ ++ error0.point
  let (sub, ts) ← verify T claimed proof.accumulation (if claims.length = 4 then ctx.zeroChunks + 2 else 2) exp0.point.length ts
  let lastBeta ← eqXYEval last.point sub.point
  let expBeta ← eqXYEval exp0.point sub.point
  let rangeBeta ← eqXYEval range0.point sub.point
  let errorBeta ← eqXYEval full sub.point
  let zeroBeta ← softmaxZeroBeta ctx.zeroChunks claims sub.point
  let got ← softmaxCalc ctx.zeroChunks alpha expBeta rangeBeta zeroBeta errorBeta lastBeta ((2 ^ extra : ℕ) : F) proof.evaluations
  if proof.evaluations.length = 5 + 2 * ctx.zeroChunks ∧ sub.expected = got then some (extra, sub.point, ts) else none

/-- `SoftmaxCtx::verify`, softmax.rs:1274-1585. `chals` are the challenges of the tables, in order; `shape` is the padded output shape. -/
def verifySoftmax (T : Transcript F) (p : ℕ) (ctx : SoftmaxCtx) (shape : List ℕ) (chals : List (F × F)) (last : Claim F) (proof : SoftmaxProof F C) (ts : T.State) :
    Option (Claim F × List (C × Claim F) × T.State) := do
  let (extra, sp, ts) ← verifySoftmaxFirst T ctx chals last proof ts
  verifySoftmaxMask T p ctx shape extra proof sp ts

/-- The tables of the first sumcheck of `Softmax::prove_step`, softmax.rs:661-733, at their addresses. `zs` are the pairs of columns looked up in the zero table; without such pairs there is no beta
polynomial of that lookup. A table turned into a shared pointer anew, as the output columns are, gets a new address. -/
def softmaxTables (ein eout lo hi : List F) (zs : List (List F × List F)) (ep rp zp fp lp : List F) : List (List F) :=
  [ein, computeBetas ep, eout, lo, computeBetas rp, hi] ++ (if zs.isEmpty then [] else computeBetas zp :: zs.flatMap fun z => [z.1, z.2]) ++ zs.map Prod.snd ++ [eout, computeBetas fp, computeBetas lp, eout]

/-- The terms of the first sumcheck of `Softmax::prove_step`, softmax.rs:670-733, for `K` zero chunks. -/
def softmaxTerms (alpha mult : F) (K : ℕ) : List (F × List ℕ) :=
  [(1, [0, 1]), (alpha, [2, 1]), (alpha ^ 2, [3, 4]), (alpha ^ 3, [5, 4])] ++
    if K = 0 then [(alpha ^ 4 * mult, [6, 7]), (alpha ^ 4 * alpha, [9, 8])]
    else ((List.range (2 * K)).map fun j => (alpha ^ (4 + j), [6, 7 + j])) ++
      [(alpha ^ (4 + 2 * K) * mult, (List.range K).map (fun j => 7 + 2 * K + j) ++ [7 + 3 * K, 8 + 3 * K]),
        (alpha ^ (4 + 2 * K) * alpha, (List.range K).map (fun j => 7 + 2 * K + j) ++ [7 + 3 * K, 9 + 3 * K])]

/-- `Softmax::prove_step` after the lookup proofs, softmax.rs:627-887: `ep`, `rp`, `ap` and `zp` are the points of the first claims of the lookup proofs; `zp` is not used if `zs` is empty. `shifted`, `tril` and
`bias` are the padded tables of the shifted input and the mask; `shiftVars` is the number of variables of the committed shift. The second virtual polynomial is built directly with the
factor `mask_eq` in both terms, where the code multiplies by it afterwards. Returns the two sumcheck proofs, the evaluations and the claim on the input. -/
def proveSoftmax (threads : ℕ) (T : Transcript F) (n : ℕ) (ein eout lo hi : List F) (zs : List (List F × List F)) (shift shifted tril bias : List F) (shiftVars : ℕ) (ep rp ap zp : List F) (last : Claim F)
    (ts : T.State) : Option (IOPProof F × IOPProof F × List F × Claim F × T.State) := do
  let extra ← checkedSub ep.length ap.length
  let full := List.replicate extra (2 : F)⁻¹ ++ ap
  let (alpha, ts) := T.labelled ts "batching_challenge"
  let tables := softmaxTables ein eout lo hi zs ep rp zp full last.point
  let (acc, ev, ts) ← proveTerms threads T (fun a => ⟨n, tables.getD a eout⟩) n (softmaxTerms alpha ((2 ^ extra : ℕ) : F) zs.length) ts
  let e0 ← ev[0]?
  let e1 ← ev[2]?
  let e2 ← ev[3]?
  let e3 ← ev[5]?
  let heap2 : ℕ → Mle F := fun a => ⟨n, [shifted, tril, bias].getD a (computeBetas acc.point)⟩
  let (mask, ev2, ts) ← proveTerms threads T heap2 n [(1, [0, 1, 3]), (1, [2, 3])] ts
  let shiftedEval ← ev2[0]?
  let diff ← checkedSub mask.point.length shiftVars
  let shiftEval ← (⟨shiftVars, shift⟩ : Mle F).evaluate (mask.point.drop diff)
  some (acc, mask, [e0, e1, e2, e3, shiftEval] ++ (ev.drop 7).take (2 * zs.length), ⟨mask.point, shiftedEval - shiftEval⟩, ts)

/-- The lookup proofs of a list of lookups, each given by its columns, the number of columns per instance and the challenges of its table, softmax.rs:612-623. The code makes a witness and its proof in one step of
an iterator, so the transcript is passed from one to the next. -/
def proveLogups (threads : ℕ) (T : Transcript F) : List ((List (List F) × ℕ) × (F × F)) → T.State → Option (List (LogUpProof F) × T.State)
  | [], ts => some ([], ts)
  | ((columns, w), (constant, csc)) :: rest, ts => do
    let input ← LogUpInput.newLookup columns constant csc w
    let (proof, ts) ← batchProve threads T input ts
    let (proofs, ts) ← proveLogups threads T rest ts
    some (proof :: proofs, ts)

/-- The lookups of `Softmax::lookup_witness`, softmax.rs:913-921, 980-1060: the columns and the number of columns per instance. The output, from which the sums of the rows are taken, has rows of `rowLen` entries. -/
def softmaxLookups (ein eout lo hi : List F) (zs : List (List F × List F)) (out : List F) (rowLen : ℕ) : List (List (List F) × ℕ) :=
  [([ein, eout], 2), ([lo, hi], 1), ([(chunks rowLen out).map List.sum], 1)] ++ if zs.isEmpty then [] else [(zs.flatMap fun z => [z.1, z.2], 2)]

/-- `zero_table_point`, softmax.rs:693-702; empty, and never read, if there are no zero chunks. -/
def softmaxZeroPoint (none : Bool) (logups : List (LogUpProof F)) : Option (List F) :=
  if none then some [] else (logups[3]?.bind fun l => l.outputClaims[0]?).map Claim.point

/-- `Softmax::prove_step`, softmax.rs:573-888: `chals` are the challenges of the tables, in the order of the lookups; `out` is the output, with rows of `rowLen` entries. The columns are in the field already. -/
def proveSoftmaxStep (threads : ℕ) (T : Transcript F) (n : ℕ) (ein eout lo hi : List F) (zs : List (List F × List F)) (out : List F) (rowLen : ℕ) (shift shifted tril bias : List F) (shiftVars : ℕ)
    (commitments : List C) (chals : List (F × F)) (last : Claim F) (ts : T.State) : Option (SoftmaxProof F C × Claim F × T.State) := do
  let lookups := softmaxLookups ein eout lo hi zs out rowLen
  if chals.length < lookups.length then none else
  let (logups, ts) ← proveLogups threads T (lookups.zip chals) ts
  let exp ← logups[0]?.bind fun l => l.outputClaims[0]?
  let range ← logups[1]?.bind fun l => l.outputClaims[0]?
  let error ← logups[2]?.bind fun l => l.outputClaims[0]?
  let zp ← softmaxZeroPoint zs.isEmpty logups
  let (acc, mask, evals, claim, ts) ← proveSoftmax threads T n ein eout lo hi zs shift shifted tril bias shiftVars exp.point range.point error.point zp last ts
  some (⟨logups, commitments, acc, mask, evals⟩, claim, ts)

end Model
