import Verif.Model.LayerNorm
import Verif.Model.SoftmaxProof

/-!
Model of the prover and the verifier of the quantised layer normalisation, zkml/src/layers/transformer/layernorm.rs:641-699, 785-1098, 1223-1510.

Simplifications: as in Model/LookupLayers; the shifts `1 << range_check_bits`, `1 << top_chunk_scalar_log` and `1 << sum_dim_vars` do not overflow.
-/

namespace Model

variable {F : Type} [Field F] [DecidableEq F] {C : Type}

/-- `LayerNormProof`, layernorm.rs:641-667. -/
structure LayerNormProof (F C : Type) where
  logupProofs : List (LogUpProof F)
  commitments : List C
  accumulation : IOPProof F
  io : IOPProof F
  input : IOPProof F
  accEvals : List F
  evaluations : List F
  gammaEval : F
  betaEval : F

/-- The fields of `LayerNormCtx`, layernorm.rs:290-302, that the verifier uses apart from those naming the table and the node. -/
structure LayerNormCtx where
  rangeBits : ℕ
  dimSize : ℕ
  multiplier : ℤ
  topLog : ℕ

/-- `n` calls of `get_and_append_challenge(label)`, layernorm.rs:1305-1312. -/
def Transcript.labelledN (T : Transcript F) (label : String) : ℕ → T.State → List F × T.State
  | 0, ts => ([], ts)
  | n + 1, ts =>
    let (c, ts) := T.labelled ts label
    let (cs, ts) := T.labelledN label n ts
    (c :: cs, ts)

/-- `num_range_checks`, layernorm.rs:1279; panics without range checked bits. -/
def layerNormChunks (bl : ℕ) (ctx : LayerNormCtx) : Option ℕ := do
  let r ← checkedSub ctx.rangeBits 1
  some (r / bl + 1)

/-- `calculated_claim`, layernorm.rs:1335-1339. -/
def layerNormCalc (k : ℕ) (eqSqrt eqRange : F) (rlc accEvals : List F) : F :=
  ((accEvals.zip (List.replicate 2 eqSqrt ++ List.replicate k eqRange)).zip rlc).foldl (fun acc x => acc + x.1.1 * x.1.2 * x.2) 0

/-- `LayerNormCtx::verify` up to the check of the first sumcheck, layernorm.rs:1237-1346. `chals` are the challenges of the two tables. Returns the number of claims of the range lookup and the point. -/
def verifyLayerNormFirst (T : Transcript F) (bl : ℕ) (ctx : LayerNormCtx) (chals : List (F × F)) (proof : LayerNormProof F C) (ts : T.State) : Option (ℕ × List F × T.State) :=
  if proof.logupProofs.length = 2 then do
    let k ← layerNormChunks bl ctx
    let (claims, ts) ← verifyLogups T (proof.logupProofs.zip (chals.zip [1, k])) ts
    let inv ← claims[0]?
    let range ← claims[1]?
    let sq ← ceilLog2 (inv.length + range.length)
    let (bc, ts) := T.labelledN "batching" sq ts
    let rlc := computeBetas bc
    let claimed := ((inv ++ range).zip rlc).foldl (fun acc x => acc + x.1.eval * x.2) 0
    let inv0 ← inv[0]?
    let (sub, ts) ← verify T claimed proof.accumulation 2 inv0.point.length ts
    let range0 ← range[0]?
    let eqSqrt ← eqXYEval inv0.point sub.point
    let eqRange ← eqXYEval range0.point sub.point
    if layerNormCalc k eqSqrt eqRange rlc proof.accEvals = sub.expected then some (range.length, sub.point, ts) else none
  else none

/-- The index and the chunks put together, layernorm.rs:1363-1376. `rc` is the number of claims of the range lookup. -/
def layerNormRecombine (bl : ℕ) (ctx : LayerNormCtx) (rc : ℕ) (accEvals : List F) : Option F := do
  let r ← checkedSub rc 1
  let e0 ← accEvals[0]?
  let s := ((accEvals.drop 2).take r).foldl (fun s e => (s.1 + e * s.2, s.2 * ((2 ^ bl : ℕ) : F))) (e0 * ((2 ^ ctx.rangeBits : ℕ) : F), (1 : F))
  let inv ← checkedInv ((2 ^ ctx.topLog : ℕ) : F)
  let top ← accEvals.getLast?
  some (s.1 + top * inv * s.2)

/-- `get_input_poly_io_eval` and `get_mean_poly_io_eval`, layernorm.rs:681-691: the last but one and the last evaluation. -/
def layerNormIoEvals (evaluations : List F) : Option (F × F) := do
  let i ← checkedSub evaluations.length 2
  let x ← evaluations[i]?
  let m ← evaluations[i + 1]?
  some (x, m)

/-- `calculated_io_claim`, layernorm.rs:1403-1427. `p` is the characteristic, `A`, `B` and `G` the batching coefficients. -/
def layerNormIoCalc (p : ℕ) (ctx : LayerNormCtx) (v : ℕ) (A B G inputEq lastEq x m inv gamma beta : F) : F :=
  A * toField p ctx.multiplier * inputEq * (toField p (ctx.dimSize : ℤ) * ((2 ^ v : ℕ) : F) * x * x - m * m)
    + B * lastEq * (inv * gamma * (toField p (ctx.dimSize : ℤ) * x - m) + beta)
    + G * inputEq * inv

/-- `LayerNormCtx::verify`, the second sumcheck, layernorm.rs:1347-1435. Returns `sum_dim_vars` and the point. -/
def verifyLayerNormIo (T : Transcript F) (p bl : ℕ) (ctx : LayerNormCtx) (last : Claim F) (rc : ℕ) (proof : LayerNormProof F C) (sp : List F) (ts : T.State) : Option (ℕ × List F × T.State) := do
  let (c, ts) := T.labelled ts "batching"
  let (d, ts) := T.labelled ts "batching"
  let A := (1 - c) * (1 - d)
  let B := c * (1 - d)
  let G := (1 - c) * d
  let rec1 ← layerNormRecombine bl ctx rc proof.accEvals
  let e1 ← proof.accEvals[1]?
  let (sub, ts) ← verify T (A * rec1 + B * last.eval + e1 * G) proof.io 4 last.point.length ts
  let (x, m) ← layerNormIoEvals proof.evaluations
  let inv ← proof.evaluations[1]?
  let v ← ceilLog2 ctx.dimSize
  let half ← checkedInv (2 : F)
  let inputEq ← eqXYEval (List.replicate v half ++ sp) sub.point
  let lastEq ← eqXYEval last.point sub.point
  if layerNormIoCalc p ctx v A B G inputEq lastEq x m inv proof.gammaEval proof.betaEval = sub.expected then some (v, sub.point, ts) else none

/-- `LayerNormCtx::verify`, the third sumcheck, layernorm.rs:1437-1466. Returns the claim on the input. -/
def verifyLayerNormInput (T : Transcript F) (v : ℕ) (proof : LayerNormProof F C) (iop : List F) (ts : T.State) : Option (Claim F × T.State) := do
  let (c, ts) := T.labelled ts "batching"
  let (x, m) ← layerNormIoEvals proof.evaluations
  let (sub, ts) ← verify T (x + c * (m - x)) proof.input 2 iop.length ts
  let half ← checkedInv (2 : F)
  let eqIo ← eqXYEval iop sub.point
  let eqSum ← eqXYEval (List.replicate v half ++ iop.drop v) sub.point
  let inv ← checkedInv (eqIo + c * (((2 ^ v : ℕ) : F) * eqSum - eqIo))
  some (⟨sub.point, sub.expected * inv⟩, ts)

/-- The claims handed to the commitment verifier for the witness, layernorm.rs:1468-1494. -/
def layerNormWitness (v : ℕ) (proof : LayerNormProof F C) (sp iop : List F) : List (C × Claim F) :=
  proof.commitments.zip ((proof.evaluations.take (proof.evaluations.length - 2)).mapIdx fun i e => if i ≠ 1 then ⟨sp, e⟩ else ⟨iop.drop v, e⟩)

/-- `LayerNormCtx::verify`, layernorm.rs:1230-1511. Returns the claim on the input, the witness claims, the claims on `gamma` and `beta` (1496-1513), and the transcript. -/
def verifyLayerNorm (T : Transcript F) (p bl : ℕ) (ctx : LayerNormCtx) (chals : List (F × F)) (last : Claim F) (proof : LayerNormProof F C) (ts : T.State) :
    Option (Claim F × List (C × Claim F) × (Claim F × Claim F) × T.State) := do
  let (rc, sp, ts) ← verifyLayerNormFirst T bl ctx chals proof ts
  let (v, iop, ts) ← verifyLayerNormIo T p bl ctx last rc proof sp ts
  let (claim, ts) ← verifyLayerNormInput T v proof iop ts
  some (claim, layerNormWitness v proof sp iop, (⟨iop.take v, proof.gammaEval⟩, ⟨iop.take v, proof.betaEval⟩), ts)

/-- The terms of the first sumcheck, layernorm.rs:848-865: column times `eq` polynomial. Addresses: 0 and 2 are the columns of the inverse square root, 1 its `eq` polynomial, 3 the first range column, 4 its
`eq` polynomial, 5 and following the other range columns. -/
def layerNormTerms (rlc : List F) (k : ℕ) : List (F × List ℕ) :=
  [(rlc.getD 0 0, [0, 1]), (rlc.getD 1 0, [2, 1]), (rlc.getD 2 0, [3, 4])] ++ (List.range (k - 1)).map fun i => (rlc.getD (3 + i) 0, [5 + i, 4])

/-- The tables of the first sumcheck. -/
def layerNormHeap (n : ℕ) (ein eout : List F) (rs : List (List F)) (ip rp : List F) (a : ℕ) : Mle F :=
  ⟨n, ([ein, computeBetas ip, eout, rs.getD 0 [], computeBetas rp] ++ rs.drop 1).getD a ein⟩

/-- The terms of the second sumcheck, layernorm.rs:917-1003. Addresses: 0 `input_eq_poly`, 1 `input_poly`, 2 `mean_poly`, 3 `last_claim_eq`, 4 `gamma_poly`, 5 `inv_sqrt_out_poly`, 6 `beta_poly`. -/
def layerNormIoTerms (p : ℕ) (ctx : LayerNormCtx) (v : ℕ) (A B G : F) : List (F × List ℕ) :=
  [(A * toField p ctx.multiplier * toField p (ctx.dimSize : ℤ) * ((2 ^ v : ℕ) : F), [0, 1, 1]), (-A * toField p ctx.multiplier, [0, 2, 2]), (B * toField p (ctx.dimSize : ℤ), [3, 4, 1, 5]), (-B, [3, 4, 2, 5]),
    (B, [3, 6]), (G, [0, 5])]

/-- The first sumcheck of the prover, layernorm.rs:835-877. Returns the proof and `acc_evals`. -/
def proveLayerNormFirst (threads : ℕ) (T : Transcript F) (ein eout : List F) (rs : List (List F)) (ip rp : List F) (ts : T.State) : Option (IOPProof F × List F × T.State) := do
  let sq ← ceilLog2 (2 + rs.length)
  let (bc, ts) := T.labelledN "batching" sq ts
  let (acc, ev, ts) ← proveTerms threads T (layerNormHeap ip.length ein eout rs ip rp) ip.length (layerNormTerms (computeBetas bc) rs.length) ts
  let e0 ← ev[0]?
  let e1 ← ev[2]?
  let e2 ← ev[3]?
  some (acc, [e0, e1, e2] ++ ev.drop 5, ts)

/-- The tables of the second sumcheck, layernorm.rs:899-975. -/
def layerNormIoHeap (n v reps : ℕ) (half : F) (eout X M gamma beta sp lp : List F) (a : ℕ) : Mle F :=
  ⟨n, [computeBetas (List.replicate v half ++ sp), X, M, computeBetas lp, (List.replicate (2 ^ reps) gamma).flatten, eout.flatMap fun e => List.replicate (2 ^ v) e].getD a
    (List.replicate (2 ^ reps) beta).flatten⟩

/-- The second sumcheck of the prover, layernorm.rs:879-1003. Returns the proof, the number of coordinates of the normalised dimension and the evaluations of the input, the sums, `gamma`, the inverse square roots
and `beta`. -/
def proveLayerNormIo (threads : ℕ) (T : Transcript F) (p : ℕ) (ctx : LayerNormCtx) (n : ℕ) (eout X M gamma beta : List F) (sp : List F) (last : Claim F) (ts : T.State) :
    Option (IOPProof F × ℕ × (F × F × F × F × F) × T.State) := do
  let v ← ceilLog2 gamma.length
  let half ← checkedInv (2 : F)
  let (c, ts) := T.labelled ts "batching"
  let (d, ts) := T.labelled ts "batching"
  let reps ← checkedSub last.point.length v
  let (io, ev, ts) ← proveTerms threads T (layerNormIoHeap n v reps half eout X M gamma beta sp last.point) n (layerNormIoTerms p ctx v ((1 - c) * (1 - d)) (c * (1 - d)) ((1 - c) * d)) ts
  let x ← ev[1]?
  let m ← ev[2]?
  let g ← ev[4]?
  let inv ← ev[5]?
  let b ← ev[6]?
  some (io, v, (x, m, g, inv, b), ts)

/-- The third sumcheck of the prover, layernorm.rs:1005-1029. Returns the proof and the claim on the input. -/
def proveLayerNormInput (threads : ℕ) (T : Transcript F) (n v : ℕ) (X iop : List F) (ts : T.State) : Option (IOPProof F × Claim F × T.State) := do
  let half ← checkedInv (2 : F)
  let (ic, ts) := T.labelled ts "batching"
  let (input, ev, ts) ← proveTerms threads T (fun a => ⟨n, [X, computeBetas iop].getD a (computeBetas (List.replicate v half ++ iop.drop v))⟩) n [(1 - ic, [0, 1]), (ic * ((2 ^ v : ℕ) : F), [0, 2])] ts
  let xe ← ev[0]?
  some (input, ⟨input.point, xe⟩, ts)

/-- `LayerNorm::prove_step` after the lookup proofs, layernorm.rs:834-1098. `ein`, `eout` are the columns of the lookup of the inverse square root with first claim at `ip`, `rs` those of the range lookup with first
claim at `rp`; `X` and `M` are `input_poly` and `mean_poly`, of `n` variables; `gamma` and `beta` are the padded weights. The lookup proofs and the commitments are not part of the result. -/
def proveLayerNorm (threads : ℕ) (T : Transcript F) (p : ℕ) (ctx : LayerNormCtx) (n : ℕ) (ein eout : List F) (rs : List (List F)) (X M gamma beta : List F) (ip rp : List F) (last : Claim F) (ts : T.State) :
    Option (LayerNormProof F C × Claim F × T.State) := do
  let (acc, accEvals, ts) ← proveLayerNormFirst threads T ein eout rs ip rp ts
  let (io, v, (x, m, g, inv, b), ts) ← proveLayerNormIo threads T p ctx n eout X M gamma beta acc.point last ts
  let (input, claim, ts) ← proveLayerNormInput threads T n v X io.point ts
  some (⟨[], [], acc, io, input, accEvals, accEvals.take 1 ++ [inv] ++ accEvals.drop 2 ++ [x, m], g, b⟩, claim, ts)

/-- `LayerNorm::prove_step` with its lookups, layernorm.rs:790-1098, 1194-1217: `chals` are the challenges of the tables of the inverse square root and of the ranges. The columns are in the field already. The claims
added to the commitment prover are not part of the result. -/
def proveLayerNormStep (threads : ℕ) (T : Transcript F) (p : ℕ) (ctx : LayerNormCtx) (n : ℕ) (ein eout : List F) (rs : List (List F)) (X M gamma beta : List F) (commitments : List C) (chals : List (F × F))
    (last : Claim F) (ts : T.State) : Option (LayerNormProof F C × Claim F × T.State) := do
  let lookups := [([ein, eout], 2), (rs, 1)]
  if chals.length < 2 then none else
  let (logups, ts) ← proveLogups threads T (lookups.zip chals) ts
  let inv ← logups[0]?.bind fun l => l.outputClaims[0]?
  let range ← logups[1]?.bind fun l => l.outputClaims[0]?
  let (proof, claim, ts) ← proveLayerNorm (C := C) threads T p ctx n ein eout rs X M gamma beta inv.point range.point last ts
  some ({ proof with logupProofs := logups, commitments := commitments }, claim, ts)

end Model
