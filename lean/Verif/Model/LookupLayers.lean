import Verif.Model.LogUp
import Verif.Model.SamePoly
import Verif.Model.Quant

/-!
Model of the verifiers of the layers proved by lookups: `zkml/src/layers/{activation,requant,pooling}.rs`.

Simplifications: commitments are values of an arbitrary type `C`; `add_witness_claim` of the commitment verifier is the list of the
pairs it is called with, in order (its own checks are modelled in `Model/Commit.lean`). The fractions of the lookup proofs are
collected elsewhere (see `verifyLookups`).
-/

namespace Model

variable {F : Type} [Field F] [DecidableEq F] {C : Type}

/-- `ActivationProof`, activation.rs:61-72. -/
structure ActivationProof (F C : Type) where
  ioAccumulation : SamePolyProof F
  lookup : LogUpProof F
  commits : List C

/-- `verify_activation`, activation.rs:459-514. `scale` is the multiplier of GELU, none for ReLU. Returns the claim for the input and
the claims handed to the commitment verifier. -/
def verifyActivation (T : Transcript F) (n : ℕ) (scale : Option F) (last : Claim F) (proof : ActivationProof F C) (constant csc : F)
    (ts : T.State) : Option (Claim F × List (C × Claim F) × T.State) := do
  let (claims, _, ts) ← verifyLogup T proof.lookup 1 constant csc ts
  let c0 ← claims[0]?
  let (newOut, ts) ← verifySamePoly T n (last :: claims.drop 1) proof.ioAccumulation ts
  let wit := proof.commits.zip [c0, newOut]
  match scale with
  | none => some (c0, wit, ts)
  | some m => some (⟨c0.point, c0.eval * m⁻¹⟩, wit, ts)

/-- `RequantProof`, requant.rs:84-99. -/
structure RequantProof (F C : Type) where
  ioAccumulation : IOPProof F
  accumulationEvals : List F
  clampingLookup : LogUpProof F
  shiftedLookup : LogUpProof F
  commitments : List C

/-- The last fold of `verify_requant`, requant.rs:770-781. -/
def requantFold (beta chal : F) (evals : List F) (acc comb : F) : F :=
  (evals.foldl (fun s v => (s.1 + v * beta * s.2, s.2 * chal)) (acc, comb)).1

/-- The value compared with the sumcheck, requant.rs:757-781. -/
def requantCalc (lastBeta clampBeta shiftBeta chal : F) (evals : List F) : Option F := do
  let e1 ← evals[1]?
  let e0 ← evals[0]?
  some (requantFold shiftBeta chal (evals.drop 2) (chal * chal * clampBeta * e0 + (lastBeta + chal * clampBeta) * e1)
    (chal * chal * chal))

/-- `verify_requant`, requant.rs:689-805; `p` is the characteristic, `bl` is `BIT_LEN`. -/
def verifyRequant (T : Transcript F) (p bl : ℕ) (r : Requant) (last : Claim F) (proof : RequantProof F C) (constant csc : F)
    (ts : T.State) : Option (Claim F × List (C × Claim F) × T.State) := do
  let (clamp, _, ts) ← verifyLogup T proof.clampingLookup 1 constant csc ts
  let (shift, _, ts) ← verifyLogup T proof.shiftedLookup (r.shift / bl) constant 1 ts
  let (chal, ts) := T.labelled ts "requant_batching"
  let c0 ← clamp[0]?
  let s0 ← shift[0]?
  let c1 ← clamp[1]?
  let initial := alphaFold chal ([last.eval, c1.eval, c0.eval] ++ shift.map Claim.eval)
  let (sub, ts) ← verify T initial proof.ioAccumulation 2 c0.point.length ts
  let lastBeta ← eqXYEval last.point sub.point
  let clampBeta ← eqXYEval c0.point sub.point
  let shiftBeta ← eqXYEval s0.point sub.point
  let got ← requantCalc lastBeta clampBeta shiftBeta chal proof.accumulationEvals
  if got = sub.expected then do
    let e0 ← proof.accumulationEvals[0]?
    some (⟨sub.point, r.recombine p bl e0 (proof.accumulationEvals.drop 2)⟩,
      proof.commitments.zip (proof.accumulationEvals.map fun e => ⟨sub.point, e⟩), ts)
  else none

/-- `PoolingProof`, pooling.rs:61-75. -/
structure PoolingProof (F C : Type) where
  sumcheck : IOPProof F
  lookup : LogUpProof F
  commitments : List C
  zerocheckEvals : List F
  variableGap : ℕ

/-- The first fold of `verify_pooling`, pooling.rs:551-558. -/
def poolInitial (chal : F) (evals : List F) (last : F) : F :=
  let s := evals.foldl (fun s e => (s.1 + e * s.2, s.2 * chal)) ((0 : F), chal)
  s.1 + s.2 * last

/-- The value compared with the sumcheck, pooling.rs:573-594. -/
def poolExpected (beta lastBeta chal : F) (diffs : List F) (output : F) : F :=
  let s := diffs.foldl (fun s e => (s.1 * e, s.2.1 + s.2.2 * e, s.2.2 * chal)) (beta, (0 : F), chal)
  s.1 + s.2.1 * beta + output * lastBeta * s.2.2

/-- The weights of the four entries of a window, pooling.rs:617-632. -/
def poolWeights (r1 r2 : F) : List F := [(1 - r1) * (1 - r2), (1 - r1) * r2, r1 * (1 - r2), r1 * r2]

/-- The evaluation claimed of the input, pooling.rs:642-650. -/
def poolInputEval (r1 r2 output : F) (diffs : List F) : F :=
  (diffs.zip (poolWeights r1 r2)).foldl (fun acc x => acc + (output - x.1) * x.2) 0

/-- `[&[r1], &p[..gap], &[r2], &p[gap..]].concat()`, pooling.rs:634-640; slicing panics if `gap` is too large. -/
def poolPoint (r1 r2 : F) (gap : ℕ) (p : List F) : Option (List F) :=
  if gap ≤ p.length then some (r1 :: p.take gap ++ r2 :: p.drop gap) else none

/-- `verify_pooling`, pooling.rs:525-647. The kernel size and the gap are those of the proof. `[r1, r2]` is one challenge, twice. -/
def verifyPooling (T : Transcript F) (n : ℕ) (last : Claim F) (proof : PoolingProof F C) (constant csc : F)
    (ts : T.State) : Option (Claim F × List (C × Claim F) × T.State) := do
  let (claims, _, ts) ← verifyLogup T proof.lookup 4 constant csc ts
  let (chal, ts) := T.labelled ts "batch_pooling"
  let (sub, ts) ← verify T (poolInitial chal (claims.map Claim.eval) last.eval) proof.sumcheck 5 n ts
  let c0 ← claims[0]?
  let beta ← eqXYEval c0.point sub.point
  let lastBeta ← eqXYEval last.point sub.point
  let k ← checkedSub proof.zerocheckEvals.length 1
  let output ← proof.zerocheckEvals[k]?
  if poolExpected beta lastBeta chal (proof.zerocheckEvals.take k) output = sub.expected then do
    let (r, ts) := T.labelled ts "input_batching"
    let point ← poolPoint r r proof.variableGap sub.point
    some (⟨point, poolInputEval r r output (proof.zerocheckEvals.take k)⟩,
      proof.commitments.zip (proof.zerocheckEvals.map fun e => ⟨sub.point, e⟩), ts)
  else none

end Model
