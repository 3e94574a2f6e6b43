import Verif.Model.Layers
import Verif.Model.Eq
import Verif.Model.Terms

/-!
Model of `zkml/src/commit/same_poly.rs` (aggregation of claims about one polynomial) and
`zkml/src/layers/hadamard.rs` (entrywise product).
-/

namespace Model

variable {F : Type} [Field F] [DecidableEq F]

/-- `same_poly::Proof`, same_poly.rs:41-48. -/
structure SamePolyProof (F : Type) where
  sumcheck : IOPProof F
  /-- `[0]` about the betas, `[1]` about the polynomial -/
  evals : List F

/-- `final_beta`, same_poly.rs:87-107: entrywise sum of the scaled tables. The parallel iterators are modelled by
the sequential ones: every entry is computed independently. -/
def finalBeta (n : ℕ) (as : List F) (claims : List (Claim F)) : List F :=
  let betaEvals := (as.zip claims).map fun ac => (computeBetas ac.2.point).map fun b => ac.1 * b
  (List.range (2 ^ n)).map fun i => betaEvals.foldl (fun acc b => acc + b.getD i 0) 0

/-- `Prover::new`, `add_claim` for every claim (same_poly.rs:74-84) and `prove` (85-119). -/
def proveSamePoly (threads : ℕ) (T : Transcript F) (n : ℕ) (poly : List F) (claims : List (Claim F))
    (ts : T.State) : Option (SamePolyProof F × T.State) :=
  if claims.all fun c => decide (c.point.length = n) then do
    let (as, ts) := T.sampleN claims.length ts
    let polyMle ← Mle.ofEvals n poly
    let (proof, evals, ts) ← proveProduct threads T ⟨n, finalBeta n as claims⟩ polyMle ts
    some (⟨proof, evals⟩, ts)
  else none

/-- `Verifier::new`, `add_claim` for every claim (same_poly.rs:142-151) and `verify` (153-183). The point is the
one in the proof. -/
def verifySamePoly (T : Transcript F) (n : ℕ) (claims : List (Claim F)) (proof : SamePolyProof F) (ts : T.State) :
    Option (Claim F × T.State) :=
  if claims.all fun c => decide (c.point.length = n) then do
    let (as, ts) := T.sampleN claims.length ts
    let yRes ← aggregatedRlc (claims.map Claim.eval) as
    let (sub, ts) ← verify T yRes proof.sumcheck 2 n ts
    let computed := (as.zip claims).foldl
      (fun acc ac => acc + ac.1 * identityEval ac.2.point proof.sumcheck.point) 0
    let given ← proof.evals[0]?
    if computed = given then do
      let e1 ← proof.evals[1]?
      if given * e1 = sub.expected then some (⟨proof.sumcheck.point, e1⟩, ts) else none
    else none
  else none

/-- `HadamardProof`, hadamard.rs:50-55. -/
structure HadamardProof (F : Type) where
  sumcheck : IOPProof F
  individualClaim : List F

/-- `hadamard::prove`, hadamard.rs:81-126, on tensors with `2^n` entries. -/
def proveHadamard (threads : ℕ) (T : Transcript F) (n : ℕ) (output : Claim F) (v1 v2 : List F) (ts : T.State) :
    Option (HadamardProof F × T.State) :=
  if output.point.length = n ∧ v1.length = 2 ^ n ∧ v2.length = 2 ^ n then do
    let (proof, evals, ts) ← proveTerms threads T
      (fun a => if a = 0 then ⟨n, v1⟩ else if a = 1 then ⟨n, v2⟩ else ⟨n, computeBetas output.point⟩) n
      [(1, [0, 1, 2])] ts
    some (⟨proof, evals.take 2⟩, ts)
  else none

/-- `hadamard::verify`, hadamard.rs:128-157. The point is the one in the proof; `evaluate` asserts its length. -/
def verifyHadamard (T : Transcript F) (n : ℕ) (proof : HadamardProof F) (output : Claim F) (expectedV2 : F)
    (ts : T.State) : Option (Claim F × T.State) := do
  let (sub, ts) ← verify T output.eval proof.sumcheck 3 n ts
  let betaEval ← (Mle.ofEvals output.point.length (computeBetas output.point)).bind fun m =>
    m.evaluate proof.sumcheck.point
  let e1 ← proof.individualClaim[1]?
  if expectedV2 = e1 then do
    let e0 ← proof.individualClaim[0]?
    if betaEval * e0 * e1 = sub.expected then some (⟨proof.sumcheck.point, e0⟩, ts) else none
  else none

end Model
