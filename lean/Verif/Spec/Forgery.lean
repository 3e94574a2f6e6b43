import Verif.Spec.Network
import Verif.Spec.Mle

/-!
A dishonest prover, which is not part of the code: it proves one requantisation layer with another input than the layer has, and appends two evaluations to the proof so that the claim
it leads to is nevertheless true of the input the layer has.
-/

namespace Spec

open Model

variable {F C CP : Type} [Field F] [DecidableEq F] {T : Transcript F}

/-- The two evaluations: with `γ` the batching challenge and `B` the base of the chunks they are `-γ v` and `v`, which the fold over the evaluations does not notice, and `v` is chosen so that the
recombined claim becomes the value of `x`. -/
def forgedEvals (T : Transcript F) (p bl : ℕ) (r : Requant) (last : Claim F) (proof : RequantProof F C) (constant csc : F) (ts : T.State) (x : List F) : Option (List F) := do
  let c ← verifyLogup T proof.clampingLookup 1 constant csc ts
  let d ← verifyLogup T proof.shiftedLookup (r.shift / bl) constant 1 c.2.2
  let v ← verifyRequant T p bl r last proof constant csc ts
  let γ := (T.labelled d.2.2 "requant_batching").1
  let B : F := ((2 ^ bl : ℕ) : F)
  let e := (mle x v.1.point - v.1.eval) * toField p r.fpm / (B ^ (proof.accumulationEvals.drop 2).length * (B - γ))
  some [-(γ * e), e]

/-- The forged proof of the layer. -/
def forgedProof (T : Transcript F) (p bl : ℕ) (r : Requant) (last : Claim F) (proof : RequantProof F C) (constant csc : F) (ts : T.State) (x : List F) : RequantProof F C :=
  { proof with
    accumulationEvals := proof.accumulationEvals ++ (forgedEvals T p bl r last proof constant csc ts x).getD []
    commitments := proof.commitments.take proof.accumulationEvals.length }

/-- What the dishonest prover makes of an honest proof of a requantisation of other inputs. -/
def forgedStep (e : NetEnv F C CP T) (l : NetLayer) (ins : List (Tensor F)) (claims : List (Claim F)) (s : NetState T.State F C) (made : List (Claim F) × NetProof F C × NetState T.State F C) :
    Option (List (Claim F) × NetProof F C × NetState T.State F C) :=
  match l, ins, claims, made with
  | .requant r, [x], [last], ([claim], .requant proof, s') => do
    let size ← r.clampingSize
    let ch ← s.challenge (.clamping size)
    some ([⟨claim.point, mle x.data claim.point⟩], .requant (forgedProof T e.p e.bl r last proof ch.1 ch.2 s.ts x.data), s')
  | _, _, _, _ => none

/-- The dishonest prover: `trace` has the inputs it uses, `target` is the layer with the other input. -/
def forgingProve (e : NetEnv F C CP T) (trace : ℕ → List (Tensor ℤ) × List (Tensor ℤ)) (target : ℕ) (l : NetLayer) (id : ℕ) (ins _outs : List (Tensor F)) (claims : List (Claim F))
    (s : NetState T.State F C) : Option (List (Claim F) × NetProof F C × NetState T.State F C) := do
  let made ← netProve e trace l id ins claims s
  if id = target then forgedStep e l ins claims s made else some made

/-- The whole dishonest prover. -/
def forgingProver (e : NetEnv F C CP T) (g : Graph NetLayer) (trace : ℕ → List (Tensor ℤ) × List (Tensor ℤ)) (target : ℕ) :=
  { netProver e g trace with prove := forgingProve e trace target }

/-- The last of the evaluations of the proof of a requantisation is not zero. -/
def LastNonzero : NetProof F C → Prop
  | .requant p => ∀ v, p.accumulationEvals.getLast? = some v → v ≠ 0
  | _ => True

end Spec
