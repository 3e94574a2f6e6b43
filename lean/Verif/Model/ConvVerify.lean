import Verif.Model.SamePoly
import Verif.Model.Quant
import Verif.Model.Fft

/-!
Model of the verifier of the convolution layer, `zkml/src/layers/convolution.rs:1090-1376`.

Assertions that fail, indices out of range and inverses of zero are `none`. The order of the checks between two uses of the transcript is
not kept.
-/

namespace Model

variable {F : Type} [Field F] [DecidableEq F]

/-- `ConvProof`, convolution.rs:97-121. -/
structure ConvProof (F : Type) where
  fftProof : IOPProof F
  fftProofWeights : IOPProof F
  fftDelegation : List (IOPProof F)
  fftDelegationWeights : List (IOPProof F)
  ifftProof : IOPProof F
  ifftDelegation : List (IOPProof F)
  hadamardProof : IOPProof F
  fftClaims : List F
  fftWeightClaims : List F
  ifftClaims : List F
  fftDelegationClaims : List (List F)
  fftDelegationWeightsClaims : List (List F)
  ifftDelegationClaims : List (List F)
  partialEvals : List F
  hadamardClaims : List F
  biasClaim : F
  clearing : HadamardProof F

/-- The part of `ConvCtx` used by the verifier, convolution.rs:502-531. -/
structure ConvVerifyCtx where
  kx : ℕ
  nw : ℕ
  realNw : ℕ
  filterSize : ℕ
  unpaddedFilter : List ℕ
  paddedFilter : List ℕ

/-- `to_bits`, convolution.rs:82-89. -/
def toBits (num bitlen : ℕ) : List F := (List.range bitlen).map fun i => if num.testBit i then 1 else 0

/-- `pow_two_omegas`, convolution.rs:1450-1461; writing the first entry panics for `n = 1`. -/
def powTwoOmegas (adicity : ℕ) (g : F) (n : ℕ) (inverse : Bool) : Option (List F) := do
  let rou ← rootOfUnity adicity g n
  if 2 ≤ n then some (List.iterate (fun x => x * x) (if inverse then rou⁻¹ else rou) (n - 1)) else none

/-- `phi_eval`, convolution.rs:1463-1482. -/
def phiEval (r : List F) (rand1 rand2 : F) (exponents : List F) (first : Bool) : Option F :=
  if r.length ≤ exponents.length then
    let e := (r.zip (exponents.drop (exponents.length - r.length))).foldl (fun e x => e * (1 - x.1 + x.1 * x.2)) 1
    some (if first then (1 - rand2) * (1 - rand1 + rand1 * e) else 1 - rand1 + (1 - 2 * rand2) * rand1 * e)
  else none

/-- The number of variables of the `i`-th delegation, convolution.rs:484-500. -/
def delegationVars (logFs i : ℕ) : Option ℕ := if i < logFs then some (logFs - i) else none

/-- The loops of `verify_fft_delegation`, convolution.rs:1102-1133, and of the inverse, 1198-1235. The results of the sumchecks are
discarded. -/
def delegation (T : Transcript F) (logFs : ℕ) (exps rand : List F) (first : Bool) (claims : List (List F)) :
    ℕ → List (IOPProof F) → F → List F → T.State → Option (F × List F × T.State)
  | _, [], claim, prev, ts => some (claim, prev, ts)
  | i, p :: ps, claim, prev, ts => do
    let n ← delegationVars logFs i
    let (_, ts) ← verify T claim p 3 n ts
    let cs ← claims[i]?
    let c0 ← cs[0]?
    let c1 ← cs[1]?
    let c2 ← cs[2]?
    let r1 ← rand[i]?
    let r2 ← prev.getLast?
    let phi ← phiEval p.point r1 r2 exps (first && i == 0)
    if identityEval p.point prev = c0 ∧ phi = c1 then delegation T logFs exps rand first claims (i + 1) ps c2 p.point ts else none

/-- `verify_fft_delegation`, convolution.rs:1090-1141. -/
def verifyFftDelegation (T : Transcript F) (adicity : ℕ) (g : F) (logFs : ℕ) (hadamardPoint : List F) (claim : F)
    (proofs : List (IOPProof F)) (claims : List (List F)) (prev : List F) (ts : T.State) : Option T.State := do
  let exps ← powTwoOmegas adicity g (proofs.length + 1) false
  let (c, pr, ts) ← delegation T logFs exps hadamardPoint true claims 0 proofs claim prev ts
  let h ← hadamardPoint[proofs.length]?
  let p0 ← pr[0]?
  if c = (1 - 2 * h) * p0 + 1 - p0 then some ts else none

/-- `new_clearing_tensor`, convolution.rs:1508-1529, as field elements. -/
def clearingTensor (og padded : List ℕ) : Option (List F) :=
  match padded, og with
  | [a, b, c], [a', b', c'] => some ((List.range (a * b * c)).map fun idx =>
      if idx / (b * c) < a' ∧ idx / c % b < b' ∧ idx % c < c' then 1 else 0)
  | _, _ => none

/-- The clearing step of `verify_convolution`, convolution.rs:1166-1190. -/
def verifyClearing (T : Transcript F) (ctx : ConvVerifyCtx) (unpaddedInput paddedInput : List ℕ) (last : Claim F)
    (proof : HadamardProof F) (ts : T.State) : Option (Claim F × T.State) := do
  let og ← conv2dShape unpaddedInput ctx.unpaddedFilter
  let real ← conv2dShape paddedInput ctx.paddedFilter
  let tensor ← clearingTensor og (real.map nextPow2)
  let m ← Mle.ofEvals (Nat.log2 tensor.length) tensor
  let expected ← m.evaluate proof.sumcheck.point
  verifyHadamard T (Nat.log2 (nextPow2 tensor.length)) proof last expected ts

/-- The part of `verify_convolution` between the clearing and the weights, convolution.rs:1192-1297. `fft1` and `w1` are the second
entries of `fft_claims` and `fft_weight_claims`. -/
def convMiddle (T : Transcript F) (adicity : ℕ) (g : F) (ctx : ConvVerifyCtx) (last : Claim F) (proof : ConvProof F) (fft1 w1 : F)
    (ts : T.State) : Option T.State := do
  let logFs ← ilog2 ctx.filterSize
  let logHad ← ilog2 (ctx.kx * ctx.filterSize)
  let (_, ts) ← verify T (last.eval - proof.biasClaim) proof.ifftProof 2 (logFs + 1) ts
  if logFs = proof.ifftDelegation.length then do
    let ifft1 ← proof.ifftClaims[1]?
    let exps ← powTwoOmegas adicity g (proof.ifftDelegation.length + 1) true
    let (c, pr, ts) ← delegation T logFs exps (last.point.map fun x => 1 - x) false proof.ifftDelegationClaims 0 proof.ifftDelegation
      ifft1 proof.ifftProof.point ts
    let p0 ← pr[0]?
    let scale : F := ((2 ^ (proof.ifftDelegation.length + 1) : ℕ) : F)⁻¹
    if c = scale * 1 * p0 + scale * (1 - p0) then do
      let ifft0 ← proof.ifftClaims[0]?
      let (_, ts) ← verify T ifft0 proof.hadamardProof 3 (logHad + 1) ts
      let h0 ← proof.hadamardClaims[0]?
      let h1 ← proof.hadamardClaims[1]?
      let h2 ← proof.hadamardClaims[2]?
      if h2 = identityEval proof.ifftProof.point proof.hadamardProof.point then do
        let (_, ts) ← verify T h1 proof.fftProof 2 (logFs + 1) ts
        if logFs = proof.fftDelegation.length then do
          let ts ← verifyFftDelegation T adicity g logFs proof.hadamardProof.point fft1 proof.fftDelegation proof.fftDelegationClaims
            proof.fftProof.point ts
          let (_, ts) ← verify T h0 proof.fftProofWeights 2 (logFs + 1) ts
          verifyFftDelegation T adicity g logFs proof.hadamardProof.point w1 proof.fftDelegationWeights
            proof.fftDelegationWeightsClaims proof.fftProofWeights.point ts
        else none
      else none
    else none
  else none

/-- `(E::ONE - v).inverse()` after `pop`, convolution.rs:1301-1303, 1354-1356. -/
def popInverse (point : List F) : Option (List F × F) := do
  let v ← point.getLast?
  if 1 - v = 0 then none else some (point.dropLast, (1 - v)⁻¹)

/-- `y_weights`, convolution.rs:1305-1314. -/
def yWeights (ctx : ConvVerifyCtx) (logNw : ℕ) (weightsPoint partialEvals : List F) : Option F := do
  let terms ← ((List.range ctx.realNw).flatMap fun i => (List.range ctx.realNw).map fun j => (i, j)).mapM fun (ij : ℕ × ℕ) =>
    (partialEvals[ij.1 * ctx.realNw + ij.2]?).map fun e => e * identityEval (toBits (ij.1 * ctx.nw + ij.2) (logNw * 2)) weightsPoint
  some (terms.foldl (· + ·) 0)

/-- Slicing from `k`, panics if the list is shorter. -/
def dropChecked {α : Type} (k : ℕ) (l : List α) : Option (List α) := if k ≤ l.length then some (l.drop k) else none

/-- The end of `verify_convolution`, convolution.rs:1322-1373: the claim about the input, and those about the filter and the bias that
are handed to the commitment verifier. -/
def convClaims (T : Transcript F) (ctx : ConvVerifyCtx) (last : Claim F) (proof : ConvProof F) (ts : T.State) :
    Option (Claim F × Claim F × Claim F × T.State) := do
  let logReal ← ilog2 (ctx.realNw * ctx.realNw)
  let logFs ← ilog2 ctx.filterSize
  let tail ← dropChecked logFs last.point
  let bias ← dropChecked proof.ifftDelegation.length last.point
  let log2nw ← ilog2 (2 * ctx.nw * ctx.nw)
  let filterTail ← dropChecked log2nw (proof.hadamardProof.point ++ tail)
  let m ← Mle.ofEvals (Nat.log2 proof.partialEvals.length) proof.partialEvals
  let filterEval ← m.evaluate (T.sampleN logReal ts).1
  let iv ← popInverse proof.fftProof.point
  let log2fs ← ilog2 (ctx.filterSize * 2)
  let inputTail ← dropChecked log2fs proof.hadamardProof.point
  let fft0 ← proof.fftClaims[0]?
  some (⟨(iv.1.map fun x => 1 - x) ++ inputTail, fft0 * iv.2⟩, ⟨(T.sampleN logReal ts).1 ++ filterTail, filterEval⟩,
    ⟨bias, proof.biasClaim⟩, (T.sampleN logReal ts).2)

/-- `verify_convolution`, convolution.rs:1143-1373. -/
def verifyConv (T : Transcript F) (adicity : ℕ) (g : F) (ctx : ConvVerifyCtx) (unpaddedInput paddedInput : List ℕ)
    (last : Claim F) (proof : ConvProof F) (ts : T.State) : Option (Claim F × Claim F × Claim F × T.State) := do
  let lt ← verifyClearing T ctx unpaddedInput paddedInput last proof.clearing ts
  let fft1 ← proof.fftClaims[1]?
  let w1 ← proof.fftWeightClaims[1]?
  let ts ← convMiddle T adicity g ctx lt.1 proof fft1 w1 lt.2
  let wv ← popInverse proof.fftProofWeights.point
  let logNw ← ilog2 ctx.nw
  let y ← yWeights ctx logNw wv.1 proof.partialEvals
  let w0 ← proof.fftWeightClaims[0]?
  if w0 * wv.2 = y then convClaims T ctx lt.1 proof ts else none

end Model
