import Verif.Model.Sumcheck
import Verif.Model.VirtualPoly

/-!
Model of the linear layers' provers and verifiers: `zkml/src/layers/dense.rs`, `matrix_mul.rs`, `matvec.rs`.

Tensors are flat row-major lists of field elements (the prover works on `Tensor<E>`). Claims for the
polynomial commitment are returned as a list of (name, claim) instead of being pushed into the commitment
verifier. Panics and errors are `none`.
-/

namespace Model

variable {F : Type} [Field F] [DecidableEq F]

/-- `Claim`, zkml/src/lib.rs: a point and the claimed evaluation at it. -/
structure Claim (F : Type) where
  point : List F
  eval : F
deriving DecidableEq

/-- The virtual polynomial `f·g` of two fresh tables, built with `VirtualPolynomial::new(num_vars)` and
`add_mle_list(vec![f, g], E::ONE)` and given to `prove_parallel`: dense.rs:482-492, matrix_mul.rs:820-824,
matvec.rs:85-90. -/
def proveProduct (threads : ℕ) (T : Transcript F) (f g : Mle F) (ts : T.State) :
    Option (IOPProof F × List F × T.State) := do
  let heap : ℕ → Mle F := fun a => if a = 0 then f else g
  let vp ← (VirtualPoly.new g.numVars).addMleList heap [0, 1] 1
  let (proof, st, ts) ← prove threads (.parallel threads) T vp.maxDegree vp.maxNumVars vp.products
    (vp.flattened.map heap) ts
  let evals ← finalEvaluations st
  some (proof, evals, ts)

/-- `individual_to_virtual_claim`, dense.rs:649-653, matrix_mul.rs:1144-1148: the product of *all* entries. -/
def individualToVirtual (claims : List F) : F := claims.foldl (fun acc e => acc * e) 1

/-! ### dense.rs -/

/-- `DenseProof`, dense.rs:56-68. -/
structure DenseProof (F : Type) where
  sumcheck : IOPProof F
  biasEval : F
  individualClaims : List F

/-- `Dense::prove_step`, dense.rs:423-560, for a weight matrix of `2^m` rows and `2^n` columns. Returns the
proof, the claim for the previous layer and the commitment claims. -/
def proveDense (threads : ℕ) (T : Transcript F) (m n : ℕ) (W b : List F) (last : Claim F) (input : List F)
    (ts : T.State) : Option (DenseProof F × Claim F × List (String × Claim F) × T.State) :=
  if m = last.point.length ∧ input.length = 2 ^ n then do
    let biasMle ← Mle.ofEvals m b
    let biasEval ← biasMle.evaluate last.point
    let mat ← Mle.ofEvals (n + m) W
    let mat ← mat.fixHighVariablesInPlace last.point
    let inp ← Mle.ofEvals n input
    if mat.numVars = inp.numVars then do
      let (proof, evals, ts) ← proveProduct threads T mat inp ts
      let e0 ← evals[0]?
      let e1 ← evals[1]?
      some (⟨proof, biasEval, evals⟩, ⟨proof.point, e1⟩,
        [("DenseWeight", ⟨proof.point ++ last.point, e0⟩), ("DenseBias", ⟨last.point, biasEval⟩)], ts)
    else none
  else none

/-- `DenseCtx::verify_dense`, dense.rs:576-641, with `n` sumcheck variables (`matrix_poly_aux` is
`from_mle_list_dimensions([[n, n]])`: degree 2, `n` variables). -/
def verifyDense (T : Transcript F) (n : ℕ) (last : Claim F) (proof : DenseProof F) (ts : T.State) :
    Option (Claim F × List (String × Claim F) × T.State) := do
  let (sub, ts) ← verify T (last.eval - proof.biasEval) proof.sumcheck 2 n ts
  let e0 ← proof.individualClaims[0]?
  if individualToVirtual proof.individualClaims = sub.expected then do
    let e1 ← proof.individualClaims[1]?
    some (⟨sub.point, e1⟩,
      [("DenseWeight", ⟨sub.point ++ last.point, e0⟩), ("DenseBias", ⟨last.point, proof.biasEval⟩)], ts)
  else none

/-! ### matrix_mul.rs -/

/-- The parts of `MatMulCtx` the verifier uses, matrix_mul.rs:136-148: number of sumcheck variables, numbers of
variables of the output's rows and columns, which operand is constant, transposition, bias. -/
structure MatMulCtx where
  numVars : ℕ
  rowVars : ℕ
  colVars : ℕ
  leftConst : Bool
  rightConst : Bool
  transposed : Bool
  withBias : Bool
deriving DecidableEq

/-- `MatMulProof`. -/
structure MatMulProof (F : Type) where
  sumcheck : IOPProof F
  individualClaims : List F
  biasEval : Option F

/-- `split_claim`, matrix_mul.rs:339-356: (point for the left matrix, point for the right matrix). Slicing past
the end panics. -/
def splitClaim (claim : Claim F) (colVars : ℕ) : Option (List F × List F) :=
  if colVars ≤ claim.point.length then some (claim.point.drop colVars, claim.point.take colVars) else none

/-- `full_points`, matrix_mul.rs:364-384. -/
def fullPoints (claim : Claim F) (proofPoint : List F) (colVars : ℕ) (transposed : Bool) :
    Option (List F × List F) := do
  let (l, r) ← splitClaim claim colVars
  some (proofPoint ++ l, if transposed then proofPoint ++ r else r ++ proofPoint)

/-- How the two operand claims are distributed: constant operands become commitment claims, the others output
claims. prove: matrix_mul.rs:844-866, verify: 1087-1108. -/
def routeClaims (leftConst rightConst : Bool) (l r : Claim F) (common : List (String × Claim F)) :
    List (Claim F) × List (String × Claim F) :=
  ((if leftConst then [] else [l]) ++ (if rightConst then [] else [r]),
   common ++ (if leftConst then [("MatMulWeight", l)] else []) ++
    (if rightConst then [("MatMulWeight", r)] else []))

/-- Partial evaluation of the right matrix, matrix_mul.rs:800-812: high variables if it is transposed, low ones
otherwise. -/
def fixRight (transposed : Bool) (m : Mle F) (point : List F) : Option (Mle F) :=
  if transposed then m.fixHighVariablesInPlace point else m.fixVariablesInPlace point

/-- `MatMul::prove_step`, matrix_mul.rs:701-874; `bias` is `Some` iff the layer has one. -/
def proveMatMul (threads : ℕ) (T : Transcript F) (ctx : MatMulCtx) (L R : List F) (bias : Option (List F))
    (last : Claim F) (ts : T.State) :
    Option (List (Claim F) × MatMulProof F × List (String × Claim F) × T.State) :=
  if ctx.rowVars + ctx.colVars = last.point.length then do
    let (pl, pr) ← splitClaim last ctx.colVars
    let (last', common, biasEval) ←
      match bias with
      | none => some (last, ([] : List (String × Claim F)), none)
      | some b => do
        let bm ← Mle.ofEvals ctx.colVars b
        let be ← bm.evaluate pr
        some ((⟨last.point, last.eval - be⟩ : Claim F), [("MatMulBias", (⟨pr, be⟩ : Claim F))], some be)
    let lm ← Mle.ofEvals (ctx.numVars + ctx.rowVars) L
    let lm ← lm.fixHighVariablesInPlace pl
    let rm ← Mle.ofEvals (ctx.numVars + ctx.colVars) R
    let rm ← fixRight ctx.transposed rm pr
    if lm.numVars = rm.numVars then do
      let (proof, evals, ts) ← proveProduct threads T lm rm ts
      if ctx.leftConst && ctx.rightConst then none
      else do
        let (fl, fr) ← fullPoints last' proof.point ctx.colVars ctx.transposed
        let e0 ← evals[0]?
        let e1 ← evals[1]?
        let (out, common) := routeClaims ctx.leftConst ctx.rightConst ⟨fl, e0⟩ ⟨fr, e1⟩ common
        some (out, ⟨proof, evals, biasEval⟩, common, ts)
    else none
  else none

/-- The bias part of `verify_matmul`, matrix_mul.rs:1056-1072: subtract the bias evaluation from the claim. -/
def peelBias (withBias : Bool) (last : Claim F) (pr : List F) (biasEval : Option F) :
    Option (Claim F × List (String × Claim F)) :=
  if withBias then
    biasEval.map fun be => ((⟨last.point, last.eval - be⟩ : Claim F), [("MatMulBias", (⟨pr, be⟩ : Claim F))])
  else some (last, [])

/-- `MatMulCtx::verify_matmul`, matrix_mul.rs:1048-1139. -/
def verifyMatMul (T : Transcript F) (ctx : MatMulCtx) (last : Claim F) (proof : MatMulProof F) (ts : T.State) :
    Option (List (Claim F) × List (String × Claim F) × T.State) := do
  let (_, pr) ← splitClaim last ctx.colVars
  let (last', common) ← peelBias ctx.withBias last pr proof.biasEval
  let (sub, ts) ← verify T last'.eval proof.sumcheck 2 ctx.numVars ts
  if ctx.leftConst && ctx.rightConst then none
  else do
    let (fl, fr) ← fullPoints last' sub.point ctx.colVars ctx.transposed
    let e0 ← proof.individualClaims[0]?
    let e1 ← proof.individualClaims[1]?
    let (out, common) := routeClaims ctx.leftConst ctx.rightConst ⟨fl, e0⟩ ⟨fr, e1⟩ common
    if individualToVirtual proof.individualClaims = sub.expected then some (out, common, ts) else none

/-! ### matvec.rs -/

/-- `MatVecProof`, matvec.rs:20-23. -/
structure MatVecProof (F : Type) where
  sumcheck : IOPProof F
  evaluations : List F

/-- `MatVec::prove`, matvec.rs:53-113. -/
def proveMatVec (threads : ℕ) (T : Transcript F) (m n : ℕ) (W : List F) (last : Claim F) (input : List F)
    (ts : T.State) : Option (MatVecProof F × Claim F × T.State) :=
  if m = last.point.length ∧ input.length = 2 ^ n then do
    let mat ← Mle.ofEvals (n + m) W
    let mat ← mat.fixHighVariablesInPlace last.point
    let inp ← Mle.ofEvals n input
    if mat.numVars = inp.numVars then do
      let (proof, evals, ts) ← proveProduct threads T mat inp ts
      let e1 ← evals[1]?
      some (⟨proof, evals⟩, ⟨proof.point, e1⟩, ts)
    else none
  else none

/-- `verify`, matvec.rs:120-148: the subclaim's expected evaluation is not looked at. -/
def verifyMatVec (T : Transcript F) (n : ℕ) (evalMatrixAt : List F → Option F) (last : Claim F)
    (proof : MatVecProof F) (ts : T.State) : Option (Claim F × T.State) := do
  let (sub, ts) ← verify T last.eval proof.sumcheck 2 n ts
  let me ← evalMatrixAt (sub.point ++ last.point)
  let e0 ← proof.evaluations[0]?
  if e0 = me then do
    let e1 ← proof.evaluations[1]?
    some (⟨sub.point, e1⟩, ts)
  else none

end Model
