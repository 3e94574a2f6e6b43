import Verif.Model.Tensor
import Verif.Model.Layers
import Verif.Model.Terms
import Verif.Model.Eq
import Verif.Model.SamePoly

/-!
Model of `ConcatMatMul`, the product of two stacks of matrices, zkml/src/layers/concat_matmul.rs.
-/

namespace Model

/-- `InputMatrixDimensions`, concat_matmul.rs:69-80. -/
structure InputDims where
  concat : ℕ
  matMul : ℕ
  output : ℕ
  deriving DecidableEq

/-- `compute_permutation`, concat_matmul.rs:97-109, with the assertion of `Permutation::new` (52-63); the outer `none` is a panic. -/
def InputDims.permutation (d expected : InputDims) : Option (Option (List ℕ)) :=
  if d = expected then some none
  else
    let p := (((List.replicate 3 0).set expected.concat d.concat).set expected.output d.output).set expected.matMul d.matMul
    if p.all (· < 3) then some (some p) else none

/-- `build_point_for_input`, concat_matmul.rs:115-133: the map sorts by dimension, and a later entry replaces an earlier one with the same dimension. Simplified: dimensions are below 3. -/
def InputDims.buildPoint {F : Type} (d : InputDims) (concat matMul output : List F) : List F :=
  [2, 1, 0].flatMap fun t => if t = d.output then output else if t = d.matMul then matMul else if t = d.concat then concat else []

/-- `expected_dimension_for_left_input`, concat_matmul.rs:445-453. -/
def leftDims : InputDims := ⟨0, 2, 1⟩

/-- `expected_dimension_for_right_input`, concat_matmul.rs:457-465. -/
def rightDims : InputDims := ⟨0, 1, 2⟩

/-- Apply a permutation if there is one. -/
def permuteOpt {α : Type} [Zero α] (t : Tensor α) (p : Option (List ℕ)) : Option (Tensor α) :=
  match p with
  | none => some t
  | some p => t.permute3d p

/-- `ensure_shape_consistency`, concat_matmul.rs:181-206. -/
def concatShapesOk (l r : InputDims) (a b : List ℕ) : Bool :=
  a.length == b.length && a.length == 3 && l.concat < 3 && r.concat < 3 && l.matMul < 3 && r.matMul < 3
    && a.getD l.concat 0 == b.getD r.concat 0 && a.getD l.matMul 0 == b.getD r.matMul 0

/-- The product of two slices, concat_matmul.rs:610-616. -/
def sliceProduct {α : Type} [Semiring α] (a b : Tensor α) (m k k' p i : ℕ) : Option (Tensor α) := do
  let x ← a.slice3d i (i + 1)
  let x ← x.reshape [m, k]
  let y ← b.slice3d i (i + 1)
  let y ← y.reshape [k', p]
  x.matmul y

/-- Stacking the products, concat_matmul.rs:617-626. -/
def stackProducts {α : Type} (m p : ℕ) (results : List (Tensor α)) : Option (Tensor α) :=
  match results with
  | [] => none
  | x :: rest => do
    let x ← x.reshape [1, m, p]
    rest.foldlM Tensor.concat x

/-- `ConcatMatMul::evaluate`, concat_matmul.rs:581-631. -/
def concatMatMulEvaluate {α : Type} [Semiring α] (l r : InputDims) (perm : Option (List ℕ)) (a b : Tensor α) : Option (Tensor α) :=
  if concatShapesOk l r a.shape b.shape then do
    let a ← permuteOpt a (← l.permutation leftDims)
    let b ← permuteOpt b (← r.permutation rightDims)
    match a.shape, b.shape with
    | [n, m, k], [n', k', p] =>
      if n = n' then do
        let results ← (List.range n).mapM (sliceProduct a b m k k' p)
        let out ← stackProducts m p results
        permuteOpt out perm
      else none
    | _, _ => none
  else none

variable {F : Type} [Field F] [DecidableEq F]

/-- `into_mle`: the number of entries must be a power of two. -/
def intoMle (data : List F) : Option (Mle F) :=
  if 2 ^ Nat.log2 data.length = data.length then Mle.ofEvals (Nat.log2 data.length) data else none

/-- `input_mle_for_proving`, concat_matmul.rs:136-168. -/
def InputDims.inputMle (d : InputDims) (t : Tensor F) (point : List F) : Option (Mle F) :=
  if d.matMul < d.concat ∨ d.output = 1 then do
    let p ← t.permute3d [d.concat, d.matMul, d.output]
    let m ← intoMle p.data
    m.fixVariablesInPlaceParallel point
  else do
    let m ← intoMle t.data
    if d.output = 0 then m.fixHighVariablesInPlace point else m.fixVariablesInPlaceParallel point

/-- `new_dimensions`, concat_matmul.rs:331-335. -/
def newDimensions (p : List ℕ) : List ℕ :=
  p.zipIdx.foldl (fun nd si => nd.set si.1 si.2) [0, 0, 0]

/-- `split_output_claim_point`, concat_matmul.rs:281-344: the parts for the concatenation dimension, the rows and the columns. -/
def splitOutputPoint (shape : List ℕ) (perm : Option (List ℕ)) (point : List F) : Option (List F × List F × List F) :=
  match shape with
  | [a, b, c] =>
    if 2 ^ Nat.log2 a = a ∧ 2 ^ Nat.log2 b = b ∧ 2 ^ Nat.log2 c = c ∧ point.length = Nat.log2 a + Nat.log2 b + Nat.log2 c then
      let points := [point.drop (Nat.log2 b + Nat.log2 c), (point.take (Nat.log2 b + Nat.log2 c)).drop (Nat.log2 c), point.take (Nat.log2 c)]
      let nd := match perm with
        | none => [0, 1, 2]
        | some p => newDimensions p
      some (points.getD (nd.getD 0 0) [], points.getD (nd.getD 1 0) [], points.getD (nd.getD 2 0) [])
    else none
  | _ => none

/-- `split_sumcheck_point`, concat_matmul.rs:254-274: (concatenation part, mat mul part); slicing beyond the end panics. -/
def splitSumcheckPoint (l r : InputDims) (a b : List ℕ) (point : List F) : Option (List F × List F) :=
  let k := a.getD l.matMul 0
  if k = b.getD r.matMul 0 ∧ 2 ^ Nat.log2 k = k ∧ Nat.log2 k ≤ point.length then some (point.drop (Nat.log2 k), point.take (Nat.log2 k)) else none

/-- `ConcatMatMulProof`, concat_matmul.rs:366-374. -/
structure ConcatMatMulProof (F : Type) where
  sumcheck : IOPProof F
  individualClaims : List F

/-- `prove_step`, concat_matmul.rs:467-577; `out` is the output shape. -/
def proveConcatMatMul (threads : ℕ) (T : Transcript F) (l r : InputDims) (perm : Option (List ℕ)) (a b : Tensor F) (out : List ℕ) (last : Claim F) (ts : T.State) :
    Option (ConcatMatMulProof F × Claim F × Claim F × T.State) :=
  if concatShapesOk l r a.shape b.shape then do
    let (pc, row, col) ← splitOutputPoint out perm last.point
    let lm ← l.inputMle a row
    let rm ← r.inputMle b col
    let beta ← intoMle ((computeBetas pc).flatMap fun e => List.replicate (a.shape.getD l.matMul 0) e)
    if lm.numVars = rm.numVars ∧ lm.numVars = beta.numVars then do
      let (sc, evals, ts) ← proveTerms threads T (fun i => if i = 0 then beta else if i = 1 then lm else rm) lm.numVars [(1, [0, 1, 2])] ts
      let le ← evals[1]?
      let re ← evals[2]?
      let (cp, mp) ← splitSumcheckPoint l r a.shape b.shape sc.point
      some (⟨sc, evals⟩, ⟨l.buildPoint cp mp row, le⟩, ⟨r.buildPoint cp mp col, re⟩, ts)
    else none
  else none

/-- `ConcatMatMulCtx::verify`, concat_matmul.rs:801-890; `nv` is the number of variables in the context (`step_info`, 688-722), `a`, `b` and `out` are the padded shapes. -/
def verifyConcatMatMul (T : Transcript F) (l r : InputDims) (perm : Option (List ℕ)) (a b out : List ℕ) (nv : ℕ) (last : Claim F) (proof : ConcatMatMulProof F) (ts : T.State) :
    Option (Claim F × Claim F × T.State) :=
  if concatShapesOk l r a b then do
    let (sub, ts) ← verify T last.eval proof.sumcheck 3 nv ts
    let (pc, row, col) ← splitOutputPoint out perm last.point
    let (cp, mp) ← splitSumcheckPoint l r a b sub.point
    let c0 ← proof.individualClaims[0]?
    if identityEval cp pc = c0 then do
      let c1 ← proof.individualClaims[1]?
      let c2 ← proof.individualClaims[2]?
      if proof.individualClaims.foldl (· * ·) 1 = sub.expected then
        some (⟨l.buildPoint cp mp row, c1⟩, ⟨r.buildPoint cp mp col, c2⟩, ts)
      else none
    else none
  else none

end Model
