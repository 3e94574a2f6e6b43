import Verif.Model.Tensor
import Verif.Model.Slices
import Verif.Model.Layers
import Verif.Model.Terms
import Verif.Model.SamePoly

/-!
Model of the layer computing the query, key and value matrices, zkml/src/layers/transformer/qkv.rs, and of its padding, zkml/src/padding.rs.
-/

namespace Model

/-- `Tensor::add_dim2`, tensor.rs:909-928; `par_chunks(0)` panics. -/
def Tensor.addDim2 {α : Type} [Add α] (t b : Tensor α) : Option (Tensor α) :=
  match t.shape, b.shape with
  | [_, n], [n'] =>
    if n = n' ∧ 0 < n then some ⟨t.shape, (chunks n t.data).flatMap fun chunk => List.zipWith (· + ·) chunk b.data⟩ else none
  | _, _ => none

/-- One of the three outputs of `QKV::evaluate`, qkv.rs:279-316. -/
def qkvProject {α : Type} [Semiring α] (x w b : Tensor α) : Option (Tensor α) := do
  let y ← x.matmul w
  y.addDim2 b

/-- `QKV::evaluate`, qkv.rs:279-316; weights and biases in the order q, k, v. -/
def qkvEvaluate {α : Type} [Semiring α] (x wq bq wk bk wv bv : Tensor α) : Option (Tensor α × Tensor α × Tensor α) := do
  let c ← x.shape[1]?
  let r ← wq.shape[0]?
  if r = c then do
    let q ← qkvProject x wq bq
    let k ← qkvProject x wk bk
    let v ← qkvProject x wv bv
    some (q, k, v)
  else none

/-- `pad_minimum`, padding.rs:578-581. -/
def padMinimum (dim : ℕ) : ℕ :=
  let r := nextPow2 dim
  if r < 4 then 4 else r

/-- The padding of one weight matrix in `pad_qkv`, padding.rs:426-447; `cols` is the number of columns of the padded input. -/
def padQkvWeight {α : Type} [Zero α] (cols numHeads headDim : ℕ) (w : Tensor α) : Option (Tensor α) :=
  match w.shape with
  | [rows, _] =>
    if rows ≤ cols then do
      let w ← w.reshape [rows, numHeads, headDim]
      let w ← w.padToShape [padMinimum cols, padMinimum numHeads, padMinimum headDim]
      w.reshape [padMinimum cols, padMinimum numHeads * padMinimum headDim]
    else none
  | _ => none

/-- The padding of one bias in `pad_qkv`, padding.rs:450-456. -/
def padQkvBias {α : Type} [Zero α] (numHeads headDim : ℕ) (b : Tensor α) : Option (Tensor α) := do
  let b ← b.reshape [numHeads, headDim]
  let b ← b.padToShape [padMinimum numHeads, padMinimum headDim]
  b.reshape [padMinimum numHeads * padMinimum headDim]

/-- The shape the layer announces for its padded outputs, `OpInfo::output_shapes` with `PaddingMode::Padding` and `padded_weight_shape`, qkv.rs:96-101, 234-258. -/
def qkvPaddedOutputShape (inputRows numHeads headDim : ℕ) : List ℕ :=
  [nextPow2 inputRows, nextPow2 (nextPow2 headDim * nextPow2 numHeads)]

variable {F : Type} [Field F] [DecidableEq F]

/-- `QKVProof`, qkv.rs:63-83. -/
structure QkvProof (F : Type) where
  sumcheck : IOPProof F
  aggregation : SamePolyProof F
  preBias : List F
  /-- the array of three pairs -/
  ind : (F × F) × (F × F) × (F × F)

/-- `split_claim_point`, qkv.rs:170-182: (rows, columns); `r` and `c` are the numbers of row and column variables of the outputs. -/
def qkvSplit (r c : ℕ) (point : List F) : Option (List F × List F) :=
  if point.length = r + c then some (point.drop c, point.take c) else none

/-- The absorption of the claims before the bias, qkv.rs:213-220. -/
def qkvAbsorb (T : Transcript F) (claims : List (Claim F)) (pre : List F) (ts : T.State) : T.State :=
  (claims.zip pre).foldl (fun ts ce => T.appendExt (T.appendExts ts ce.1.point) ce.2) ts

/-- `challenges_for_batched_sumcheck`, qkv.rs:207-228; the first challenge is the constant 1. -/
def qkvChallenges (T : Transcript F) (claims : List (Claim F)) (pre : List F) (ts : T.State) : F × F × T.State :=
  let (c1, ts) := T.sample (qkvAbsorb T claims pre ts)
  let (c2, ts) := T.sample ts
  (c1, c2, ts)

/-- The claim on a bias and the evaluation before the bias, qkv.rs:516-538. -/
def qkvBiasClaim (r c : ℕ) (claim : Claim F) (bias : List F) : Option (Claim F × F) := do
  let (_, col) ← qkvSplit r c claim.point
  let m ← Mle.ofEvals c bias
  let e ← m.evaluate col
  some (⟨col, e⟩, claim.eval - e)

/-- The two tables of one product of the sum-check, qkv.rs:555-566. -/
def qkvTables (r k c : ℕ) (x : List F) (claim : Claim F) (w : List F) : Option (Mle F × Mle F) := do
  let (row, col) ← qkvSplit r c claim.point
  let xm ← Mle.ofEvals (k + r) x
  let fx ← xm.fixHighVariables row
  let wm ← Mle.ofEvals (c + k) w
  let fw ← wm.fixVariablesInPlace col
  some (fx, fw)

/-- `build_points`, qkv.rs:190-202, with the two evaluations. -/
def qkvClaims (r c : ℕ) (claim : Claim F) (pt : List F) (e : F × F) : Option (Claim F × Claim F) := do
  let (row, col) ← qkvSplit r c claim.point
  some (⟨pt ++ row, e.1⟩, ⟨col ++ pt, e.2⟩)

/-- `QKV::prove`, qkv.rs:462-632, for an input of `2^r` rows and `2^k` columns and outputs of `2^c` columns; returns the proof, the claims on weights and biases and the claim on the input. -/
def proveQkv (threads : ℕ) (T : Transcript F) (r k c : ℕ) (x wq wk wv bq bk bv : List F) (cq ck cv : Claim F) (ts : T.State) :
    Option (QkvProof F × List (String × Claim F) × Claim F × T.State) := do
  let (nq, pq) ← qkvBiasClaim r c cq bq
  let (nk, pk) ← qkvBiasClaim r c ck bk
  let (nv, pv) ← qkvBiasClaim r c cv bv
  let (c1, c2, ts) := qkvChallenges T [cq, ck, cv] [pq, pk, pv] ts
  let (xq, mq) ← qkvTables r k c x cq wq
  let (xk, mk) ← qkvTables r k c x ck wk
  let (xv, mv) ← qkvTables r k c x cv wv
  let heap : ℕ → Mle F := fun a => if a = 0 then xq else if a = 1 then mq else if a = 2 then xk else if a = 3 then mk else if a = 4 then xv else mv
  let (sc, evals, ts) ← proveTerms threads T heap k [(1, [0, 1]), (c1, [2, 3]), (c2, [4, 5])] ts
  match evals with
  | [a0, a1, a2, a3, a4, a5] => do
    let (iq, wq) ← qkvClaims r c cq sc.point (a0, a1)
    let (ik, wk) ← qkvClaims r c ck sc.point (a2, a3)
    let (iv, wv) ← qkvClaims r c cv sc.point (a4, a5)
    let (agg, ts) ← proveSamePoly threads T (k + r) x [iq, ik, iv] ts
    let e ← agg.evals[1]?
    some (⟨sc, agg, [pq, pk, pv], (a0, a1), (a2, a3), (a4, a5)⟩,
      [("WeightQ", wq), ("WeightK", wk), ("WeightV", wv), ("BiasQ", nq), ("BiasK", nk), ("BiasV", nv)], ⟨agg.sumcheck.point, e⟩, ts)
  | _ => none

/-- `QKVCtx::verify`, qkv.rs:683-817. -/
def verifyQkv (T : Transcript F) (r k c : ℕ) (cq ck cv : Claim F) (proof : QkvProof F) (ts : T.State) : Option (List (String × Claim F) × Claim F × T.State) := do
  let biasClaims ← ([cq, ck, cv].zip proof.preBias).mapM fun ce => do
    let (_, col) ← qkvSplit r c ce.1.point
    some (⟨col, ce.1.eval - ce.2⟩ : Claim F)
  let (c1, c2, ts) := qkvChallenges T [cq, ck, cv] proof.preBias ts
  let batched := (proof.preBias.zip [1, c1, c2]).foldl (fun acc ec => acc + ec.1 * ec.2) 0
  let (sub, ts) ← verify T batched proof.sumcheck 2 k ts
  let (iq, wq) ← qkvClaims r c cq sub.point proof.ind.1
  let (ik, wk) ← qkvClaims r c ck sub.point proof.ind.2.1
  let (iv, wv) ← qkvClaims r c cv sub.point proof.ind.2.2
  let common := ["WeightQ", "WeightK", "WeightV", "BiasQ", "BiasK", "BiasV"].zip ([wq, wk, wv] ++ biasClaims)
  if 0 + proof.ind.1.1 * proof.ind.1.2 * 1 + proof.ind.2.1.1 * proof.ind.2.1.2 * c1 + proof.ind.2.2.1 * proof.ind.2.2.2 * c2 = sub.expected then do
    let (agg, ts) ← verifySamePoly T (k + r) [iq, ik, iv] proof.aggregation ts
    some (common, agg, ts)
  else none

end Model
