import Verif.Model.Elementwise
import Verif.Model.LogUp
import Verif.Model.SamePoly

/-!
The layers at the two ends of a language model: token embeddings (`zkml/src/layers/transformer/embeddings.rs`), learned positional encodings (`positional.rs`) and the argmax over the logits
(`logits.rs`).

The field is the extension field. `val x` stands for `x.to_canonical_u64_vec()[0]`, the first coordinate of `x` as a machine integer. Claims for the polynomial commitment are returned instead of
being pushed into the commitment verifier.
-/

namespace Model

/-! ### Embeddings -/

/-- `Embeddings::evaluate`, embeddings.rs:197-238, on the flat data: `as usize` wraps negative numbers, an index outside the vocabulary or the table panics. -/
def embeddingsEvaluate {α : Type} (vocab emb : ℕ) (table : List α) (xs : List ℤ) : Option (List α) := do
  let rows ← xs.mapM fun x =>
    let idx := (x % 2 ^ 64).toNat
    if idx < vocab ∧ idx * emb + emb ≤ table.length then some ((table.drop (idx * emb)).take emb) else none
  some rows.flatten

variable {F : Type} [Field F] [DecidableEq F]

/-- `to_bit_sequence_le`, zkml/src/lib.rs:107-116, as field elements; panics if more than 64 bits are asked for. -/
def bitSequence (num len : ℕ) : Option (List F) :=
  if len ≤ 64 then some ((List.range len).map fun i => (((num >>> i) &&& 1 : ℕ) : F)) else none

/-- `split_output_point`, embeddings.rs:95-107: (row point, column point); `e` is the number of column variables. Slicing past the end panics. -/
def embSplit (e : ℕ) (point : List F) : Option (List F × List F) :=
  if e ≤ point.length then some (point.drop e, point.take e) else none

/-- `reduced_one_hot`, embeddings.rs:382-401: indexing outside either vector panics. -/
def reducedOneHot (size : ℕ) (betas : List F) (tokens : List ℕ) : Option (List F) :=
  tokens.zipIdx.foldlM (fun acc ti =>
    if ti.1 < acc.length then do
      let b ← betas[ti.2]?
      some (acc.set ti.1 (acc.getD ti.1 0 + b))
    else none) (List.replicate size 0)

/-- `EmbeddingsProof`, embeddings.rs:60-67. -/
structure EmbeddingsProof (F : Type) where
  sumcheck : IOPProof F
  individualClaims : List F

/-- `Embeddings::prove`, embeddings.rs:359-461, for a padded table of `2^v` rows and `2^e` columns: the proof, the claim on the one-hot matrix and the claim on the table. `tokens` are the canonical
integers of the inputs. -/
def proveEmbeddings (threads : ℕ) (T : Transcript F) (v e : ℕ) (W : List F) (tokens : List ℕ) (last : Claim F) (ts : T.State) :
    Option (EmbeddingsProof F × Claim F × Claim F × T.State) := do
  let (row, col) ← embSplit e last.point
  let red ← reducedOneHot (2 ^ v) (computeBetas row) tokens
  let inp ← Mle.ofEvals v red
  let mat ← Mle.ofEvals (v + e) W
  let mat ← mat.fixVariablesInPlace col
  if inp.numVars = mat.numVars then do
    let (proof, evals, ts) ← proveProduct threads T inp mat ts
    let e0 ← evals[0]?
    let e1 ← evals[1]?
    some (⟨proof, evals⟩, ⟨proof.point ++ row, e0⟩, ⟨col ++ proof.point, e1⟩, ts)
  else none

/-- `EmbeddingsCtx::verify`, embeddings.rs:473-534: the claim on the one-hot matrix and the claim on the table. -/
def verifyEmbeddings (T : Transcript F) (v e : ℕ) (last : Claim F) (proof : EmbeddingsProof F) (ts : T.State) : Option (Claim F × Claim F × T.State) := do
  let (sub, ts) ← verify T last.eval proof.sumcheck 2 v ts
  let (row, col) ← embSplit e last.point
  let e0 ← proof.individualClaims[0]?
  let e1 ← proof.individualClaims[1]?
  if e0 * e1 = sub.expected then some (⟨sub.point ++ row, e0⟩, ⟨col ++ sub.point, e1⟩, ts) else none

/-- The sum over the tokens in `verify_input_claim`, embeddings.rs:555-566, and in `verify_output_evaluation`, logits.rs:711-722. -/
def tokenSum (val : F → ℕ) (tokens col row : List F) : Option F :=
  (tokens.zip (computeBetas row)).foldlM (fun sum tb => do
    let bits ← bitSequence (val tb.1) col.length
    some (sum + tb.2 * identityEval col bits)) 0

/-- `EmbeddingsCtx::verify_input_claim`, embeddings.rs:536-572, for an input of rank 1. -/
def verifyEmbInput (val : F → ℕ) (v : ℕ) (tokens : List F) (claim : Claim F) : Option Unit :=
  if v + Nat.log2 (nextPow2 tokens.length) = claim.point.length then do
    let sum ← tokenSum val tokens (claim.point.take v) (claim.point.drop v)
    if sum = claim.eval then some () else none
  else none

/-! ### Positional encodings -/

/-- `Positional::evaluate`, positional.rs:153-185, for one input of `rows` rows: the first rows of the matrix of `cols` columns (`slice_2d`, tensor.rs:1928-1938, panics if there are not enough) are
added with the quantised addition of add.rs. -/
def positionalEvaluate (leftMul rightMul : ℤ) (rows cols : ℕ) (pos x : List ℤ) : Option (List ℤ) :=
  if rows * cols ≤ pos.length then addEvaluate leftMul rightMul x (pos.take (rows * cols)) else none

/-- `sample_random_coordinates`, positional.rs:80-96. -/
def extraCoordinates (T : Transcript F) (k : ℕ) (output sub : Claim F) (ts : T.State) : List F × T.State :=
  let ts := T.appendExts ts output.point
  let ts := T.appendExt ts output.eval
  let ts := T.appendExts ts sub.point
  let ts := T.appendExt ts sub.eval
  T.sampleN k ts

/-- `compute_positional_matrix_claim`, positional.rs:106-124: `usize` underflow panics. -/
def positionalClaim (point : List F) (subPosEval : F) (subEvals : List F) : Option (Claim F) :=
  if subEvals.length ≤ point.length then
    some ⟨point, (subEvals.zip (point.drop (point.length - subEvals.length))).foldl (fun ev sc => ev * (1 - sc.2) + sc.1 * sc.2) subPosEval⟩
  else none

/-- `SinglePositionalProof`, positional.rs:45-54. -/
structure PositionalProof (F : Type) where
  subEvals : List F
  add : AddProof F

/-- The two claims of the addition, positional.rs:351-371 and 522-540. -/
def twoClaims (claims : List (Claim F)) : Option (Claim F × Claim F) :=
  match claims with
  | [a, b] => some (a, b)
  | _ => none

/-- The evaluations of the sub-matrices, positional.rs:402-429: sub-matrix `i` is the block of `2^(n + i)` entries from `2^(n + i)` on, evaluated at the first `n + i` coordinates. -/
def subMatrixEvals (pos : List F) (point : List F) (n k : ℕ) : Option (List F) :=
  (List.range k).mapM fun i => do
    let m ← Mle.ofEvals (n + i) ((pos.drop (2 ^ (n + i))).take (2 ^ (n + i)))
    m.evaluate (point.take (n + i))

/-- `Positional::prove` for one input, positional.rs:351-442; `pos` is the padded matrix of `2^nv` entries and the input has `2^n` of them with the same number of columns. -/
def provePositional (T : Transcript F) (leftMul rightMul : F) (nv n : ℕ) (pos x : List F) (last : Claim F) (ts : T.State) :
    Option (PositionalProof F × Claim F × Claim F × T.State) := do
  let (claims, _, add) ← proveAdd leftMul rightMul false x (pos.take x.length) last
  let (input, sub) ← twoClaims claims
  if sub.point.length ≤ nv ∧ x.length * 2 ^ (nv - sub.point.length) = pos.length then do
    let (extra, ts) := extraCoordinates T (nv - sub.point.length) last sub ts
    let point := sub.point ++ extra
    let evals ← subMatrixEvals pos point n (nv - sub.point.length)
    let claim ← positionalClaim point sub.eval evals
    some (⟨evals, add⟩, input, claim, ts)
  else none

/-- One iteration of the loop of `PositionalCtx::verify`, positional.rs:521-574. -/
def verifyPositionalOne (T : Transcript F) (leftMul rightMul : F) (nv : ℕ) (last : Claim F) (proof : PositionalProof F) (ts : T.State) :
    Option (Claim F × Claim F × T.State) := do
  let (claims, _) ← verifyAdd leftMul rightMul false proof.add last
  let (input, sub) ← twoClaims claims
  if sub.point.length ≤ nv then do
    let (extra, ts) := extraCoordinates T (nv - sub.point.length) last sub ts
    let claim ← positionalClaim (sub.point ++ extra) sub.eval proof.subEvals
    some (input, claim, ts)
  else none

/-- `PositionalCtx::verify`, positional.rs:480-579: the input claims and the claim on the positional matrix. The claims of all iterations are inserted into a map under the same key (573), so the
last one remains. The checks on the numbers of shapes are about the context. -/
def verifyPositional (T : Transcript F) (leftMul rightMul : F) (nv : ℕ) (lasts : List (Claim F)) (proofs : List (PositionalProof F)) (ts : T.State) :
    Option (List (Claim F) × Option (Claim F) × T.State) :=
  if proofs.length = lasts.length then
    (lasts.zip proofs).foldlM (fun s lp => do
      let (input, claim, ts) ← verifyPositionalOne T leftMul rightMul nv lp.1 lp.2 s.2.2
      some (s.1 ++ [input], some claim, ts)) (([] : List (Claim F)), (none : Option (Claim F)), ts)
  else none

/-! ### Logits -/

/-- `max_in_slice`, zkml/src/lib.rs:194-206; `lo` is `N::MIN`. -/
def maxInSlice {α : Type} [LinearOrder α] (lo : α) (v : List α) : Option (α × ℕ) :=
  if v = [] then none else some (v.zipIdx.foldl (fun acc x => if acc.1 < x.1 then (x.1, x.2) else acc) (lo, 0))

/-- `evaluate_with_argmax_data` for one input, logits.rs:90-125: the position of the maximum and the maximum of each of the `rows` rows. -/
def logitsEvaluate {α : Type} [LinearOrder α] (lo : α) (rows cols : ℕ) (data : List α) : Option (List ℕ × List α) := do
  let r ← (List.range rows).mapM fun i => maxInSlice lo ((data.drop (i * cols)).take cols)
  some (r.map Prod.snd, r.map Prod.fst)

/-- `LogitsProof`, logits.rs:62-76, without the commitment. -/
structure LogitsProof (F : Type) where
  logup : LogUpProof F
  maxEval : F
  sumcheck : IOPProof F
  maxMatEval : F
  hadamard : IOPProof F
  inputEval : F

/-- `split_claim_point`, logits.rs:134-143: (column point, row point); `usize` underflow panics. -/
def logitsSplit (rowVars : ℕ) (point : List F) : Option (List F × List F) :=
  if rowVars ≤ point.length then some (point.take (point.length - rowVars), point.drop (point.length - rowVars)) else none

/-- `squeeze_challenge`, logits.rs:145-156. -/
def squeezeChallenge (T : Transcript F) (claim : Claim F) (ts : T.State) : F × T.State :=
  T.sample (T.appendExt (T.appendExts ts claim.point) claim.eval)

/-- `reduced_m`, logits.rs:399-402: `izip!` stops with the shortest list, indexing past the end panics. -/
def reducedMax (size : ℕ) (betas : List F) (outputs : List ℕ) (maxValues : List F) : Option (List F) :=
  (betas.zip (outputs.zip maxValues)).foldlM (fun acc x =>
    if x.2.1 < acc.length then some (acc.set x.2.1 (acc.getD x.2.1 0 + x.1 * x.2.2)) else none) (List.replicate size 0)

/-- `one_hot_output`, logits.rs:427-432. -/
def oneHotOutput (cols total : ℕ) (outputs : List ℕ) : Option (List F) :=
  outputs.zipIdx.foldlM (fun acc oi => if oi.2 * cols + oi.1 < acc.length then some (acc.set (oi.2 * cols + oi.1) 1) else none) (List.replicate total 0)

/-- `Logits::prove` after the lookup proof, logits.rs:379-471, for an input of `2^s` rows and `2^c` columns: `diff` is the output claim of the lookup proof. Returns the proof, the claim on the vector
of maxima and the claim on the input. -/
def proveLogits (threads : ℕ) (T : Transcript F) (s c : ℕ) (logup : LogUpProof F) (diff : Claim F) (x maxValues : List F) (outputs : List ℕ) (ts : T.State) :
    Option (LogitsProof F × Claim F × Claim F × T.State) := do
  let (_, row) ← logitsSplit s diff.point
  let maxMle ← Mle.ofEvals s maxValues
  let maxEval ← maxMle.evaluate row
  let inputClaim : Claim F := ⟨diff.point, maxEval - diff.eval⟩
  let red ← reducedMax (2 ^ c) (computeBetas row) outputs maxValues
  let (sc1, ev1, ts) ← proveProduct threads T ⟨c, red⟩ ⟨c, List.replicate (2 ^ c) 1⟩ ts
  let maxMatEval ← ev1[0]?
  let xm ← Mle.ofEvals (c + s) x
  let oh ← oneHotOutput (2 ^ c) (2 ^ (c + s)) outputs
  let (ch, ts) := squeezeChallenge T inputClaim ts
  let heap : ℕ → Mle F := fun a =>
    if a = 0 then xm else if a = 1 then ⟨c + s, oh⟩ else if a = 2 then ⟨c + s, computeBetas (sc1.point ++ row)⟩
    else if a = 3 then ⟨c + s, computeBetas diff.point⟩ else xm
  let (sc2, ev2, ts) ← proveTerms threads T heap (c + s) [(1, [0, 1, 2]), (ch, [3, 4])] ts
  let inputEval ← ev2[0]?
  some (⟨logup, maxEval, sc1, maxMatEval, sc2, inputEval⟩, ⟨row, maxEval⟩, ⟨sc2.point, inputEval⟩, ts)

/-- `verify_output_evaluation`, logits.rs:693-730, for outputs of shape `[n, 1]`. -/
def verifyLogitsOutput (val : F → ℕ) (outputs : List F) (claim : Claim F) : Option Unit :=
  if 2 ^ Nat.log2 outputs.length = outputs.length then do
    let (col, row) ← logitsSplit (Nat.log2 outputs.length) claim.point
    let sum ← tokenSum val outputs col row
    if sum = claim.eval then some () else none
  else none

/-- The part of `LogitsCtx::verify` after the lookup proof, logits.rs:615-677; `claim` is the claim the lookup proof returns. `inverse` of zero panics. -/
def verifyLogitsRest (T : Transcript F) (val : F → ℕ) (s c : ℕ) (outputs : List F) (proof : LogitsProof F) (claim : Claim F) (ts : T.State) :
    Option (Claim F × Claim F × T.State) := do
  let (_, row) ← logitsSplit s claim.point
  let inputClaim : Claim F := ⟨claim.point, proof.maxEval - claim.eval⟩
  let (sub1, ts) ← verify T proof.maxEval proof.sumcheck 2 c ts
  if sub1.expected = proof.maxMatEval then do
    let (ch, ts) := squeezeChallenge T inputClaim ts
    let (sub2, ts) ← verify T (proof.maxMatEval + ch * inputClaim.eval) proof.hadamard 3 (c + s) ts
    let betaEval := identityEval (sub1.point ++ row) sub2.point
    let inputEqEval := identityEval inputClaim.point sub2.point
    if betaEval * proof.inputEval = 0 then none
    else do
      verifyLogitsOutput val outputs ⟨sub2.point, (sub2.expected - ch * proof.inputEval * inputEqEval) * (betaEval * proof.inputEval)⁻¹⟩
      some (⟨row, proof.maxEval⟩, ⟨sub2.point, proof.inputEval⟩, ts)
  else none

/-- `LogitsCtx::verify`, logits.rs:580-678: the claim on the vector of maxima, the claim on the input and the fractions of the lookup. -/
def verifyLogits (T : Transcript F) (val : F → ℕ) (s c : ℕ) (constant csc : F) (outputs : List F) (proof : LogitsProof F) (ts : T.State) :
    Option (Claim F × Claim F × List (F × F) × T.State) := do
  let (claims, frac, ts) ← verifyLogup T proof.logup 1 constant csc ts
  match claims with
  | [claim] => do
    let (mx, inp, ts) ← verifyLogitsRest T val s c outputs proof claim ts
    some (mx, inp, frac, ts)
  | _ => none

end Model
