import Verif.Model.LogUpProver
import Verif.Model.LookupLayers
import Verif.Model.Tensor

/-!
Model of the provers of the layers proved by lookups: `zkml/src/layers/{activation,requant,pooling}.rs`, with the generation of their witnesses.

Simplifications: as in Model/LookupLayers; a commitment together with its witness is its commitment, and `add_witness_claim` of the commitment prover is the list of the pairs it is
called with, in order. The counts of the looked-up elements, which only the table proofs use, are left out. The two challenges of a table are arguments.
-/

namespace Model

variable {F : Type} [Field F] [DecidableEq F] {C : Type}

/-! ### Activation -/

/-- The value looked up for an input, activation.rs:267-277: the input for ReLU; for GELU, with `(multiplier, min, max)`, the scaled input, which must be in range. -/
def activationInput (gelu : Option (ℤ × ℤ × ℤ)) (a : ℤ) : Option ℤ :=
  match gelu with
  | none => some a
  | some (m, mn, mx) => if mn ≤ a * m ∧ a * m ≤ mx then some (a * m) else none

/-- `gen_lookup_witness`, activation.rs:239-316: the two columns. `p` is the characteristic. -/
def activationWitness (p : ℕ) (gelu : Option (ℤ × ℤ × ℤ)) (inputs outputs : List ℤ) : Option (List F × List F) := do
  let rows ← (inputs.zip outputs).mapM fun ab => do
    let a ← activationInput gelu ab.1
    some ((toField p a : F), (toField p ab.2 : F))
  some (rows.map Prod.fst, rows.map Prod.snd)

/-- The claim about the input, activation.rs:419-428. -/
def activationInputClaim (p : ℕ) (gelu : Option (ℤ × ℤ × ℤ)) (c : Claim F) : Claim F :=
  match gelu with
  | none => c
  | some (m, _, _) => ⟨c.point, c.eval * (toField p m : F)⁻¹⟩

/-- `prove_step`, activation.rs:385-455. `commits` are the commitments of the two columns. Returns the proof, the claim about the input and the claims handed to the commitment
prover. -/
def proveActivation (threads : ℕ) (T : Transcript F) (p : ℕ) (gelu : Option (ℤ × ℤ × ℤ)) (commits : List C) (last : Claim F) (inputs outputs : List ℤ) (constant csc : F)
    (ts : T.State) : Option (ActivationProof F C × Claim F × List (C × Claim F) × T.State) := do
  let (col1, col2) ← activationWitness p gelu inputs outputs
  let info ← LogUpInput.newLookup [col1, col2] constant csc 2
  let (lookup, ts) ← batchProve threads T info ts
  let c0 ← lookup.outputClaims[0]?
  let c1 ← lookup.outputClaims[1]?
  let n ← ceilLog2 outputs.length
  let (acc, ts) ← proveSamePoly threads T n (outputs.map (toField p)) [last, c1] ts
  let e ← acc.evals[1]?
  let wit := [activationInputClaim p gelu c0, ⟨acc.sumcheck.point, e⟩].zip commits
  some (⟨acc, lookup, wit.map Prod.snd⟩, activationInputClaim p gelu c0, wit.map Prod.swap, ts)

/-! ### Requantisation -/

/-- `gen_lookup_witness`, requant.rs:216-347: the columns of the values before and after clamping, and of the chunks. -/
def requantColumns (p bl : ℕ) (r : Requant) (input : List ℤ) : List F × List F × List (List F) :=
  let w := input.map (r.witness bl)
  (w.map fun x => toField p x.1, w.map fun x => toField p x.2.1, (List.range (r.shift / bl)).map fun j => w.map fun x => toField p (x.2.2.getD j 0))

/-- The tables of the sumcheck, requant.rs:572-610, at the addresses in the order in which they are added: values after clamping, the beta polynomials of the last claim and of the
clamping lookup, values before clamping, the beta polynomial of the range lookup, the chunks. -/
def requantHeap (n : ℕ) (lq lp ls cin cout : List F) (chunks : List (List F)) : ℕ → Mle F
  | 0 => ⟨n, cout⟩
  | 1 => ⟨lq.length, computeBetas lq⟩
  | 2 => ⟨lp.length, computeBetas lp⟩
  | 3 => ⟨n, cin⟩
  | 4 => ⟨ls.length, computeBetas ls⟩
  | j + 5 => ⟨n, chunks.getD j cin⟩

/-- The terms of the sumcheck, requant.rs:618-634, for `k` chunks. -/
def requantTerms (chal : F) (k : ℕ) : List (F × List ℕ) :=
  [(1, [0, 1]), (chal, [0, 2]), (chal * chal, [3, 2])] ++ (List.range k).map fun j => (chal * chal * chal * chal ^ j, [4, 5 + j])

/-- `prove_step`, requant.rs:531-679. Returns the proof, the claim about the input and the claims handed to the commitment prover. -/
def proveRequant (threads : ℕ) (T : Transcript F) (p bl : ℕ) (r : Requant) (commits : List C) (last : Claim F) (input : List ℤ) (constant csc : F) (ts : T.State) :
    Option (RequantProof F C × Claim F × List (C × Claim F) × T.State) := do
  let (cin, cout, chunks) := requantColumns p bl r input
  let clampInfo ← LogUpInput.newLookup [cin, cout] constant csc 2
  let shiftInfo ← LogUpInput.newLookup chunks constant 1 1
  let (clampProof, ts) ← batchProve threads T clampInfo ts
  let (shiftProof, ts) ← batchProve threads T shiftInfo ts
  let c0 ← clampProof.outputClaims[0]?
  let s0 ← shiftProof.outputClaims[0]?
  let (chal, ts) := T.labelled ts "requant_batching"
  let n := Nat.log2 cin.length
  let (acc, evals, ts) ← proveTerms threads T (requantHeap n last.point c0.point s0.point cin cout chunks) n (requantTerms chal chunks.length) ts
  let eOut ← evals[0]?
  let eIn ← evals[3]?
  let shifted := evals.drop 5
  let wit := ([eIn, eOut] ++ shifted).zip commits
  some (⟨acc, wit.map Prod.fst, clampProof, shiftProof, wit.map Prod.snd⟩, ⟨acc.point, r.recombine p bl eIn shifted⟩,
    wit.map fun x => (x.2, ⟨acc.point, x.1⟩), ts)

/-! ### Pooling -/

/-- `Iterator::step_by` on a vector. -/
def stepBy {α : Type} (k : ℕ) (l : List α) : List α := (List.range ((l.length + k - 1) / k)).filterMap fun i => l[i * k]?

/-- `Itertools::interleave`. -/
def interleave {α : Type} : List α → List α → List α
  | x :: xs, y :: ys => x :: y :: interleave xs ys
  | xs, [] => xs
  | [], ys => ys

/-- The merging loop of `compute_polys`, pooling.rs:730-753, on the even or on the odd columns; `g` is `ceil_log2(width) - 1`. -/
def mergeColumns {α : Type} : ℕ → List (List α) → List (List α)
  | 0, ls => ls
  | g + 1, ls => mergeColumns g (List.zipWith interleave (ls.take (2 ^ g)) (ls.drop (2 ^ g)))

/-- One of the four vectors, pooling.rs:755-766: a chunk of columns merged and subtracted from the output. -/
def poolDiff (g : ℕ) (output : List ℤ) (chunk : List (List ℤ)) : Option (List ℤ) := do
  let merged ← (mergeColumns g chunk)[0]?
  some ((merged.zip output).map fun x => x.2 - x.1)

/-- `compute_polys`, pooling.rs:686-769, without the conversion to the field. -/
def computePolys (input : Tensor ℤ) : Option (List (List ℤ)) := do
  let pin ← input.padNextPow2 0
  let out ← input.maxpool2d 2 2
  let pout ← out.padNextPow2 0
  let w ← pin.shape[2]?
  let fixed := (List.range (2 * w)).map fun i => stepBy (2 * w) (pin.data.drop i)
  let l ← ceilLog2 w
  let g ← checkedSub l 1
  let even ← (chunks (w / 2) (stepBy 2 fixed)).mapM (poolDiff g pout.data)
  let odd ← (chunks (w / 2) (stepBy 2 (fixed.drop 1))).mapM (poolDiff g pout.data)
  some (even ++ odd)

/-- The tables of the sumcheck, pooling.rs:374-436: the four differences, the beta polynomial of the lookup, the output, the beta polynomial of the last claim. -/
def poolingHeap (n : ℕ) (lp lq output : List F) (diffs : List (List F)) (a : ℕ) : Mle F :=
  if a = 4 then ⟨n, computeBetas lp⟩ else if a = 5 then ⟨n, output⟩ else if a = 6 then ⟨n, computeBetas lq⟩ else ⟨n, diffs.getD a output⟩

/-- The terms of the sumcheck, pooling.rs:408-436. -/
def poolingTerms (chal : F) : List (F × List ℕ) :=
  [(1, [0, 1, 2, 3, 4]), (chal, [0, 4]), (chal * chal, [1, 4]), (chal * chal * chal, [2, 4]), (chal * chal * chal * chal, [3, 4]),
    (chal * chal * chal * chal * chal, [5, 6])]

/-- `prove_pooling`, pooling.rs:342-518. `n` is the number of variables of the context; `input` has the padded shape. Returns the proof, the claim about the input and the claims
handed to the commitment prover. -/
def provePooling (threads : ℕ) (T : Transcript F) (p n : ℕ) (commits : List C) (last : Claim F) (input : Tensor ℤ) (output : List ℤ) (constant csc : F) (ts : T.State) :
    Option (PoolingProof F C × Claim F × List (C × Claim F) × T.State) :=
  if input.shape.length = 3 ∧ output.length = 2 ^ n ∧ last.point.length = n then do
    let polys ← computePolys input
    let diffs : List (List F) := polys.map fun d => d.map (toField p)
    let info ← LogUpInput.newLookup diffs constant csc 1
    let (lookup, ts) ← batchProve threads T info ts
    let c0 ← lookup.outputClaims[0]?
    let (chal, ts) := T.labelled ts "batch_pooling"
    let (proof, evals, ts) ← proveTerms threads T (poolingHeap n c0.point last.point (output.map (toField p)) diffs) n (poolingTerms chal) ts
    let out ← evals[5]?
    let wit := (evals.take 4 ++ [out]).zip commits
    let w ← input.shape[2]?
    let l ← ceilLog2 w
    let gap ← checkedSub l 1
    let (r, ts) := T.labelled ts "input_batching"
    let point ← poolPoint r r gap proof.point
    some (⟨proof, lookup, wit.map Prod.snd, evals.take 4 ++ [out], gap⟩, ⟨point, poolInputEval r r out (evals.take 4)⟩,
      wit.map fun x => (x.2, ⟨proof.point, x.1⟩), ts)
  else none

end Model
