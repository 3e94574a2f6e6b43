import Verif.Model.LogUp

/-!
Model of the prover of the lookup argument: `LogUpInput` in zkml/src/lookup/logup_gkr/structs.rs, `get_mles` in circuit.rs, and `batch_prove` in prover.rs.

`none` stands for a panic or an error. Columns are given as extension field elements (the code stores base field elements and embeds them). Tables are shared by address as in
`Model.VirtualPoly`: address `0` is the equality table, `4 s + 1 + j` is table `j` of instance `s`.
-/

namespace Model

variable {F : Type} [Field F] [DecidableEq F]

/-- `LogUpInput`, structs.rs:136-151. -/
inductive LogUpInput (F : Type) where
  | lookup (cols : List (List F)) (constant csc : F) (perInstance : ℕ)
  | table (cols : List (List F)) (mult : List F) (constant csc : F)

/-- `usize::is_power_of_two`. -/
def powerOfTwo (n : ℕ) : Bool := n != 0 && 2 ^ Nat.log2 n == n

/-- `new_lookup`, structs.rs:154-191. -/
def LogUpInput.newLookup (cols : List (List F)) (constant csc : F) (perInstance : ℕ) : Option (LogUpInput F) :=
  match cols with
  | [] => none
  | c :: rest =>
    if powerOfTwo c.length && rest.all (fun x => x.length == c.length) then some (.lookup (c :: rest) constant csc perInstance) else none

/-- `new_table`, structs.rs:193-238. -/
def LogUpInput.newTable (cols : List (List F)) (mult : List F) (constant csc : F) : Option (LogUpInput F) :=
  match cols with
  | [] => none
  | c :: rest =>
    if powerOfTwo c.length && rest.all (fun x => x.length == c.length) && mult.length == c.length then some (.table (c :: rest) mult constant csc) else none

/-- `make_circuits`, structs.rs:248-279: one circuit per `columns_per_instance` columns, or the circuit of the table. `par_chunks(0)` panics. -/
def LogUpInput.circuits : LogUpInput F → Option (List (List (LogUpLayer F)))
  | .lookup cols c csc per =>
    if per = 0 then none
    else (chunks per cols).mapM fun g => do
      let l ← lookupLayer g c csc
      circuit l
  | .table cols mult c csc => do
    let l ← tableLayer cols mult c csc
    let ls ← circuit l
    some [ls]

/-- The columns of `base_mles`, structs.rs:281-302. -/
def LogUpInput.baseColumns : LogUpInput F → List (List F)
  | .lookup cols _ _ _ => cols
  | .table cols mult _ _ => mult :: cols

def LogUpInput.isTable : LogUpInput F → Bool
  | .lookup .. => false
  | .table .. => true

/-- `get_mles`, circuit.rs:136-180. -/
def LogUpLayer.mles (l : LogUpLayer F) : Option (List (Mle F)) := do
  let nv ← l.numVars
  match l with
  | .generic num den | .initialTable num den => do
    let (n1, n2) ← splitAt? (2 ^ nv) num
    let (d1, d2) ← splitAt? (2 ^ nv) den
    [n1, n2, d1, d2].mapM (Mle.ofEvals nv)
  | .initialLookup den => do
    let (d1, d2) ← splitAt? (2 ^ nv) den
    [d1, d2].mapM (Mle.ofEvals nv)

/-- The terms of one instance, prover.rs:107-131; `a` is the address of the first of its tables. -/
def LogUpLayer.terms (l : LogUpLayer F) (lambda currentAlpha : F) (a : ℕ) : List (F × List ℕ) :=
  match l with
  | .generic .. | .initialTable .. =>
    [(currentAlpha, [0, a, a + 3]), (currentAlpha, [0, a + 1, a + 2]), (currentAlpha * lambda, [0, a + 2, a + 3])]
  | .initialLookup .. => [(-currentAlpha, [0, a + 1]), (-currentAlpha, [0, a]), (currentAlpha * lambda, [0, a, a + 1])]

/-- The terms of all instances, prover.rs:99-133. -/
def logupTerms (lambda alpha : F) : List (LogUpLayer F) → ℕ → F → List (F × List ℕ)
  | [], _, _ => []
  | l :: ls, s, ca => l.terms lambda ca (4 * s + 1) ++ logupTerms lambda alpha ls (s + 1) (ca * alpha)

/-- The tables of a round by address. -/
def logupHeap (eq : Mle F) (ms : List (List (Mle F))) : ℕ → Mle F
  | 0 => eq
  | a + 1 => (ms.getD (a / 4) []).getD (a % 4) eq

/-- Term of one instance in the first claim, prover.rs:59-73. -/
def proverOutputTerm (b lambda : F) (e : List F) : Option F := do
  let (e0, e1, e2, e3) ← quad e
  some (b * (e1 - e0) + e0 + lambda * (b * (e3 - e2) + e2))

/-- Term of one instance in the claim of the next round, prover.rs:161-172, 222-234. -/
def proverTerm4 (b lambda : F) (e : List F) : Option F := do
  let (e0, e1, e2, e3) ← quad e
  some (b * (e2 - e0) + e0 + lambda * (b * (e1 - e3) + e3))

/-- Term of one instance in the last claim of a lookup, prover.rs:209-218. -/
def proverTerm2 (b : F) (e : List F) : Option F := do
  let e0 ← e[0]?
  let e1 ← e[1]?
  some (b * (e0 - e1) + e1)

/-- `get_mle_final_evaluations()[1..]`. -/
def dropEq : List F → Option (List F)
  | [] => none
  | _ :: e => some e

/-- The claim for the next round, prover.rs:158-176. -/
def proverNextClaim (pairs : Bool) (b alpha lambda : F) (evals : List F) : Option F := do
  let terms ← if pairs then (chunks 2 evals).mapM (proverTerm2 b) else (chunks 4 evals).mapM (proverTerm4 b lambda)
  some (alphaFold alpha terms)

/-- One iteration of the loop of `batch_prove`, prover.rs:85-180; `pairs` holds in the last round of a lookup. -/
def proveLogupRound (threads : ℕ) (T : Transcript F) (pairs : Bool) (nv : ℕ) (layers : List (LogUpLayer F)) (st : LogUpState F T.State) :
    Option (IOPProof F × List F × LogUpState F T.State) := do
  let ts := T.appendExt st.ts st.claim
  let ms ← layers.mapM LogUpLayer.mles
  let (proof, evals, ts) ← proveTerms threads T (logupHeap ⟨st.point.length, computeBetas st.point⟩ ms) nv (logupTerms st.lambda st.alpha layers 0 1) ts
  let evals ← dropEq evals
  let (b, ts) := T.labelled ts "logup_batching"
  let (alpha, ts) := T.labelled ts "logup_alpha"
  let (lambda, ts) := T.labelled ts "logup_lambda"
  let next ← proverNextClaim pairs b alpha lambda evals
  some (proof, evals, ⟨next, alpha, lambda, proof.point ++ [b], ts⟩)

/-- The loop of `batch_prove`: `k` rounds are left, the next one has `nv` variables, `iters` are the iterators over the layers of the circuits. -/
def proveLogupRounds (threads : ℕ) (T : Transcript F) (isTable : Bool) :
    ℕ → ℕ → List (List (LogUpLayer F)) → LogUpState F T.State → Option (List (IOPProof F × List F) × LogUpState F T.State)
  | 0, _, _, st => some ([], st)
  | k + 1, nv, iters, st => do
    let heads ← iters.mapM List.head?
    let (p, ev, st) ← proveLogupRound threads T (k == 0 && !isTable) nv heads st
    let (rest, st) ← proveLogupRounds threads T isTable k (nv + 1) (iters.map List.tail) st
    some ((p, ev) :: rest, st)

/-- The start of `batch_prove`, prover.rs:45-78. -/
def logupProverInit (T : Transcript F) (outs : List (List F)) (ts : T.State) : Option (LogUpState F T.State) := do
  let ts := T.appendUsize ts outs.length
  let ts := outs.foldl T.appendExts ts
  let (b, ts) := T.labelled ts "initial_batching"
  let (alpha, ts) := T.labelled ts "initial_alpha"
  let (lambda, ts) := T.labelled ts "initial_lambda"
  let terms ← outs.mapM (proverOutputTerm b lambda)
  some ⟨alphaFold alpha terms, alpha, lambda, [b], ts⟩

/-- An output claim, prover.rs:185-192. -/
def columnClaim (point col : List F) : Option (Claim F) := do
  let m ← Mle.ofEvals (Nat.log2 col.length) col
  let e ← m.evaluate point
  some ⟨point, e⟩

/-- `batch_prove`, prover.rs:24-195. -/
def batchProve (threads : ℕ) (T : Transcript F) (input : LogUpInput F) (ts : T.State) : Option (LogUpProof F × T.State) := do
  let circuits ← input.circuits
  let nvs ← circuits.mapM fun c => do
    let l ← c.head?
    l.numVars
  let outs ← circuits.mapM fun c => do
    let l ← c.getLast?
    some l.flat
  let st ← logupProverInit T outs ts
  let (rounds, st) ← proveLogupRounds threads T input.isTable (nvs.foldl max 0) 1 (circuits.map fun c => c.reverse.drop 1) st
  let claims ← input.baseColumns.mapM (columnClaim st.point)
  some (⟨rounds.map Prod.fst, rounds.map Prod.snd, claims, outs, input.isTable⟩, st.ts)

end Model
