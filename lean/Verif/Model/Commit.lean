import Verif.Model.SamePoly

/-!
The bookkeeping of polynomial openings, `zkml/src/commit/context.rs`: which claims are opened against which commitments.

Simplifications: commitments are an abstract type `C`, the polynomial commitment scheme's `verify` and `batch_verify` are parameters; maps are association lists (with
distinct keys, an assumption of the theorems) in the order of iteration; errors are `none`. The verifier aborts at the first error, so the state after an
error is not modelled.
-/

namespace Model

variable {C K F : Type} [DecidableEq K]

/-- `remove` of a map. -/
def mapRemove {α β : Type} [DecidableEq α] (k : α) : List (α × β) → Option (β × List (α × β))
  | [] => none
  | (k', v) :: rest =>
    if k' = k then some (v, rest)
    else do
      let r ← mapRemove k rest
      some (r.1, (k', v) :: r.2)

/-- `get` of a map. -/
def mapGet {α β : Type} [DecidableEq α] (k : α) : List (α × β) → Option β
  | [] => none
  | (k', v) :: rest => if k' = k then some v else mapGet k rest

/-- A commitment with the committed polynomial: the values of `model_comms_map` and `table_comms_map`, context.rs:20-29, 43-50. Of the polynomial only
the number of variables matters here. -/
structure Committed (C : Type) where
  comm : C
  numVars : ℕ

/-- `CommitmentContext`, context.rs:36-51. -/
structure CommitCtx (C K : Type) where
  model : List (ℕ × List (String × Committed C))
  tables : List (K × Committed C)

/-- `CommitmentVerifier`, context.rs:424-434. -/
structure CommitVerifier (C K F : Type) where
  model : List (ℕ × List (String × C))
  tables : List (K × C)
  claims : List (C × Claim F)
  trivial : List (C × Claim F)

/-- `CommitmentVerifier::new`, context.rs:443-470. -/
def CommitVerifier.new (ctx : CommitCtx C K) : CommitVerifier C K F :=
  ⟨ctx.model.map fun n => (n.1, n.2.map fun p => (p.1, p.2.comm)), ctx.tables.map fun t => (t.1, t.2.comm), [], []⟩

/-- `add_witness_claim` of the verifier, context.rs:472-485; `tv` is `PCS::trivial_num_vars()`. -/
def CommitVerifier.addWitness (tv : ℕ) (st : CommitVerifier C K F) (comm : C) (claim : Claim F) : CommitVerifier C K F :=
  if claim.point.length ≤ tv then { st with trivial := st.trivial ++ [(comm, claim)] }
  else { st with claims := st.claims ++ [(comm, claim)] }

/-- The loop over the node's commitments, context.rs:500-508. -/
def CommitVerifier.addPolys (tv : ℕ) : CommitVerifier C K F → List (String × C) → List (String × Claim F) → Option (CommitVerifier C K F)
  | st, [], _ => some st
  | st, p :: ps, claims => do
    let r ← mapRemove p.1 claims
    (st.addWitness tv p.2 r.1).addPolys tv ps r.2

/-- `add_common_claims` of the verifier, context.rs:487-510. -/
def CommitVerifier.addCommon (tv : ℕ) (st : CommitVerifier C K F) (node : ℕ) (claims : List (String × Claim F)) :
    Option (CommitVerifier C K F) :=
  if claims = [] then some st
  else do
    let r ← mapRemove node st.model
    { st with model := r.2 }.addPolys tv r.1 claims

/-- `add_table_claim` of the verifier, context.rs:512-519. -/
def CommitVerifier.addTable (tv : ℕ) (st : CommitVerifier C K F) (k : K) (claim : Claim F) : Option (CommitVerifier C K F) := do
  let r ← mapRemove k st.tables
  some ({ st with tables := r.2 }.addWitness tv r.1 claim)

/-- `verify`, context.rs:522-600; `pcsVerify` and `batchVerify` stand for `PCS::verify` and `PCS::batch_verify`. -/
def CommitVerifier.verify {P : Type} (pcsVerify : C → List F → F → P → Bool) (batchVerify : List C → List (List F) → List F → P → Bool)
    (st : CommitVerifier C K F) (batchProof : P) (trivialProofs : List P) : Bool :=
  st.model.isEmpty && st.tables.isEmpty && st.trivial.length == trivialProofs.length
    && (st.trivial.zip trivialProofs).all (fun x => pcsVerify x.1.1 x.1.2.point x.1.2.eval x.2)
    && batchVerify (st.claims.map (·.1)) (st.claims.map (·.2.point)) (st.claims.map (·.2.eval)) batchProof

/-- `CommitmentProver`, context.rs:264-274. -/
structure CommitProver (C F : Type) where
  claims : List (Committed C × Claim F)
  trivial : List (Committed C × Claim F)

/-- `add_witness_claim` of the prover, context.rs:290-309: routed by the size of the polynomial. -/
def CommitProver.addWitness (tv : ℕ) (st : CommitProver C F) (p : Committed C) (claim : Claim F) : CommitProver C F :=
  if p.numVars ≤ tv then { st with trivial := st.trivial ++ [(p, claim)] } else { st with claims := st.claims ++ [(p, claim)] }

/-- The loop over the node's commitments, context.rs:324-332. -/
def CommitProver.addPolys (tv : ℕ) : CommitProver C F → List (String × Committed C) → List (String × Claim F) → Option (CommitProver C F)
  | st, [], _ => some st
  | st, p :: ps, claims => do
    let r ← mapRemove p.1 claims
    (st.addWitness tv p.2 r.1).addPolys tv ps r.2

/-- `add_common_claims` of the prover, context.rs:311-333: the context's map is cloned, nothing is removed. -/
def CommitProver.addCommon (tv : ℕ) (ctx : CommitCtx C K) (st : CommitProver C F) (node : ℕ) (claims : List (String × Claim F)) :
    Option (CommitProver C F) :=
  if claims = [] then some st
  else do
    let polys ← mapGet node ctx.model
    st.addPolys tv polys claims

/-- `add_table_claim` of the prover, context.rs:336-353. -/
def CommitProver.addTable (tv : ℕ) (ctx : CommitCtx C K) (st : CommitProver C F) (k : K) (claim : Claim F) : Option (CommitProver C F) := do
  let p ← mapGet k ctx.tables
  some (st.addWitness tv p claim)

/-- A call of the layers (or of the table proofs) on the bookkeeping; for a witness the prover passes the commitment with its polynomial and the verifier the
commitment from the proof. -/
inductive CommitCall (C K F : Type) where
  | witness (p : Committed C) (claim : Claim F)
  | common (node : ℕ) (claims : List (String × Claim F))
  | table (k : K) (claim : Claim F)

/-- One call on the verifier's side. -/
def CommitVerifier.step (tv : ℕ) (st : CommitVerifier C K F) : CommitCall C K F → Option (CommitVerifier C K F)
  | .witness p claim => some (st.addWitness tv p.comm claim)
  | .common node claims => st.addCommon tv node claims
  | .table k claim => st.addTable tv k claim

/-- One call on the prover's side. -/
def CommitProver.step (tv : ℕ) (ctx : CommitCtx C K) (st : CommitProver C F) : CommitCall C K F → Option (CommitProver C F)
  | .witness p claim => some (st.addWitness tv p claim)
  | .common node claims => st.addCommon tv ctx node claims
  | .table k claim => st.addTable tv ctx k claim

end Model
