import Verif.Lemmas.Commit
import Mathlib.Data.ZMod.Basic

/-!
C41: the bookkeeping of polynomial openings.
-/

namespace Props

open Model Spec Lemmas

variable {C K F P : Type} [DecidableEq K]

/-- A node with two weight polynomials and a table, for the examples. -/
def toyCommitCtx : CommitCtx ℕ ℕ := ⟨[(3, [("bias", ⟨10, 1⟩), ("weight", ⟨11, 2⟩)])], [(7, ⟨12, 1⟩)]⟩

/-- A history of calls for `toyCommitCtx`, with one witness. -/
def toyCommitCalls : List (CommitCall ℕ ℕ ℕ) :=
  [.witness ⟨20, 2⟩ ⟨[1, 2], 5⟩, .common 3 [("weight", ⟨[3, 4], 6⟩), ("bias", ⟨[5], 7⟩)], .common 4 [], .table 7 ⟨[8], 9⟩]

/-- C41: if a history of calls went through and the verification accepts, then every node with committed weights got claims exactly once, with a claim for
each of its weights; every committed table got a claim exactly once; and each claim so given is checked — either by its own accepted `PCS::verify` or as
part of the accepted `PCS::batch_verify` — together with its own commitment, nothing else being checked. -/
theorem C41_all_opened (tv : ℕ) (pcsVerify : C → List F → F → P → Bool) (batchVerify : List C → List (List F) → List F → P → Bool)
    (ctx : CommitCtx C K) (hctx : DistinctKeys ctx) (calls : List (CommitCall C K F)) (st : CommitVerifier C K F)
    (hrun : calls.foldlM (fun s c => s.step tv c) (CommitVerifier.new ctx) = some st) (batchProof : P) (trivialProofs : List P)
    (hv : st.verify pcsVerify batchVerify batchProof trivialProofs = true) :
    (∀ n ∈ ctx.model, calls.countP (isCommon n.1) = 1 ∧
      ∀ claims, CommitCall.common n.1 claims ∈ calls → claims ≠ [] → ∀ p ∈ n.2, ∃ claim, claims.lookup p.1 = some claim) ∧
    (∀ t ∈ ctx.tables, calls.countP (isTable t.1) = 1) ∧
    ∃ single batched : List (C × Claim F),
      (batched ++ single).Perm ((calls.flatMap (opened ctx)).map fun x => (x.1.comm, x.2)) ∧
      List.Forall₂ (fun x proof => pcsVerify x.1 x.2.point x.2.eval proof = true) single trivialProofs ∧
      batchVerify (batched.map (·.1)) (batched.map (·.2.point)) (batched.map (·.2.eval)) batchProof = true := by
  obtain ⟨h₁, h₂, h₃, h₄⟩ := run_spec tv ctx calls _ st (new_leftOf ctx hctx) hrun
  simp only [CommitVerifier.verify, Bool.and_eq_true, List.isEmpty_iff, beq_iff_eq] at hv
  obtain ⟨⟨⟨⟨e₁, e₂⟩, e₃⟩, e₄⟩, e₅⟩ := hv
  have hk : (CommitVerifier.new (F := F) ctx).model.map (·.1) = ctx.model.map (·.1) := by
    simp [CommitVerifier.new, Function.comp_def]
  have hk' : (CommitVerifier.new (F := F) ctx).tables.map (·.1) = ctx.tables.map (·.1) := by
    simp [CommitVerifier.new, Function.comp_def]
  refine ⟨fun n hn => ⟨?_, fun claims hc hne p hp => ?_⟩, fun t ht => ?_, st.trivial, st.claims, ?_, ?_, e₅⟩
  · have := h₂ n.1
    rw [e₁, hk, List.count_eq_one_of_mem hctx.nodes (List.mem_map.mpr ⟨n, hn, rfl⟩)] at this
    simpa using this
  · exact Option.isSome_iff_exists.mp (h₄ n.1 claims hc hne n.2 (lookup_of_mem hctx.nodes hn) p hp)
  · have := h₃ t.1
    rw [e₂, hk', List.count_eq_one_of_mem hctx.tables (List.mem_map.mpr ⟨t, ht, rfl⟩)] at this
    simpa using this
  · simpa [recorded, CommitVerifier.new] using h₁
  · rw [List.forall₂_iff_zip]
    refine ⟨e₃, fun {a b} hab => ?_⟩
    exact List.all_eq_true.mp e₄ (a, b) hab

/-- The example history goes through and is accepted by a scheme that accepts everything. -/
example : DistinctKeys toyCommitCtx ∧ ∃ st, toyCommitCalls.foldlM (fun s c => s.step 1 c) (CommitVerifier.new toyCommitCtx) = some st ∧
    st.verify (fun _ _ _ _ => true) (fun _ _ _ _ => true) () [(), ()] = true :=
  ⟨⟨by decide, by decide, by decide⟩, _, rfl, by decide⟩

/-- C41, completeness: whenever the verifier's calls go through, so do the prover's, and if each claim's point has as many coordinates as the polynomial has
variables, both hold the same claims against the same commitments in the same order, so the openings line up. -/
theorem C41_prover_in_step (tv : ℕ) (ctx : CommitCtx C K) (hctx : DistinctKeys ctx) (calls : List (CommitCall C K F)) (st : CommitVerifier C K F)
    (hsize : ∀ x ∈ calls.flatMap (opened ctx), x.2.point.length = x.1.numVars)
    (hrun : calls.foldlM (fun s c => s.step tv c) (CommitVerifier.new ctx) = some st) :
    ∃ pst : CommitProver C F, calls.foldlM (fun s c => s.step tv ctx c) ⟨[], []⟩ = some pst ∧
      pst.claims.map (fun x => (x.1.comm, x.2)) = st.claims ∧ pst.trivial.map (fun x => (x.1.comm, x.2)) = st.trivial := by
  obtain ⟨pst, h₁, h₂⟩ := sync_run tv ctx calls ⟨[], []⟩ _ st (new_leftOf ctx hctx) ⟨rfl, rfl⟩ hsize hrun
  exact ⟨pst, h₁, h₂.claims, h₂.trivial⟩

example : ∀ x ∈ toyCommitCalls.flatMap (opened toyCommitCtx), x.2.point.length = x.1.numVars := by decide

/-- C41, completeness: a history that gives each node and each table its claims exactly once goes through, and nothing is left over. -/
theorem C41_complete (tv : ℕ) (ctx : CommitCtx C K) (hctx : DistinctKeys ctx) (calls : List (CommitCall C K F))
    (hnode : ∀ n, calls.countP (isCommon n) = (ctx.model.map (·.1)).count n)
    (htable : ∀ k, calls.countP (isTable k) = (ctx.tables.map (·.1)).count k)
    (hclaims : ∀ n claims, CommitCall.common n claims ∈ calls → claims ≠ [] → ∀ ps, (n, ps) ∈ ctx.model → ∀ p ∈ ps,
      (claims.lookup p.1).isSome) :
    ∃ st : CommitVerifier C K F, calls.foldlM (fun s c => s.step tv c) (CommitVerifier.new ctx) = some st ∧ st.model = [] ∧ st.tables = [] := by
  have hk : (CommitVerifier.new (F := F) ctx).model.map (·.1) = ctx.model.map (·.1) := by
    simp [CommitVerifier.new, Function.comp_def]
  have hk' : (CommitVerifier.new (F := F) ctx).tables.map (·.1) = ctx.tables.map (·.1) := by
    simp [CommitVerifier.new, Function.comp_def]
  obtain ⟨st, hst⟩ := run_isSome tv ctx calls (CommitVerifier.new ctx) (new_leftOf ctx hctx) (by rw [hk]; exact hnode) (by rw [hk']; exact htable)
    (fun n claims hm hne ps hps => hclaims n claims hm hne ps (lookup_some_mem hps))
  have r := run_spec tv ctx calls _ st (new_leftOf ctx hctx) hst
  refine ⟨st, hst, eq_nil_of_count _ fun n => ?_, eq_nil_of_count _ fun k => ?_⟩
  · have := r.2.1 n
    rw [hk, hnode n] at this
    omega
  · have := r.2.2.1 k
    rw [hk', htable k] at this
    omega

example : (∀ n, toyCommitCalls.countP (isCommon n) = (toyCommitCtx.model.map (·.1)).count n) ∧
    (∀ k, toyCommitCalls.countP (isTable k) = (toyCommitCtx.tables.map (·.1)).count k) := by
  constructor <;> intro n
  · simp [toyCommitCalls, toyCommitCtx, isCommon, List.countP_cons, List.count_cons]
  · simp [toyCommitCalls, toyCommitCtx, isTable, List.countP_cons, List.count_cons]

/-- A claim about a polynomial that was never committed is dropped without an error: it is neither checked nor rejected. -/
theorem C41_unknown_claim_ignored (tv : ℕ) (st : CommitVerifier C K F) (node : ℕ) (claims : List (String × Claim F)) (id : String) (claim : Claim F)
    (hne : claims ≠ []) (ps : List (String × C)) (hps : st.model.lookup node = some ps) (hid : id ∉ ps.map (·.1)) :
    st.addCommon tv node ((id, claim) :: claims) = st.addCommon tv node claims := by
  have key : ∀ (ps : List (String × C)) (claims : List (String × Claim F)) (s : CommitVerifier C K F), id ∉ ps.map (·.1) →
      s.addPolys tv ps ((id, claim) :: claims) = s.addPolys tv ps claims := by
    intro ps
    induction ps with
    | nil => intro claims s _; rfl
    | cons p ps ih =>
      intro claims s hid
      simp only [List.map_cons, List.mem_cons, not_or] at hid
      simp only [CommitVerifier.addPolys, mapRemove]
      rw [if_neg hid.1]
      cases mapRemove p.1 claims with
      | none => rfl
      | some r => exact ih r.2 _ hid.2
  simp only [CommitVerifier.addCommon, if_neg hne, List.cons_ne_nil, if_false]
  cases hr : mapRemove node st.model with
  | none => rfl
  | some r =>
    have := (mapRemove_spec (v := r.1) (m' := r.2) hr).1
    rw [hps] at this
    cases this
    exact key _ _ _ hid

/-- The verifier sends a claim with a short point to the openings without queries whatever the size of the committed polynomial, while the prover decides by
the size of the polynomial. -/
theorem C41_routing_disagrees (tv : ℕ) (p : Committed C) (claim : Claim F) (hp : tv < p.numVars) (hc : claim.point.length ≤ tv)
    (st : CommitVerifier C K F) (pst : CommitProver C F) :
    (st.addWitness tv p.comm claim).trivial = st.trivial ++ [(p.comm, claim)] ∧ (pst.addWitness tv p claim).claims = pst.claims ++ [(p, claim)] := by
  unfold CommitVerifier.addWitness CommitProver.addWitness
  rw [if_pos hc, if_neg (by omega)]
  exact ⟨rfl, rfl⟩

end Props
