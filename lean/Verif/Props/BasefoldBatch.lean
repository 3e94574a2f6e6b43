import Verif.Lemmas.BatchSound
import Verif.Lemmas.GraphRun
import Verif.Props.Basefold

/-! C86: opening several polynomials of the commitment scheme at several points. -/

open Spec Model Lemmas

namespace Props

variable {B E D : Type} [Field E] [DecidableEq E] [DecidableEq D]

/-! ### Completeness -/

/-- C86, completeness for the Reed-Solomon code: for all tables above the base code's size (of any sizes), points and true claims about them such that every
point is used and the largest polynomial has a point of its size, all hash functions and transcripts, committing, `batch_open` and `batch_verify` succeed, prover
and verifier end in the same transcript, and the proof has the number of queries of the code. -/
theorem C86_rs_partial (spec : RsSpec) (gen : ℕ → E) (gamma : E) (setupLog maxLog : ℕ)
    (hg : IsPrimitiveRoot (gen (setupLog + spec.rateLog)) (2 ^ (setupLog + spec.rateLog))) (hgamma : gamma ≠ 0) (h2 : (2 : E) ≠ 0)
    (hm : maxLog ≤ setupLog) (hb : spec.basecodeLog ≤ maxLog) (hb0 : 0 < spec.basecodeLog) (env : BfEnv B E D)
    (fs : List (ℕ × List E)) (hfs : ∀ p ∈ fs, spec.basecodeLog < p.1 ∧ p.1 ≤ maxLog ∧ p.2.length = 2 ^ p.1) (hne : fs ≠ [])
    (points : List (List E)) (evals : List (Evaluation E))
    (hclaims : ∀ e ∈ evals, ∃ f point, fs[e.poly]? = some f ∧ points[e.point]? = some point ∧ point.length = f.1 ∧ e.value = mle f.2 point)
    (hused : ∀ i, i < points.length → ∃ e ∈ evals, e.point = i) (hcover : ∀ f ∈ fs, ∃ point ∈ points, f.1 ≤ point.length) (ts : env.T.State) :
    ∃ S comms roots proof ts', rsScheme spec gen gamma setupLog maxLog = some S ∧
      (fs.mapM fun p => bfCommit S env.hasher p.1 p.2) = some comms ∧ (comms.mapM fun c => c.tree.root) = some roots ∧
      batchOpen S env (fs.map fun p => ⟨p.1, p.2⟩) comms points evals ts = some (proof, ts') ∧
      batchVerify S env (List.zipWith (fun r p => ⟨r, some p.1⟩) roots fs) points evals proof ts = some ts' ∧
      proof.queries.length = spec.numQueries ∧ roots.length = fs.length := by
  obtain ⟨S, e1, e2, e3, e4, e5, e6, good⟩ := rsScheme_good spec gen gamma setupLog maxLog hg hgamma h2 hm hb
  obtain ⟨comms, roots, proof, ts', h1, h3, h4, h5, h6, h7, _⟩ := batch_open_full S _ good (rsWord_linear S _ e2 _ _ _) env (by omega) fs
    (by rw [e3, e4]; exact hfs) hne points evals hclaims hused hcover ts
  exact ⟨S, comms, roots, proof, ts', e1, h1, h3, h4, h5, by rw [h6, e5], h7⟩

/-- C86, completeness for the random foldable code. -/
theorem C86_basecode_partial (spec : BasecodeSpec) (flat : ℕ → E) (setupLog maxLog : ℕ) (h2 : (2 : E) ≠ 0)
    (hflat : ∀ i, i < 2 ^ (spec.rateLog + setupLog) → flat i ≠ 0) (hpos : 0 < spec.rateLog + setupLog) (hm : maxLog ≤ setupLog)
    (hb : spec.basecodeLog ≤ maxLog) (hb0 : 0 < spec.basecodeLog) (env : BfEnv B E D)
    (fs : List (ℕ × List E)) (hfs : ∀ p ∈ fs, spec.basecodeLog < p.1 ∧ p.1 ≤ maxLog ∧ p.2.length = 2 ^ p.1) (hne : fs ≠ [])
    (points : List (List E)) (evals : List (Evaluation E))
    (hclaims : ∀ e ∈ evals, ∃ f point, fs[e.poly]? = some f ∧ points[e.point]? = some point ∧ point.length = f.1 ∧ e.value = mle f.2 point)
    (hused : ∀ i, i < points.length → ∃ e ∈ evals, e.point = i) (hcover : ∀ f ∈ fs, ∃ point ∈ points, f.1 ≤ point.length) (ts : env.T.State) :
    ∃ S comms roots proof ts', basecodeScheme spec flat setupLog maxLog = some S ∧
      (fs.mapM fun p => bfCommit S env.hasher p.1 p.2) = some comms ∧ (comms.mapM fun c => c.tree.root) = some roots ∧
      batchOpen S env (fs.map fun p => ⟨p.1, p.2⟩) comms points evals ts = some (proof, ts') ∧
      batchVerify S env (List.zipWith (fun r p => ⟨r, some p.1⟩) roots fs) points evals proof ts = some ts' ∧
      proof.queries.length = spec.numQueries ∧ roots.length = fs.length := by
  obtain ⟨S, e1, e2, e3, e4, e5, e6, good⟩ := basecodeScheme_good spec flat setupLog maxLog h2 hflat hpos hm hb
  obtain ⟨comms, roots, proof, ts', h1, h3, h4, h5, h6, h7, _⟩ := batch_open_full S _ good (basecodeWord_linear S _ _ _ e3 e2) env (by omega) fs
    (by rw [e3, e4]; exact hfs) hne points evals hclaims hused hcover ts
  exact ⟨S, comms, roots, proof, ts', e1, h1, h3, h4, h5, by rw [h6, e5], h7⟩

/-- The hypotheses are met: a polynomial of three variables at one point and one of two variables at two points; a wrong value is refused. -/
example : (do
    let S ← rsScheme ⟨2, 1, 1⟩ (fun k => (3 : ZMod 17) ^ 2 ^ (4 - k)) 3 3 3
    let f : List (ZMod 17) := [1, 5, 7, 2, 9, 0, 3, 16]
    let g : List (ZMod 17) := [4, 15, 6, 3]
    let cf ← bfCommit S toyEnv.hasher 3 f
    let cg ← bfCommit S toyEnv.hasher 2 g
    let rf ← cf.tree.root
    let rg ← cg.tree.root
    let pts : List (List (ZMod 17)) := [[2, 4, 11], [5, 6], [1, 7]]
    let ts : List (ZMod 17) := [3, 8, 15, 9, 1, 2, 4, 5, 6, 7, 11, 12, 3, 14]
    let evs : List (Evaluation (ZMod 17)) := [⟨0, 0, mle f [2, 4, 11]⟩, ⟨1, 1, mle g [5, 6]⟩, ⟨1, 2, mle g [1, 7]⟩]
    let evs' : List (Evaluation (ZMod 17)) := [⟨0, 0, mle f [2, 4, 11]⟩, ⟨1, 1, mle g [5, 6] + 1⟩, ⟨1, 2, mle g [1, 7]⟩]
    let proof ← batchOpen S toyEnv [⟨3, f⟩, ⟨2, g⟩] [cf, cg] pts evs ts
    let good ← batchVerify S toyEnv [⟨rf, some 3⟩, ⟨rg, some 2⟩] pts evs proof.1 ts
    some (proof.1.messages.length, proof.1.queries.length, proof.2, good,
      (batchVerify S toyEnv [⟨rf, some 3⟩, ⟨rg, some 2⟩] pts evs' proof.1 ts).isNone))
    = some (2, 2, [7, 11, 12, 3, 14], [7, 11, 12, 3, 14], true) := by decide +kernel

/-- Without the condition on the largest polynomial completeness is false: the prover takes the number of variables from the polynomials, the verifier from the points. A
polynomial of three variables without a claim beside one of two variables with one: the honest proof is refused. -/
theorem C86_unclaimed_false : (do
    let S ← rsScheme ⟨2, 1, 1⟩ (fun k => (3 : ZMod 17) ^ 2 ^ (4 - k)) 3 3 3
    let f : List (ZMod 17) := [1, 5, 7, 2, 9, 0, 3, 16]
    let g : List (ZMod 17) := [4, 15, 6, 3]
    let cf ← bfCommit S toyEnv.hasher 3 f
    let cg ← bfCommit S toyEnv.hasher 2 g
    let rf ← cf.tree.root
    let rg ← cg.tree.root
    let ts : List (ZMod 17) := [3, 8, 15, 9, 1, 2, 4, 5, 6, 7, 11, 12, 3, 14]
    let proof ← batchOpen S toyEnv [⟨3, f⟩, ⟨2, g⟩] [cf, cg] [[5, 6]] [⟨1, 0, mle g [5, 6]⟩] ts
    some (batchVerify S toyEnv [⟨rf, some 3⟩, ⟨rg, some 2⟩] [[5, 6]] [⟨1, 0, mle g [5, 6]⟩] proof.1 ts).isNone) = some true := by decide +kernel

/-- A point without a claim: the prover panics, whatever the polynomials and the other points. -/
theorem C86_unused_point_false (S : CodeScheme E) (env : BfEnv B E D) (polys : List (Mle E)) (comms : List (BfCommitted B E D)) (points : List (List E))
    (evals : List (Evaluation E)) (i : ℕ) (hi : i < points.length) (h : ∀ e ∈ evals, e.point ≠ i) (ts : env.T.State) :
    batchOpen S env polys comms points evals ts = none := by
  have hne : points ≠ [] := by rintro rfl; simp at hi
  unfold batchOpen
  rw [if_neg (by rintro ⟨_, _, h, _⟩; exact hne h)]
  rcases hres : batchOpenFull S env polys comms points evals ts with _ | res
  · rfl
  exfalso
  unfold batchOpenFull at hres
  simp only [Option.bind_eq_bind, Option.bind_eq_some_iff] at hres
  obtain ⟨N, _, hres⟩ := hres
  split at hres
  swap
  · cases hres
  simp only [Option.bind_eq_some_iff] at hres
  obtain ⟨red, hred, _⟩ := hres
  unfold batchReduce at hred
  simp only [Option.bind_eq_bind, Option.bind_eq_some_iff] at hred
  obtain ⟨target, _, merged, hmerge, sc, hsc, _⟩ := hred
  have hmi : merged[i]? = some ((1 : E), (⟨0, []⟩ : Mle E)) := by
    unfold mergePolys at hmerge
    have key : ∀ (l : List (Evaluation E × E)) (acc acc' : List (E × Mle E)), (∀ p ∈ l, p.1.point ≠ i) →
        (l.foldlM (fun acc p => do
          let cur ← acc[p.1.point]?
          let poly ← polys[p.1.poly]?
          let new ← mergeInto cur poly p.2
          some (acc.set p.1.point new)) acc) = some acc' → acc'[i]? = acc[i]? := by
      intro l
      induction l with
      | nil => intro acc acc' _ h; simp at h; rw [h]
      | cons p l ih =>
        intro acc acc' hp h
        rw [List.foldlM_cons] at h
        simp only [Option.bind_eq_bind, Option.bind_eq_some_iff] at h
        obtain ⟨acc1, ⟨cur, _, poly, _, new, _, h1⟩, h2⟩ := h
        rw [ih acc1 acc' (fun q hq => hp q (by simp [hq])) (by simpa using h2), ← Option.some.inj h1, List.getElem?_set_ne (hp p (by simp))]
    rw [key _ _ _ (fun p hp => h p.1 (List.of_mem_zip hp).1) hmerge, List.getElem?_replicate, if_pos hi]
  unfold classicProve at hsc
  split at hsc
  swap
  · cases hsc
  obtain ⟨n, rfl⟩ : ∃ n, N = n + 1 := ⟨N - 1, by omega⟩
  simp only [classicLoop, Option.bind_eq_bind, Option.bind_eq_some_iff] at hsc
  obtain ⟨msg, _, terms, hterms, _⟩ := hsc
  have hall := (mapM_forall₂ _ _ _).mp hterms
  have hget : ∀ {α β : Type} {R : α → β → Prop} {l : List α} {o : List β}, List.Forall₂ R l o → ∀ (j : ℕ) (a : α), l[j]? = some a → ∃ b, R a b := by
    intro α β R l o hR
    induction hR with
    | nil => intro j a h; simp at h
    | cons hab _ ih =>
      intro j a h
      rcases j with _ | j
      · simp at h; subst h; exact ⟨_, hab⟩
      · exact ih j a (by simpa using h)
  obtain ⟨b, hb⟩ := hget hall i ⟨1, ⟨points[i].length, buildEq points[i]⟩, ⟨0, []⟩⟩ (by
    rw [List.getElem?_zipWith, hmi, List.getElem?_eq_getElem hi])
  unfold Model.nextTerm fixPoly Mle.fixVariables at hb
  simp at hb

/-! ### What acceptance does not imply -/

theorem batchVerify_drop_queries (S : CodeScheme E) (env : BfEnv B E D) (comms comms' : List (BfCommitment D))
    (hc : comms.map BfCommitment.numVars = comms'.map BfCommitment.numVars) (points : List (List E)) (evals : List (Evaluation E))
    (proof : BatchProof B E D) (ts ts' : env.T.State) (h : batchVerify S env comms points evals proof ts = some ts') :
    batchVerify S env comms' points evals { proof with queries := [] } ts = some ts' := by
  have hl : comms.length = comms'.length := by simpa using congrArg List.length hc
  have hvars : comms.mapM BfCommitment.numVars = comms'.mapM BfCommitment.numVars := by
    have : ∀ l : List (BfCommitment D), l.mapM BfCommitment.numVars = (l.map BfCommitment.numVars).mapM id := by
      intro l; rw [List.mapM_map]; rfl
    rw [this, this, hc]
  unfold batchVerify at h ⊢
  simp only [← hl]
  by_cases h0 : comms.length = 0 ∧ points = [] ∧ evals = [] ∧ proof.trivial.length = 0
  · rw [if_pos h0] at h ⊢; exact h
  rw [if_neg h0] at h ⊢
  unfold batchVerifyFull at h ⊢
  simp only [Option.bind_eq_bind, Option.bind_eq_some_iff] at h ⊢
  obtain ⟨N, h1, r, h2, vars, h3, h⟩ := h
  refine ⟨N, h1, r, h2, vars, by rw [← hvars]; exact h3, ?_⟩
  by_cases hn : batchSizesOk vars points evals ∧ vars ≠ [] ∧ (∀ v ∈ vars, S.basecodeLog ≤ v) ∧ proof.trivial.length = 0
  swap
  · rw [if_neg hn] at h; cases h
  rw [if_pos hn] at h ⊢
  simp only [Option.bind_eq_some_iff] at h ⊢
  obtain ⟨msgs, h4, red, h5, h⟩ := h
  refine ⟨msgs, h4, red, by rw [← hl]; exact h5, ?_⟩
  unfold batchVerifyTail at h ⊢
  simp only [Option.bind_eq_bind, Option.bind_eq_some_iff] at h ⊢
  obtain ⟨c, h6, cf, h7, u, h8, h9⟩ := h
  refine ⟨c, h6, cf, h7, (), ?_, h9⟩
  unfold batchQueryPhase at h8 ⊢
  simp only [Option.bind_eq_bind, Option.bind_eq_some_iff] at h8 ⊢
  obtain ⟨cw, g1, _, _, fin, g3, g4⟩ := h8
  exact ⟨cw, g1, (), by simp [checkBatchQueries], fin, g3, g4⟩

theorem batch_forge (S : CodeScheme E) (word : ℕ → List E → List E) (good : GoodCode S word) (linear : LinearCode S word) (hb0 : 0 < S.basecodeLog)
    (env : BfEnv B E D) (cl : List (D × List E × E)) (hne : cl ≠ []) (hcl : ∀ p ∈ cl, S.basecodeLog < p.2.1.length ∧ p.2.1.length ≤ S.maxLog) (ts : env.T.State) :
    ∃ proof ts', proof.queries = [] ∧ batchVerify S env (cl.map fun p => ⟨p.1, some p.2.1.length⟩) (cl.map fun p => p.2.1)
      (cl.mapIdx fun i p => ⟨i, i, p.2.2⟩) proof ts = some ts' := by
  obtain ⟨comms, roots, proof, ts', h1, h2, h3, h4, h5, h6, h7⟩ := batch_open_full S word good linear env hb0
    (cl.map fun p => (p.2.1.length, List.replicate (2 ^ p.2.1.length) p.2.2)) (by
      intro p hp
      obtain ⟨q, hq, rfl⟩ := List.mem_map.mp hp
      exact ⟨(hcl q hq).1, (hcl q hq).2, by simp⟩) (by simpa using hne) (cl.map fun p => p.2.1) (cl.mapIdx fun i p => ⟨i, i, p.2.2⟩) (by
      intro e he
      obtain ⟨i, hi, rfl⟩ := List.mem_mapIdx.mp he
      refine ⟨(cl[i].2.1.length, List.replicate (2 ^ cl[i].2.1.length) cl[i].2.2), cl[i].2.1, by simp [hi], by simp [hi], rfl, ?_⟩
      exact (mle_replicate _ _ _ rfl).symm) (by
      intro i hi
      have hi : i < cl.length := by simpa using hi
      exact ⟨⟨i, i, cl[i].2.2⟩, List.mem_mapIdx.mpr ⟨i, hi, rfl⟩, rfl⟩) (by
      intro f hf
      obtain ⟨q, hq, rfl⟩ := List.mem_map.mp hf
      exact ⟨q.2.1, List.mem_map.mpr ⟨q, hq, rfl⟩, le_refl _⟩) ts
  refine ⟨{ proof with queries := [] }, ts', rfl, ?_⟩
  apply batchVerify_drop_queries S env _ _ _ _ _ proof ts ts' h4
  rw [List.length_map] at h6
  apply List.ext_getElem
  · simp [h6]
  · intro i a b; simp

/-- C86 is false: as for one polynomial, the verifier iterates over the queries in the proof zipped with the sampled positions and never compares their numbers. For
all commitments (any digests at all), points above the base code's size, values and transcripts, with one claim for each commitment as in the proof of a model,
there is a proof without queries that is accepted. -/
theorem C86_no_queries_false (spec : RsSpec) (gen : ℕ → E) (gamma : E) (setupLog maxLog : ℕ)
    (hg : IsPrimitiveRoot (gen (setupLog + spec.rateLog)) (2 ^ (setupLog + spec.rateLog))) (hgamma : gamma ≠ 0) (h2 : (2 : E) ≠ 0)
    (hm : maxLog ≤ setupLog) (hb : spec.basecodeLog ≤ maxLog) (hb0 : 0 < spec.basecodeLog) (env : BfEnv B E D) :
    ∃ S, rsScheme spec gen gamma setupLog maxLog = some S ∧
      ∀ (claims : List (D × List E × E)) (ts : env.T.State), claims ≠ [] → (∀ p ∈ claims, spec.basecodeLog < p.2.1.length ∧ p.2.1.length ≤ maxLog) →
        ∃ proof ts', proof.queries = [] ∧ batchVerify S env (claims.map fun p => ⟨p.1, some p.2.1.length⟩) (claims.map fun p => p.2.1)
          (claims.mapIdx fun i p => ⟨i, i, p.2.2⟩) proof ts = some ts' := by
  obtain ⟨S, e1, e2, e3, e4, e5, e6, good⟩ := rsScheme_good spec gen gamma setupLog maxLog hg hgamma h2 hm hb
  refine ⟨S, e1, fun claims ts hne hcl => ?_⟩
  exact batch_forge S _ good (rsWord_linear S _ e2 _ _ _) (by omega) env claims hne (by rw [e3, e4]; exact hcl) ts

/-- C86 is false for the random foldable code in the same way. -/
theorem C86_no_queries_basecode_false (spec : BasecodeSpec) (flat : ℕ → E) (setupLog maxLog : ℕ) (h2 : (2 : E) ≠ 0)
    (hflat : ∀ i, i < 2 ^ (spec.rateLog + setupLog) → flat i ≠ 0) (hpos : 0 < spec.rateLog + setupLog) (hm : maxLog ≤ setupLog)
    (hb : spec.basecodeLog ≤ maxLog) (hb0 : 0 < spec.basecodeLog) (env : BfEnv B E D) :
    ∃ S, basecodeScheme spec flat setupLog maxLog = some S ∧
      ∀ (claims : List (D × List E × E)) (ts : env.T.State), claims ≠ [] → (∀ p ∈ claims, spec.basecodeLog < p.2.1.length ∧ p.2.1.length ≤ maxLog) →
        ∃ proof ts', proof.queries = [] ∧ batchVerify S env (claims.map fun p => ⟨p.1, some p.2.1.length⟩) (claims.map fun p => p.2.1)
          (claims.mapIdx fun i p => ⟨i, i, p.2.2⟩) proof ts = some ts' := by
  obtain ⟨S, e1, e2, e3, e4, e5, e6, good⟩ := basecodeScheme_good spec flat setupLog maxLog h2 hflat hpos hm hb
  refine ⟨S, e1, fun claims ts hne hcl => ?_⟩
  exact batch_forge S _ good (basecodeWord_linear S _ _ _ e3 e2) (by omega) env claims hne (by rw [e3, e4]; exact hcl) ts

/-- Two commitments that are no commitments at all, with values chosen freely. -/
example : (do
    let S ← rsScheme ⟨2, 1, 1⟩ (fun k => (3 : ZMod 17) ^ 2 ^ (4 - k)) 3 3 3
    let cf ← bfCommit S toyEnv.hasher 3 (List.replicate 8 5)
    let cg ← bfCommit S toyEnv.hasher 2 (List.replicate 4 9)
    let pts : List (List (ZMod 17)) := [[2, 4, 11], [5, 6]]
    let ts : List (ZMod 17) := [3, 8, 15, 9, 1, 2, 4, 5, 6, 7, 11, 12, 3, 14]
    let evs : List (Evaluation (ZMod 17)) := [⟨0, 0, 5⟩, ⟨1, 1, 9⟩]
    let proof ← batchOpen S toyEnv [⟨3, List.replicate 8 5⟩, ⟨2, List.replicate 4 9⟩] [cf, cg] pts evs ts
    let good ← batchVerify S toyEnv [⟨0, some 3⟩, ⟨16, some 2⟩] pts evs { proof.1 with queries := [] } ts
    some good.length) = some 6 := by decide +kernel

/-! ### What acceptance does imply -/

/-- C86, part: if a batch opening is accepted and the final message is the table of the batched polynomial of some tables `fs`, one for each
commitment, with its last variables fixed to the challenges, then all values are those of the tables, or the weights of the claims, a round of the first
sumcheck or a round of the second were lucky. Missing: that the final message belongs to the committed polynomials, which needs the queries, whose
number is not checked (`C86_no_queries_false`). -/
theorem C86_sumcheck_partial (S : CodeScheme E) (env : BfEnv B E D) (comms : List (BfCommitment D)) (points : List (List E)) (evals : List (Evaluation E))
    (proof : BatchProof B E D) (ts ts' : env.T.State) (hb : ∃ p ∈ points, S.basecodeLog < p.length)
    (h : batchVerify S env comms points evals proof ts = some ts') :
    ∃ (N : ℕ) (vars : List ℕ) (msgs : List (List E)) (cs : List E) (ts1 : env.T.State) (cs' : List E) (ts2 : env.T.State), (∃ p ∈ points, p.length = N) ∧ (∀ p ∈ points, p.length ≤ N) ∧ comms.map BfCommitment.numVars = vars.map some ∧
      (∀ e ∈ evals, ∃ p, points[e.point]? = some p ∧ vars[e.poly]? = some p.length) ∧ proof.sumcheck = some msgs ∧
      classicChallenges env.T N msgs (sampleBatch env.T (batchSizeLog evals.length) ts).2 = some (cs, ts1) ∧
      bfChallenges env (N - S.basecodeLog) proof.messages proof.roots ts1 = some (cs', ts2) ∧
      ∀ (fs : List (List E)) (claims : List (List E × List E × E)) (weights : List E),
        claims = (evals.map fun e => (fs.getD e.poly [], points.getD e.point [], e.value)) →
        weights = (List.range evals.length).map (chi (sampleBatch env.T (batchSizeLog evals.length) ts).1) →
        (∀ i, i < 2 ^ S.basecodeLog → proof.finalMessage.getD i 0
          = mle (batchedTable N claims weights cs) (bitsPoint S.basecodeLog i ++ cs'.reverse)) →
        (∀ p ∈ claims, p.2.2 = mle p.1 p.2.1) ∨ LuckyBatch N claims weights ∨ LuckyBatchRound N claims weights msgs cs ∨
          LuckyOpening (batchedTable N claims weights cs) cs proof.messages cs' := by
  unfold batchVerify at h
  rw [if_neg (by
    rintro ⟨_, h, _⟩
    obtain ⟨p, hp, _⟩ := hb
    rw [h] at hp; simp at hp)] at h
  unfold batchVerifyFull at h
  simp only [Option.bind_eq_bind, Option.bind_eq_some_iff] at h
  obtain ⟨N, h1, r, h2, vars, h3, h⟩ := h
  obtain ⟨hN1, hN2⟩ := maxOf_inv _ _ h1
  obtain ⟨pN, hpN, hpN'⟩ := List.mem_map.mp hN1
  have hNle : ∀ p ∈ points, p.length ≤ N := fun p hp => hN2 _ (List.mem_map.mpr ⟨p, hp, rfl⟩)
  have hNb : S.basecodeLog < N := by
    obtain ⟨p, hp, hlt⟩ := hb
    have := hNle p hp
    omega
  by_cases hn : batchSizesOk vars points evals ∧ vars ≠ [] ∧ (∀ v ∈ vars, S.basecodeLog ≤ v) ∧ proof.trivial.length = 0
  swap
  · rw [if_neg hn] at h; cases h
  rw [if_pos hn] at h
  simp only [Option.bind_eq_some_iff] at h
  obtain ⟨msgs, h4, red, h5, h⟩ := h
  unfold checkedSub at h2
  rw [if_pos (by omega)] at h2
  obtain rfl := Option.some.inj h2
  have hsz := batchSizesOk_inv _ _ _ hn.1
  unfold batchVerifyReduce at h5
  simp only [Option.bind_eq_bind, Option.bind_eq_some_iff] at h5
  obtain ⟨target, g1, sc, g2, coeffs, g3, g4⟩ := h5
  obtain rfl := Option.some.inj g4
  dsimp only at h
  unfold classicVerify at g2
  simp only [Option.bind_eq_bind, Option.bind_eq_some_iff] at g2
  obtain ⟨c, k1, v, k2, k3⟩ := g2
  obtain rfl := Option.some.inj k3
  dsimp only at h
  obtain ⟨hcl, hml⟩ := classicChallenges_length _ _ _ _ _ k1
  have htail := batchVerifyTail_sound S env (comms.map BfCommitment.root) vars coeffs c.1 v proof c.2 ts' (by omega) (by rw [hcl]; exact h)
  rw [hcl] at htail
  obtain ⟨cs', ts2, t1, t2, t3, t4⟩ := htail
  refine ⟨N, vars, msgs, c.1, c.2, cs', ts2, ⟨pN, hpN, hpN'⟩, hNle, ?_, hsz, h4, k1, t1, ?_⟩
  · have := (mapM_forall₂ _ _ _).mp h3
    clear h3 hn hsz g3 h
    induction this with
    | nil => rfl
    | cons ha _ ih => rw [List.map_cons, List.map_cons, ha, ih]
  intro fs claims weights hclaims hweights hfinal
  have hpt : ∀ e ∈ evals, e.point < points.length := by
    intro e he
    obtain ⟨p, hp, _⟩ := hsz e he
    exact (List.getElem?_eq_some_iff.mp hp).1
  have hcN : ∀ p ∈ claims, p.2.1.length ≤ N := by
    intro p hp
    rw [hclaims] at hp
    obtain ⟨e, he, rfl⟩ := List.mem_map.mp hp
    apply hNle
    rw [List.getD_eq_getElem _ _ (hpt e he)]
    exact List.getElem_mem _
  rcases t4 _ hfinal with hv | hl
  swap
  · exact Or.inr (Or.inr (Or.inr hl))
  rw [batchPoly_challenges N claims weights c.1 hcl hcN] at hv
  rw [hv] at k2
  rcases classicConsistency_sound N claims weights c.1 [] msgs target (by omega) (by simp; omega) (by simpa using k2) with ht | ⟨i, m, l1, l2, l3, l4⟩
  swap
  · exact Or.inr (Or.inr (Or.inl ⟨i, m, l1, l2, by simpa using l3, by simpa using l4⟩))
  rw [batchTarget_eq points N evals _ hpt hNle] at g1
  have htgt := Option.some.inj g1
  rw [ht, cubeSum_batchPoly N claims weights hcN] at htgt
  by_cases hall : ∀ p ∈ claims, p.2.2 = mle p.1 p.2.1
  · exact Or.inl hall
  refine Or.inr (Or.inl ⟨by push Not at hall; exact hall, ?_⟩)
  have hzip : (evals.zip (buildEq (sampleBatch env.T (batchSizeLog evals.length) ts).1)).map (fun p => p.1.value * 2 ^ (N - (points.getD p.1.point []).length) * p.2)
      = (claims.zip weights).map fun p => p.1.2.2 * 2 ^ (N - p.1.2.1.length) * p.2 := by
    have hw := batch_coeffs_enough env.T evals.length ts
    rw [buildEq_eq, List.length_map, List.length_range] at hw
    rw [buildEq_eq, hclaims, hweights]
    apply List.ext_getElem
    · simp; omega
    · intro i a b
      simp
  rw [hzip] at htgt
  have : ∀ l : List ((List E × List E × E) × E), (l.map fun p => (p.1.2.2 - mle p.1.1 p.1.2.1) * 2 ^ (N - p.1.2.1.length) * p.2).sum
      = (l.map fun p => p.1.2.2 * 2 ^ (N - p.1.2.1.length) * p.2).sum - (l.map fun p => mle p.1.1 p.1.2.1 * 2 ^ (N - p.1.2.1.length) * p.2).sum := by
    intro l
    induction l with
    | nil => simp
    | cons a l ih => simp only [List.map_cons, List.sum_cons]; rw [ih]; ring
  rw [this, htgt, sub_self]

/-- The hypotheses are met: in the honest run above the final message belongs to the batched polynomial of the committed tables. -/
example : (do
    let S ← rsScheme ⟨2, 1, 1⟩ (fun k => (3 : ZMod 17) ^ 2 ^ (4 - k)) 3 3 3
    let f : List (ZMod 17) := [1, 5, 7, 2, 9, 0, 3, 16]
    let g : List (ZMod 17) := [4, 15, 6, 3]
    let cf ← bfCommit S toyEnv.hasher 3 f
    let cg ← bfCommit S toyEnv.hasher 2 g
    let pts : List (List (ZMod 17)) := [[2, 4, 11], [5, 6], [1, 7]]
    let ts : List (ZMod 17) := [3, 8, 15, 9, 1, 2, 4, 5, 6, 7, 11, 12, 3, 14]
    let evs : List (Evaluation (ZMod 17)) := [⟨0, 0, mle f [2, 4, 11]⟩, ⟨1, 1, mle g [5, 6]⟩, ⟨1, 2, mle g [1, 7]⟩]
    let proof ← batchOpen S toyEnv [⟨3, f⟩, ⟨2, g⟩] [cf, cg] pts evs ts
    let t := sampleBatch (tape (ZMod 17)) (batchSizeLog evs.length) ts
    let msgs ← proof.1.sumcheck
    let cs ← classicChallenges (tape (ZMod 17)) 3 msgs t.2
    let cs' ← bfChallenges toyEnv 2 proof.1.messages proof.1.roots cs.2
    let claims := evs.map fun e => ([f, g].getD e.poly [], pts.getD e.point [], e.value)
    let table := batchedTable 3 claims ((List.range 3).map (chi t.1)) cs.1
    some ((List.range 2).map fun i => decide (proof.1.finalMessage.getD i 0 = mle table (bitsPoint 1 i ++ cs'.1.reverse))))
    = some [true, true] := by decide +kernel

open Classical in
/-- C86, part: whatever the claims, at most `k / |E|` of the `k`-tuples of batching challenges are lucky, `2^k` being at least the number of claims. -/
theorem C86_weights_partial [Fintype E] (n k : ℕ) (claims : List (List E × List E × E)) (hk : claims.length ≤ 2 ^ k) (h2 : (2 : E) ≠ 0) :
    (Finset.univ.filter fun t : Fin k → E => LuckyBatch n claims ((List.range claims.length).map (chi (List.ofFn t)))).card * Fintype.card E
      ≤ k * Fintype.card E ^ k := by
  by_cases hw : ∃ p ∈ claims, p.2.2 ≠ mle p.1 p.2.1
  swap
  · have : (Finset.univ.filter fun t : Fin k → E => LuckyBatch n claims ((List.range claims.length).map (chi (List.ofFn t)))) = ∅ := by
      rw [Finset.filter_eq_empty_iff]
      intro t _ hl
      exact hw hl.1
    rw [this]; simp
  obtain ⟨p, hp, hne⟩ := hw
  obtain ⟨i, hi, hpi⟩ := List.getElem_of_mem hp
  obtain ⟨err, herr⟩ : ∃ err : List E × List E × E → E, err = fun p => (p.2.2 - mle p.1 p.2.1) * 2 ^ (n - p.2.1.length) := ⟨_, rfl⟩
  obtain ⟨e, he⟩ : ∃ e : List E, e = (List.range (2 ^ k)).map fun j => (claims.map err).getD j 0 := ⟨_, rfl⟩
  have hcount := mle_zero_count k e (by rw [he]; simp) ⟨i, by omega, by
    rw [he, getD_map_range' _ _ _ _ (by omega), List.getD_eq_getElem _ _ (by simpa using hi), List.getElem_map, hpi, herr]
    exact mul_ne_zero (sub_ne_zero.mpr hne) (pow_ne_zero _ h2)⟩
  refine le_trans (Nat.mul_le_mul_right _ (Finset.card_le_card ?_)) hcount
  intro t ht
  simp only [Finset.mem_filter, Finset.mem_univ, true_and] at ht ⊢
  have hz := ht.2
  have hlen : (List.ofFn t).length = k := by simp
  rw [he, mle_map_range k _ _ hlen]
  have hsub : ∑ j ∈ Finset.range (2 ^ k), (claims.map err).getD j 0 * chi (List.ofFn t) j
      = ∑ j ∈ Finset.range claims.length, (claims.map err).getD j 0 * chi (List.ofFn t) j := by
    symm
    apply Finset.sum_subset
    · intro j hj; simp only [Finset.mem_range] at hj ⊢; omega
    · intro j _ hj
      simp only [Finset.mem_range, not_lt] at hj
      rw [List.getD_eq_default _ _ (by simpa using hj), zero_mul]
  rw [hsub]
  have hl : (claims.zip ((List.range claims.length).map (chi (List.ofFn t)))).map (fun p => (p.1.2.2 - mle p.1.1 p.1.2.1) * 2 ^ (n - p.1.2.1.length) * p.2)
      = (List.range claims.length).map fun j => (claims.map err).getD j 0 * chi (List.ofFn t) j := by
    apply List.ext_getElem
    · simp
    · intro j a b
      simp only [List.length_map, List.length_range] at b
      simp only [List.getElem_map, List.getElem_zip, List.getElem_range]
      rw [List.getD_eq_getElem _ _ (by simpa using b), List.getElem_map, herr]
  rw [hl, sum_map_range] at hz
  exact hz

open Classical in
/-- C86, part: whatever the earlier challenges, at most `max 2 (L - 1)` challenges are lucky for a message of `L` coefficients in the first sumcheck. Missing: the
verifier does not check that a message has three coefficients (`C86_degree_false`), so that the bound depends on the size of the proof. -/
theorem C86_round_partial [Fintype E] (n : ℕ) (claims : List (List E × List E × E)) (hp : ∀ p ∈ claims, p.2.1.length ≤ n) (weights m s : List E)
    (hs : s.length < n) (h : ∃ X, polyEval m X ≠ batchPartial n claims weights (s ++ [X])) :
    (Finset.univ.filter fun X : E => polyEval m X = batchPartial n claims weights (s ++ [X])).card ≤ max 2 (m.length - 1) := by
  obtain ⟨P, p1, p2⟩ := batchPartial_degree n claims weights s hs hp
  obtain ⟨Q, hQ⟩ : ∃ Q : Polynomial E, Q = ∑ i ∈ Finset.range m.length, Polynomial.C (m.getD i 0) * Polynomial.X ^ i := ⟨_, rfl⟩
  have hQe : ∀ X, polyEval m X = Q.eval X := by
    intro X; rw [hQ, Polynomial.eval_finset_sum]; simp [polyEval]
  have hQd : Q.natDegree ≤ m.length - 1 := by
    rw [hQ]
    apply Polynomial.natDegree_sum_le_of_forall_le
    intro i hi
    have := Finset.mem_range.mp hi
    exact (Polynomial.natDegree_C_mul_X_pow_le _ _).trans (by omega)
  have hne : Q - P ≠ 0 := by
    obtain ⟨X, hX⟩ := h
    intro h0
    apply hX
    rw [hQe, p2, sub_eq_zero.mp h0]
  calc (Finset.univ.filter fun X : E => polyEval m X = batchPartial n claims weights (s ++ [X])).card
      ≤ (Q - P).roots.toFinset.card := by
        apply Finset.card_le_card
        intro X hX
        simp only [Finset.mem_filter, Finset.mem_univ, true_and] at hX
        rw [Multiset.mem_toFinset, Polynomial.mem_roots hne, Polynomial.IsRoot.def, Polynomial.eval_sub, ← hQe, ← p2, hX, sub_self]
    _ ≤ (Q - P).roots.card := Multiset.toFinset_card_le _
    _ ≤ (Q - P).natDegree := Polynomial.card_roots' _
    _ ≤ max 2 (m.length - 1) := (Polynomial.natDegree_sub_le _ _).trans (by omega)

/-- C86 is false of the sumcheck of the batch: a message may have any number of coefficients. In a finite field a message of `|E|` coefficients moves any claimed sum to the sum that is
true in the next round, unless the challenge is zero: for every claim there is a message that passes and agrees with the given polynomial `m` at every other challenge. -/
theorem C86_degree_false [Fintype E] (m : List E) (hm : m ≠ []) (claim : E) :
    ∃ m' : List E, m'.length = max m.length (Fintype.card E) ∧
      ∀ (ms : List (List E)) (c : E) (cs : List E), c ≠ 0 → classicConsistency claim (m' :: ms) (c :: cs) = classicConsistency (polyEval m c) ms cs := by
  obtain ⟨q, hq⟩ : ∃ q, q = Fintype.card E := ⟨_, rfl⟩
  have hq1 : 1 < q := by rw [hq]; exact Fintype.one_lt_card
  have hml : 0 < m.length := List.length_pos_iff.mpr hm
  obtain ⟨δ, hδ⟩ : ∃ δ, δ = claim - (polyEval m 0 + polyEval m 1) := ⟨_, rfl⟩
  obtain ⟨L, hL⟩ : ∃ L, L = max m.length q := ⟨_, rfl⟩
  obtain ⟨m', hm'⟩ : ∃ m' : List E, m' = (List.range L).map fun i => m.getD i 0 + (if i = 0 then δ else 0) - (if i = q - 1 then δ else 0) := ⟨_, rfl⟩
  have hlen : m'.length = L := by rw [hm']; simp
  have heval : ∀ X, polyEval m' X = polyEval m X + δ * (1 - X ^ (q - 1)) := by
    intro X
    have h1 : polyEval m' X = ∑ i ∈ Finset.range L, (m.getD i 0 + (if i = 0 then δ else 0) - (if i = q - 1 then δ else 0)) * X ^ i := by
      unfold polyEval
      rw [hlen]
      refine Finset.sum_congr rfl fun i hi => ?_
      rw [hm', getD_map_range' _ _ _ _ (Finset.mem_range.mp hi)]
    have h2 : polyEval m X = ∑ i ∈ Finset.range L, m.getD i 0 * X ^ i := by
      unfold polyEval
      apply Finset.sum_subset
      · intro j hj; simp only [Finset.mem_range] at hj ⊢; omega
      · intro j _ hj
        simp only [Finset.mem_range, not_lt] at hj
        rw [List.getD_eq_default _ _ hj, zero_mul]
    rw [h1, h2]
    simp only [add_mul, sub_mul, Finset.sum_add_distrib, Finset.sum_sub_distrib, ite_mul, zero_mul]
    rw [Finset.sum_ite_eq', Finset.sum_ite_eq', if_pos (Finset.mem_range.mpr (by omega)), if_pos (Finset.mem_range.mpr (by omega))]
    ring
  have hm0 : ∃ m0, m'[0]? = some m0 := ⟨m'[0]'(by omega), List.getElem?_eq_getElem (by omega)⟩
  obtain ⟨m0, hm0⟩ := hm0
  refine ⟨m', by rw [hlen, hL, hq], ?_⟩
  intro ms c cs hc
  simp only [classicConsistency, hm0, Option.bind_eq_bind, Option.bind_some]
  rw [if_pos, horner_eq, heval]
  · have : c ^ (q - 1) = 1 := by rw [hq]; exact FiniteField.pow_card_sub_one_eq_one c hc
    rw [this, sub_self, mul_zero, add_zero]
  · rw [polyEval_zero_one m' m0 hm0, heval, heval, one_pow, sub_self, mul_zero, add_zero, zero_pow (by omega), hδ]
    ring

/-- In the field of 17 elements the constant message 0 and the claim 5: the message of 17 coefficients passes and hides the error at the challenge 3. -/
example : classicConsistency (5 : ZMod 17) [5 :: (List.replicate 15 0 ++ [12])] [3] = some (polyEval [0] 3) := by decide +kernel

/-- C86, part: every query in an accepted proof that has a sampled position is at this position, all its pairs are authenticated, the pairs of the committed polynomials are at the
places that belong to this position, and along all rounds the pair of the round plus the weighted pairs of the committed polynomials of this round's size
folds to the entry of the next pair picked by the position, in the last round to the entry of the final codeword. Missing: that there are as many
queries as sampled positions, and that the pairs of the round oracles are authenticated at the positions of the query. -/
theorem C86_queries_partial (S : CodeScheme E) (env : BfEnv B E D) (comms : List (BfCommitment D)) (points : List (List E)) (evals : List (Evaluation E))
    (proof : BatchProof B E D) (ts ts' : env.T.State) (hp : points ≠ []) (h : batchVerify S env comms points evals proof ts = some ts') :
    ∃ (N : ℕ) (vars : List ℕ) (msgs : List (List E)) (red : E × List E × List E × env.T.State) (cs : List E) (ts2 : env.T.State) (codeword : List E),
      maxOf (points.map List.length) = some N ∧ comms.mapM BfCommitment.numVars = some vars ∧ proof.sumcheck = some msgs ∧
      batchVerifyReduce env.T comms.length points evals N msgs ts = some red ∧
      bfChallenges env (N - S.basecodeLog) proof.messages proof.roots red.2.2.2 = some (cs, ts2) ∧
      bfFinalCodeword S proof.finalMessage = some codeword ∧
      ∀ (j : ℕ) (q : ℕ × BatchQuery B E D) (x : E), proof.queries[j]? = some q →
        (bfSampleQueries env.T S.numQueries (env.T.appendExts ts2 proof.finalMessage)).1[j]? = some x →
        q.1 = env.toUsize x % 2 ^ (N + S.rateLog) ∧
        (∀ (i : ℕ) (o : CodeQuery B E D) (r : D), q.2.oracle[i]? = some o → proof.roots[i]? = some r → Authentic env.hasher o r) ∧
        (∀ (i : ℕ) (o : CodeQuery B E D) (r : BfCommitment D), q.2.commitments[i]? = some o → comms[i]? = some r → Authentic env.hasher o r.root) ∧
        ∀ (k : ℕ) (c : E), cs[k]? = some c → ∃ p, (((0, 0) :: q.2.oracle.map fun o => o.points.toExt env.embed)[k]? = some p) ∧
          (∀ i : ℕ, vars[i]? = some (N - k) → ∃ o, q.2.commitments[i]? = some o ∧ o.index / 2 = q.1 / 2 ^ (k + 1)) ∧ ∃ v,
          FoldTo S (N + S.rateLog - (k + 1)) (q.1 / 2 ^ (k + 1)) c
            (p.1 + matchingSum vars red.2.2.1 (q.2.commitments.map fun o => (o.points.toExt env.embed).1) (N - k),
              p.2 + matchingSum vars red.2.2.1 (q.2.commitments.map fun o => (o.points.toExt env.embed).2) (N - k)) v ∧
          (k + 1 = cs.length →
            (∀ i : ℕ, vars[i]? = some (N - (k + 1)) → ∃ o, q.2.commitments[i]? = some o ∧ o.index / 2 = q.1 / 2 ^ (k + 2)) ∧
            codeword[q.1 / 2 ^ (k + 1)]? = some (v + matchingSum vars red.2.2.1 (q.2.commitments.map fun o =>
              if q.1 / 2 ^ (k + 1) % 2 = 0 then (o.points.toExt env.embed).1 else (o.points.toExt env.embed).2) (N - (k + 1)))) ∧
          (k + 1 < cs.length → ∃ o, q.2.oracle[k]? = some o ∧
            v = if q.1 / 2 ^ (k + 1) % 2 = 0 then (o.points.toExt env.embed).1 else (o.points.toExt env.embed).2) := by
  unfold batchVerify at h
  rw [if_neg (by rintro ⟨_, h, _⟩; exact hp h)] at h
  unfold batchVerifyFull at h
  simp only [Option.bind_eq_bind, Option.bind_eq_some_iff] at h
  obtain ⟨N, h1, r, h2, vars, h3, h⟩ := h
  by_cases hn : batchSizesOk vars points evals ∧ vars ≠ [] ∧ (∀ v ∈ vars, S.basecodeLog ≤ v) ∧ proof.trivial.length = 0
  swap
  · rw [if_neg hn] at h; cases h
  rw [if_pos hn] at h
  simp only [Option.bind_eq_some_iff] at h
  obtain ⟨msgs, h4, red, h5, h⟩ := h
  have hr : r = N - S.basecodeLog := by
    unfold checkedSub at h2
    split at h2
    · exact (Option.some.inj h2).symm
    · cases h2
  subst hr
  unfold batchVerifyTail at h
  simp only [Option.bind_eq_bind, Option.bind_eq_some_iff] at h
  obtain ⟨c, h6, cf, h7, u, h8, h9⟩ := h
  unfold batchQueryPhase at h8
  simp only [Option.bind_eq_bind, Option.bind_eq_some_iff] at h8
  obtain ⟨cw, g1, _, g2, fin, g3, g4⟩ := h8
  refine ⟨N, vars, msgs, red, c.1, c.2, cw, h1, h3, h4, h5, h6, g1, ?_⟩
  intro j q x hq hx
  obtain ⟨e1, e2⟩ := checkBatchQueries_sound S env _ _ _ _ _ _ _ _ _ g2 j q (env.toUsize x % 2 ^ (N + S.rateLog)) hq (by
    rw [List.getElem?_map, hx]; rfl)
  rw [← e1] at e2
  unfold BatchQuery.check at e2
  simp only [Option.bind_eq_bind, Option.bind_eq_some_iff] at e2
  obtain ⟨_, p1, _, p2, p3⟩ := e2
  refine ⟨e1, fun i o r ho hr => authentic_of_check _ _ _ (checkPaths_sound env.hasher _ _ p1 i o r ho hr), ?_, ?_⟩
  · intro i o r ho hr
    exact authentic_of_check _ _ _ (checkPaths_sound env.hasher _ _ p2 i o r.root ho (by rw [List.getElem?_map, hr]; rfl))
  intro k c0 hk
  obtain ⟨p, s1, s5, v, s2, s3, s4⟩ := batchQueryFold_sound S env.embed _ _ _ _ _ _ p3 k c0 hk
  simp only [Nat.zero_add] at s1 s2 s3 s4 s5
  exact ⟨p, s1, s5, v, s2, s3, s4⟩

end Props
