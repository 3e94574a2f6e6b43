import Verif.Model.LookupProvers
import Verif.Lemmas.LookupProvers
import Verif.Lemmas.PoolPolys
import Verif.Props.LogUpProver
import Verif.Props.LookupLayers
import Verif.Props.SamePoly
import Verif.Props.BasefoldBatch
import Verif.Props.Quant
import Verif.Props.Encoding

/-!
Properties C93, C94 and C95: the honest provers of the layers proved by lookups.
-/

namespace Props

open Model Spec Lemmas

variable {F : Type} [Field F] [DecidableEq F] {C : Type}

/-! ### C93: activations -/

omit [DecidableEq F] in
theorem activationWitness_eq (p : ℕ) (gelu : Option (ℤ × ℤ × ℤ)) (xs : List ℤ) : ∀ (inputs outputs : List ℤ), inputs.length = outputs.length →
    inputs.mapM (activationInput gelu) = some xs →
    (activationWitness p gelu inputs outputs : Option (List F × List F)) = some (xs.map (toField p), outputs.map (toField p)) := by
  induction xs with
  | nil =>
    intro inputs outputs hl hx
    cases inputs with
    | nil =>
      have : outputs = [] := List.length_eq_zero_iff.1 hl.symm
      subst this
      rfl
    | cons a l => simp [List.mapM_cons, Option.bind_eq_some_iff] at hx
  | cons x xs ih =>
    intro inputs outputs hl hx
    cases inputs with
    | nil => simp at hx
    | cons a l =>
      cases outputs with
      | nil => simp at hl
      | cons b m =>
        simp only [List.mapM_cons, Option.bind_eq_bind, Option.bind_eq_some_iff, Option.pure_def, Option.some.injEq, List.cons.injEq] at hx
        obtain ⟨x', h1, xs', h2, rfl, rfl⟩ := hx
        have h3 := ih l m (by simpa using hl) h2
        unfold activationWitness at h3 ⊢
        simp only [Option.bind_eq_bind, Option.bind_eq_some_iff, Option.some.injEq, Prod.mk.injEq] at h3
        obtain ⟨rows, h4, h5, h6⟩ := h3
        simp only [List.zip_cons_cons, List.mapM_cons, Option.bind_eq_bind, h1, Option.bind_some, h4, Option.pure_def, List.map_cons, h5, h6]

/-- Honest activation proofs: what the prover computes and what the verifier does with it. -/
theorem activation_run (T : Transcript F) (threads : ℕ) (ht : 0 < threads) (hchar : ∀ k : ℕ, 0 < k → k ≤ 3 → (k : F) ≠ 0) (p : ℕ) (gelu : Option (ℤ × ℤ × ℤ))
    (commits : List C) (hcom : commits.length = 2) (R : ℕ) (last : Claim F) (inputs outputs xs : List ℤ) (hin : inputs.length = 2 ^ (R + 2))
    (hout : outputs.length = 2 ^ (R + 2)) (hx : inputs.mapM (activationInput gelu) = some xs) (hlast : last.point.length = R + 2)
    (htrue : last.eval = mle (outputs.map (toField p)) last.point) (c csc : F) (ts : T.State) :
    ∃ proof ts' q q', proveActivation threads T p gelu commits last inputs outputs c csc ts
        = some (proof, activationInputClaim p gelu (trueClaim q (xs.map (toField p))),
          commits.zip [activationInputClaim p gelu (trueClaim q (xs.map (toField p))), trueClaim q' (outputs.map (toField p))], ts') ∧
      q.length = R + 2 ∧ q'.length = R + 2 ∧
      ((∀ sp ∈ proof.ioAccumulation.sumcheck :: proof.lookup.sumcheckProofs, ∀ y ∈ sp.point, ∀ k : ℕ, k ≤ 3 → y ≠ (k : F)) →
        verifyActivation T (R + 2) (gelu.map fun g => toField p g.1) last proof c csc ts
            = some (activationInputClaim p gelu (trueClaim q (xs.map (toField p))),
              commits.zip [trueClaim q (xs.map (toField p)), trueClaim q' (outputs.map (toField p))], ts') ∧
        ∃ claims num den ts1, verifyLogup T proof.lookup 1 c csc ts = some (claims, [(num, den)], ts1) ∧
          ((∀ x ∈ lookupFractions (R + 2) [xs.map (toField p), outputs.map (toField p)] c csc, x.2 ≠ 0) →
            den ≠ 0 ∧ num / den = fracSum (lookupFractions (R + 2) [xs.map (toField p), outputs.map (toField p)] c csc))) := by
  have hxl : xs.length = 2 ^ (R + 2) := by rw [← hin]; exact (mapM_length _ _ _ hx)
  obtain ⟨A, hA⟩ : ∃ A : List F, A = xs.map (toField p) := ⟨_, rfl⟩
  obtain ⟨O, hO⟩ : ∃ O : List F, O = outputs.map (toField p) := ⟨_, rfl⟩
  have hAl : A.length = 2 ^ (R + 2) := by rw [hA, List.length_map, hxl]
  have hOl : O.length = 2 ^ (R + 2) := by rw [hO, List.length_map, hout]
  have hwit := activationWitness_eq (F := F) p gelu xs inputs outputs (by omega) hx
  rw [← hA, ← hO] at hwit ⊢
  rw [← hO] at htrue
  obtain ⟨info, lookup, ts1, q, h1, h2, -, h4, -, h6, h7⟩ := C92_lookup T threads ht hchar ts c csc R 2 [[A, O]] (by simp) (by omega) (by simp)
    (by simp [hAl, hOl])
  simp only [List.flatten_cons, List.flatten_nil, List.append_nil, List.map_cons, List.map_nil] at h1 h6 h7
  obtain ⟨acc, ts2, g1, g2, g3, g4⟩ := C40_same_poly_complete T threads ht (fun k h h' => hchar k h (by omega)) (R + 2) O hOl [last, trueClaim q O]
    (by simp [hlast, trueClaim, h4]) (by simp [htrue, trueClaim]) ts1
  have hcl : ceilLog2 outputs.length = some (R + 2) := by rw [hout]; exact ceilLog2_pow _
  obtain ⟨a, b, rfl⟩ : ∃ a b, commits = [a, b] := by
    match commits, hcom with
    | [a, b], _ => exact ⟨a, b, rfl⟩
  refine ⟨⟨acc, lookup, [a, b]⟩, ts2, q, acc.sumcheck.point, ?_, h4, g2, fun hgood => ?_⟩
  · unfold proveActivation
    simp only [hwit, Option.bind_eq_bind, Option.bind_some, h1, h2, h6, List.getElem?_cons_zero, List.getElem?_cons_succ, hcl, ← hO, g1, g3]
    rfl
  · obtain ⟨frac, f1, f2, f3⟩ := h7 (fun sp hsp => hgood sp (by simp [hsp]))
    have g4' := g4 (fun y hy k hk => hgood acc.sumcheck (by simp) y hy k (by omega))
    simp only [List.length_cons, List.length_nil, zero_add] at f1 f2 f3
    obtain ⟨⟨num, den⟩, rfl⟩ := List.length_eq_one_iff.1 f2
    refine ⟨?_, _, num, den, _, f1, ?_⟩
    · unfold verifyActivation
      simp only [f1, Option.bind_eq_bind, Option.bind_some, List.getElem?_cons_zero, List.drop_succ_cons, List.drop_zero, g4']
      cases gelu with
      | none => rfl
      | some g => rfl
    · intro hne
      have := f3 0 (by simp) (by simp) (by simpa using hne)
      simpa using this

/-- C93 for ReLU: for all inputs, outputs and true claims about the output the prover produces a proof. The claim it returns and the claims about the two committed columns are true.
Unless a sumcheck challenge is 0, 1, 2 or 3 the verifier accepts, returns the same claims and ends in the same transcript, and the fraction of the lookup is the sum of `-1` over
the merged rows (input, output). -/
theorem C93_relu (T : Transcript F) (threads : ℕ) (ht : 0 < threads) (hchar : ∀ k : ℕ, 0 < k → k ≤ 3 → (k : F) ≠ 0) (p : ℕ) (commits : List C) (hcom : commits.length = 2) (R : ℕ)
    (last : Claim F) (inputs outputs : List ℤ) (hin : inputs.length = 2 ^ (R + 2)) (hout : outputs.length = 2 ^ (R + 2)) (hlast : last.point.length = R + 2)
    (htrue : last.eval = mle (outputs.map (toField p)) last.point) (c csc : F) (ts : T.State) :
    ∃ proof q q' ts', proveActivation threads T p none commits last inputs outputs c csc ts
        = some (proof, trueClaim q (inputs.map (toField p)), commits.zip [trueClaim q (inputs.map (toField p)), trueClaim q' (outputs.map (toField p))], ts') ∧
      q.length = R + 2 ∧ q'.length = R + 2 ∧
      ((∀ sp ∈ proof.ioAccumulation.sumcheck :: proof.lookup.sumcheckProofs, ∀ y ∈ sp.point, ∀ k : ℕ, k ≤ 3 → y ≠ (k : F)) →
        verifyActivation T (R + 2) none last proof c csc ts
            = some (trueClaim q (inputs.map (toField p)), commits.zip [trueClaim q (inputs.map (toField p)), trueClaim q' (outputs.map (toField p))], ts') ∧
        ∃ claims num den ts1, verifyLogup T proof.lookup 1 c csc ts = some (claims, [(num, den)], ts1) ∧
          ((∀ x ∈ lookupFractions (R + 2) [inputs.map (toField p), outputs.map (toField p)] c csc, x.2 ≠ 0) →
            den ≠ 0 ∧ num / den = fracSum (lookupFractions (R + 2) [inputs.map (toField p), outputs.map (toField p)] c csc))) := by
  have hx : inputs.mapM (activationInput none) = some inputs := by
    have := mapM_some' (activationInput none) id inputs (fun a _ => rfl)
    simpa using this
  obtain ⟨proof, ts', q, q', h1, h2, h3, h4⟩ := activation_run T threads ht hchar p none commits hcom R last inputs outputs inputs hin hout hx hlast htrue c csc ts
  exact ⟨proof, q, q', ts', h1, h2, h3, h4⟩

/-- C93 for GELU with multiplier `m`, as far as it holds: the verifier accepts the proof and both return the same true claim about the input. What is missing is that both hand the
same claims to the opening of the committed columns: for the column of scaled inputs the prover hands over the evaluation of the unscaled input, the verifier `m` times as
much. -/
theorem C93_gelu_partial (T : Transcript F) (threads : ℕ) (ht : 0 < threads) (hchar : ∀ k : ℕ, 0 < k → k ≤ 3 → (k : F) ≠ 0) (p : ℕ) [CharP F p] (m mn mx : ℤ) (hm : m.natAbs ≤ p)
    (hm0 : (m : F) ≠ 0) (commits : List C) (hcom : commits.length = 2) (R : ℕ) (last : Claim F) (inputs outputs : List ℤ) (hin : inputs.length = 2 ^ (R + 2))
    (hout : outputs.length = 2 ^ (R + 2)) (hrange : ∀ a ∈ inputs, mn ≤ a * m ∧ a * m ≤ mx) (hsmall : ∀ a ∈ inputs, a.natAbs ≤ p ∧ (a * m).natAbs ≤ p)
    (hlast : last.point.length = R + 2) (htrue : last.eval = mle (outputs.map (toField p)) last.point) (c csc : F) (ts : T.State) :
    ∃ proof q q' ts', proveActivation threads T p (some (m, mn, mx)) commits last inputs outputs c csc ts
        = some (proof, trueClaim q (inputs.map (toField p)), commits.zip [trueClaim q (inputs.map (toField p)), trueClaim q' (outputs.map (toField p))], ts') ∧
      q.length = R + 2 ∧ q'.length = R + 2 ∧
      ((∀ sp ∈ proof.ioAccumulation.sumcheck :: proof.lookup.sumcheckProofs, ∀ y ∈ sp.point, ∀ k : ℕ, k ≤ 3 → y ≠ (k : F)) →
        verifyActivation T (R + 2) (some (toField p m)) last proof c csc ts
            = some (trueClaim q (inputs.map (toField p)),
              commits.zip [trueClaim q (inputs.map fun a => toField p (a * m)), trueClaim q' (outputs.map (toField p))], ts') ∧
        mle (inputs.map fun a => toField p (a * m)) q = (m : F) * mle (inputs.map (toField p)) q) := by
  have hx : inputs.mapM (activationInput (some (m, mn, mx))) = some (inputs.map (· * m)) :=
    mapM_some' _ _ inputs (fun a ha => by simp [activationInput, hrange a ha])
  have hmap : (inputs.map (· * m)).map (toField p) = (inputs.map fun a => (toField p (a * m) : F)) := by rw [List.map_map]; rfl
  have hscale : (inputs.map fun a => (toField p (a * m) : F)) = (inputs.map (toField p)).map fun x : F => x * (m : F) := by
    rw [List.map_map]
    apply List.map_congr_left
    intro a ha
    simp only [Function.comp]
    rw [toField_eq_cast p _ (hsmall a ha).2, toField_eq_cast p _ (hsmall a ha).1]
    push_cast
    ring
  have hmle : ∀ q, mle (inputs.map fun a => (toField p (a * m) : F)) q = (m : F) * mle (inputs.map (toField p)) q := by
    intro q
    rw [hscale]
    unfold mle
    rw [Finset.mul_sum]
    refine Finset.sum_congr rfl fun b _ => ?_
    have : ((inputs.map (toField p)).map fun x : F => x * (m : F)).getD b 0 = (inputs.map (toField p)).getD b 0 * (m : F) := by
      simp only [List.getD_eq_getElem?_getD, List.getElem?_map]
      cases inputs[b]? <;> simp
    rw [this]
    ring
  obtain ⟨proof, ts', q, q', h1, h2, h3, h4⟩ :=
    activation_run T threads ht hchar p (some (m, mn, mx)) commits hcom R last inputs outputs _ hin hout hx hlast htrue c csc ts
  rw [hmap] at h1 h4
  have hclaim : activationInputClaim p (some (m, mn, mx)) (trueClaim q (inputs.map fun a => (toField p (a * m) : F))) = trueClaim q (inputs.map (toField p)) := by
    simp only [activationInputClaim, trueClaim, Claim.mk.injEq, true_and]
    rw [hmle, toField_eq_cast p m hm]
    field_simp
  rw [hclaim] at h1 h4
  exact ⟨proof, q, q', ts', h1, h2, h3, fun hgood => ⟨(h4 hgood).1, hmle q⟩⟩

section Opening

variable {B E D : Type} [Field E] [DecidableEq E] [DecidableEq D]

theorem batchTarget_split (N : ℕ) (points : List (List E)) (post : List (Evaluation E)) (i j : ℕ) (v v' : E) : ∀ (pre : List (Evaluation E)) (w : List E) (_ : pre.length < w.length)
    (x x' : E) (_ : batchTarget N points (pre ++ ⟨i, j, v⟩ :: post) w = some x) (_ : batchTarget N points (pre ++ ⟨i, j, v'⟩ :: post) w = some x'),
    ∃ d, x - x' = (v - v') * ((2 ^ d : ℕ) : E) * w.getD pre.length 0 := by
  intro pre
  induction pre with
  | nil =>
    intro w hw x x' h h'
    obtain ⟨w0, ws, rfl⟩ := List.exists_cons_of_ne_nil (List.ne_nil_of_length_pos (by simpa using hw))
    unfold batchTarget at h h'
    simp only [List.nil_append, List.zip_cons_cons, List.mapM_cons, Option.bind_eq_bind, Option.bind_eq_some_iff, Option.pure_def, Option.some.injEq] at h h'
    obtain ⟨-, ⟨y, ⟨pt, hp, d, hd, rfl⟩, ys, hys, rfl⟩, rfl⟩ := h
    obtain ⟨-, ⟨y', ⟨pt', hp', d', hd', rfl⟩, ys', hys', rfl⟩, rfl⟩ := h'
    rw [hp] at hp'
    obtain rfl := Option.some.inj hp'
    rw [hd] at hd'
    obtain rfl := Option.some.inj hd'
    rw [hys] at hys'
    obtain rfl := Option.some.inj hys'
    refine ⟨d, ?_⟩
    simp only [List.sum_cons, List.length_nil, List.getD_cons_zero]
    ring
  | cons e pre ih =>
    intro w hw x x' h h'
    obtain ⟨w0, ws, rfl⟩ := List.exists_cons_of_ne_nil (List.ne_nil_of_length_pos (Nat.zero_lt_of_lt hw))
    have hstep : ∀ (u : E) x, batchTarget N points (e :: pre ++ ⟨i, j, u⟩ :: post) (w0 :: ws) = some x →
        ∃ pt d z, points[e.point]? = some pt ∧ checkedSub N pt.length = some d ∧ batchTarget N points (pre ++ ⟨i, j, u⟩ :: post) ws = some z ∧
          x = e.value * ((2 ^ d : ℕ) : E) * w0 + z := by
      intro u x h
      unfold batchTarget at h ⊢
      simp only [List.cons_append, List.zip_cons_cons, List.mapM_cons, Option.bind_eq_bind, Option.bind_eq_some_iff, Option.pure_def, Option.some.injEq] at h
      obtain ⟨-, ⟨y, ⟨pt, hp, d, hd, rfl⟩, ys, hys, rfl⟩, rfl⟩ := h
      exact ⟨pt, d, ys.sum, hp, hd, by simp only [Option.bind_eq_bind, hys, Option.bind_some], by simp only [List.sum_cons]⟩
    obtain ⟨pt, d, z, a1, a2, a3, rfl⟩ := hstep v x h
    obtain ⟨pt', d', z', b1, b2, b3, rfl⟩ := hstep v' x' h'
    rw [a1] at b1
    obtain rfl := Option.some.inj b1
    rw [a2] at b2
    obtain rfl := Option.some.inj b2
    obtain ⟨d0, h0⟩ := ih ws (by simpa using hw) z z' a3 b3
    refine ⟨d0, ?_⟩
    simp only [List.length_cons, List.getD_cons_succ]
    linear_combination h0

omit [DecidableEq E] in
theorem chi_ne_zero (r : List E) (h : ∀ x ∈ r, x ≠ 0 ∧ x ≠ 1) (b : ℕ) : chi r b ≠ 0 := by
  unfold chi
  rw [Finset.prod_ne_zero_iff]
  intro j _
  have := h r[j] (List.getElem_mem _)
  split
  · exact this.1
  · exact sub_ne_zero.2 (Ne.symm this.2)

/-- A batch opening is bound to the values it was computed with: if the verifier expects another value for one of the claims, it rejects the proof, unless a batching challenge is
0 or 1. -/
theorem C93_other_value_rejected (h2 : (2 : E) ≠ 0) (S : CodeScheme E) (env : BfEnv B E D) (polys : List (Mle E)) (comms : List (BfCommitted B E D)) (comms' : List (BfCommitment D))
    (points : List (List E)) (hvars : maxOf (polys.map Mle.numVars) = maxOf (points.map List.length)) (pre post : List (Evaluation E)) (i j : ℕ) (v v' : E) (hv : v ≠ v')
    (ts ts1 : env.T.State) (proof : BatchProof B E D) (hopen : batchOpen S env polys comms points (pre ++ ⟨i, j, v⟩ :: post) ts = some (proof, ts1))
    (hchal : ∀ c ∈ (sampleBatch env.T (batchSizeLog (pre.length + (post.length + 1))) ts).1, c ≠ 0 ∧ c ≠ 1) :
    batchVerify S env comms' points (pre ++ ⟨i, j, v'⟩ :: post) proof ts = none := by
  unfold batchOpen at hopen
  rw [if_neg (by simp)] at hopen
  unfold batchOpenFull at hopen
  simp only [Option.bind_eq_bind, Option.bind_eq_some_iff] at hopen
  obtain ⟨N, hN, hopen⟩ := hopen
  by_cases hck : batchOpenChecks S polys comms points = true
  swap
  · rw [if_neg hck] at hopen; simp at hopen
  rw [if_pos hck] at hopen
  simp only [Option.bind_eq_some_iff, Option.some.injEq, Prod.mk.injEq] at hopen
  obtain ⟨red, hred, rounds, hr, cp, hcp, queries, hq, rfl, -⟩ := hopen
  rw [Option.eq_none_iff_forall_ne_some]
  intro ts2 hver
  unfold batchVerify at hver
  rw [if_neg (by simp)] at hver
  unfold batchVerifyFull at hver
  rw [← hvars, hN] at hver
  simp only [Option.bind_eq_bind, Option.bind_some, Option.bind_eq_some_iff] at hver
  obtain ⟨rounds', -, vars, -, hver⟩ := hver
  split at hver
  swap
  · simp at hver
  simp only [Option.bind_some, Option.bind_eq_some_iff] at hver
  obtain ⟨red', hred', -⟩ := hver
  unfold batchReduce at hred
  unfold batchVerifyReduce at hred'
  simp only [List.length_append, List.length_cons, Option.bind_eq_bind, Option.bind_eq_some_iff] at hred hred'
  obtain ⟨t, ht⟩ : ∃ t, t = sampleBatch env.T (batchSizeLog (pre.length + (post.length + 1))) ts := ⟨_, rfl⟩
  rw [← ht] at hred hred' hchal
  obtain ⟨x, hx, merged, -, sc, hsc, coeffs, -, hred⟩ := hred
  obtain rfl := Option.some.inj hred
  obtain ⟨x', hx', sc', hsc', -⟩ := hred'
  have hlen : pre.length < (buildEq t.1).length := by
    have := batch_coeffs_enough env.T (pre.length + (post.length + 1)) ts
    rw [← ht] at this
    omega
  have hxx : x ≠ x' := by
    obtain ⟨d, hd⟩ := batchTarget_split N points post i j v v' pre _ hlen x x' hx hx'
    rw [← sub_ne_zero, hd]
    refine mul_ne_zero (mul_ne_zero (sub_ne_zero.2 hv) ?_) ?_
    · push_cast; exact pow_ne_zero _ h2
    · rw [buildEq_eq] at hlen ⊢
      rw [getD_map_range' _ _ _ _ (by simpa using hlen)]
      exact chi_ne_zero _ hchal _
  unfold classicProve at hsc
  split at hsc
  swap
  · simp at hsc
  rename_i hpos
  obtain ⟨k, rfl⟩ : ∃ k, N = k + 1 := ⟨N - 1, by omega⟩
  simp only [classicLoop, Option.bind_eq_bind, Option.bind_eq_some_iff] at hsc
  obtain ⟨msg, hmsg, terms, -, r, -, hsc⟩ := hsc
  have hfirst : ∃ m0, msg[0]? = some m0 ∧ m0 + msg.sum = x := by
    unfold classicRound at hmsg
    simp only [Option.bind_eq_bind, Option.bind_eq_some_iff, Option.some.injEq] at hmsg
    obtain ⟨c, -, rfl⟩ := hmsg
    refine ⟨_, rfl, ?_⟩
    simp
    ring
  obtain ⟨m0, hm0, hsum⟩ := hfirst
  obtain rfl := Option.some.inj hsc
  simp only at hsc'
  unfold classicVerify at hsc'
  simp only [Option.bind_eq_bind, Option.bind_eq_some_iff] at hsc'
  obtain ⟨cc, hcc, vv, hvv, -⟩ := hsc'
  simp only [classicChallenges, List.head?_cons, Option.bind_eq_bind, Option.bind_some, Option.bind_eq_some_iff] at hcc
  obtain ⟨rr, -, hcc⟩ := hcc
  obtain rfl := Option.some.inj hcc
  simp only [classicConsistency, hm0, Option.bind_eq_bind, Option.bind_some] at hvv
  rw [if_neg (by rw [hsum]; exact Ne.symm hxx)] at hvv
  simp at hvv

/-- C93 is false for GELU: with a multiplier other than one, the honest proof is accepted by the check of the layer, but every batch opening of the committed columns computed with
the claims of the prover is rejected with the claims of the verifier, unless the evaluation of the input is zero or a batching challenge is 0 or 1. The opening is any call with
the prover's claim about the first column in any position among any other claims. -/
theorem C93_gelu_false (T : Transcript E) (threads : ℕ) (ht : 0 < threads) (hchar : ∀ k : ℕ, 0 < k → k ≤ 3 → (k : E) ≠ 0) (p : ℕ) [CharP E p] (m mn mx : ℤ) (hm : m.natAbs ≤ p)
    (hm0 : (m : E) ≠ 0) (hm1 : (m : E) ≠ 1) (commits : List C) (hcom : commits.length = 2) (R : ℕ) (last : Claim E) (inputs outputs : List ℤ) (hin : inputs.length = 2 ^ (R + 2))
    (hout : outputs.length = 2 ^ (R + 2)) (hrange : ∀ a ∈ inputs, mn ≤ a * m ∧ a * m ≤ mx) (hsmall : ∀ a ∈ inputs, a.natAbs ≤ p ∧ (a * m).natAbs ≤ p)
    (hlast : last.point.length = R + 2) (htrue : last.eval = mle (outputs.map (toField p)) last.point) (c csc : E) (ts : T.State) :
    ∃ proof claim wit ts', proveActivation threads T p (some (m, mn, mx)) commits last inputs outputs c csc ts = some (proof, claim, wit, ts') ∧
      claim.eval = mle (inputs.map (toField p)) claim.point ∧
      ((∀ sp ∈ proof.ioAccumulation.sumcheck :: proof.lookup.sumcheckProofs, ∀ y ∈ sp.point, ∀ k : ℕ, k ≤ 3 → y ≠ (k : E)) →
        ∃ wit', verifyActivation T (R + 2) (some (toField p m)) last proof c csc ts = some (claim, wit', ts') ∧
          ∃ a x x', wit.head? = some (a, x) ∧ wit'.head? = some (a, x') ∧ x.point = x'.point ∧
            (claim.eval ≠ 0 → ∀ (S : CodeScheme E) (env : BfEnv B E D) (polys : List (Mle E)) (comms : List (BfCommitted B E D)) (comms' : List (BfCommitment D)) (points : List (List E))
              (pre post : List (Evaluation E)) (i j : ℕ) (ts0 ts1 : env.T.State) (bp : BatchProof B E D), maxOf (polys.map Mle.numVars) = maxOf (points.map List.length) →
              batchOpen S env polys comms points (pre ++ ⟨i, j, x.eval⟩ :: post) ts0 = some (bp, ts1) →
              (∀ c ∈ (sampleBatch env.T (batchSizeLog (pre.length + (post.length + 1))) ts0).1, c ≠ 0 ∧ c ≠ 1) →
              batchVerify S env comms' points (pre ++ ⟨i, j, x'.eval⟩ :: post) bp ts0 = none)) := by
  obtain ⟨proof, q, q', ts', h1, -, -, h4⟩ := C93_gelu_partial T threads ht hchar p m mn mx hm hm0 commits hcom R last inputs outputs hin hout hrange hsmall hlast htrue c csc ts
  refine ⟨proof, _, _, ts', h1, rfl, fun hgood => ?_⟩
  obtain ⟨h5, h6⟩ := h4 hgood
  obtain ⟨a, b, rfl⟩ : ∃ a b, commits = [a, b] := by
    match commits, hcom with
    | [a, b], _ => exact ⟨a, b, rfl⟩
  refine ⟨_, h5, a, _, _, rfl, rfl, rfl, fun hne S env polys comms comms' points pre post i j ts0 ts1 bp hv hopen hch => ?_⟩
  refine C93_other_value_rejected (by exact_mod_cast hchar 2 (by omega) (by omega)) S env polys comms comms' points hv pre post i j _ _ ?_ ts0 ts1 bp hopen hch
  simp only [trueClaim] at hne ⊢
  rw [h6]
  intro heq
  apply hm1
  have : ((m : E) - 1) * mle (inputs.map (toField p)) q = 0 := by linear_combination -heq
  rcases mul_eq_zero.1 this with h | h
  · exact sub_eq_zero.1 h
  · exact absurd h hne

end Opening

/-! ### C94: requantisation -/

omit [DecidableEq F] in
/-- The columns of the witness: one row for each input, which recombines to it. -/
theorem requantColumns_spec (p bl : ℕ) [CharP F p] (hbl : 1 ≤ bl) (r : Requant) (hs : 1 ≤ r.shift) (hdvd : bl ∣ r.shift) (hfpm : r.fpm.natAbs ≤ p) (hinv : (r.fpm : F) ≠ 0)
    (hp : 2 ^ bl ≤ p) (input output : List ℤ) (hout : r.op bl input = some output) (hsmall : ∀ x ∈ input, (r.witness bl x).1.natAbs ≤ p) (cin cout : List F)
    (chunks : List (List F)) (h : requantColumns p bl r input = (cin, cout, chunks)) :
    cin.length = input.length ∧ cout = output.map (toField p) ∧ chunks.length = r.shift / bl ∧ (∀ t ∈ chunks, t.length = input.length) ∧
      ∀ b, b < input.length → (input.map fun x : ℤ => (x : F)).getD b 0 = r.recombine p bl (cin.getD b 0) (chunks.map fun t => t.getD b 0) := by
  unfold requantColumns at h
  simp only [Prod.mk.injEq] at h
  obtain ⟨rfl, rfl, rfl⟩ := h
  have hw : ∀ x ∈ input, (∀ y, r.apply bl x = some y → (r.witness bl x).2.1 = y) ∧ (r.witness bl x).2.2.length = r.shift / bl ∧
      r.recombine p bl (toField p (r.witness bl x).1 : F) ((r.witness bl x).2.2.map (toField p)) = (x : F) := by
    intro x hx
    obtain ⟨-, h2, -, h4, h5⟩ := C21_witness (F := F) p bl hbl r hs hdvd hfpm hinv hp x _ _ _ rfl (hsmall x hx)
    exact ⟨h4, h2, h5⟩
  refine ⟨by simp, ?_, by simp, by simp, ?_⟩
  · unfold Requant.op at hout
    rw [mapM_forall₂] at hout
    have : List.Forall₂ (fun a b => (r.witness bl a).2.1 = b) input output := by
      clear hsmall
      induction hout with
      | nil => exact List.Forall₂.nil
      | @cons a b l o hab _ ih =>
        refine List.Forall₂.cons ?_ (ih (fun x hx => hw x (by simp [hx])))
        split at hab
        · exact (hw a (by simp)).1 b hab
        · simp at hab
    clear hout hw hsmall
    induction this with
    | nil => rfl
    | cons hab _ ih => simp only [List.map_cons, hab]; rw [ih]
  · intro b hb
    have hx := hw input[b] (List.getElem_mem _)
    rw [List.getD_eq_getElem _ _ (by simpa using hb), List.getD_eq_getElem _ _ (by simpa using hb)]
    simp only [List.getElem_map, List.map_map]
    rw [← hx.2.2]
    congr 1
    apply List.ext_getElem
    · simp [hx.2.1]
    · intro j h1 h2
      have hj : j < r.shift / bl := by simpa using h2
      have hj' : j < (r.witness bl input[b]).2.2.length := by rw [hx.2.1]; exact hj
      simp only [List.getElem_map, List.getElem_range, Function.comp]
      rw [List.getD_eq_getElem _ _ (by simpa using hb)]
      simp only [List.getElem_map, Function.comp]
      rw [List.getD_eq_getElem _ _ hj']

/-- C94: for all inputs whose requantised values the model computes and true claims about these values the prover produces a proof. The claim it returns about the input is true, and
so are the claims about the committed columns. Unless a sumcheck challenge is 0, 1, 2 or 3 the verifier accepts, returns the same claims and ends in the same transcript, and
the fractions of the two lookups are the sums of `-1` over the merged rows. -/
theorem C94_requant (T : Transcript F) (threads : ℕ) (ht : 0 < threads) (hchar : ∀ k : ℕ, 0 < k → k ≤ 3 → (k : F) ≠ 0) (p bl : ℕ) [CharP F p] (hbl : 1 ≤ bl) (r : Requant)
    (hs : 1 ≤ r.shift) (hdvd : bl ∣ r.shift) (hfpm : r.fpm.natAbs ≤ p) (hinv : (r.fpm : F) ≠ 0) (hp : 2 ^ bl ≤ p) (commits : List C) (hcom : commits.length = 2 + r.shift / bl)
    (R : ℕ) (last : Claim F) (input output : List ℤ) (hin : input.length = 2 ^ (R + 2)) (hout : r.op bl input = some output)
    (hsmall : ∀ x ∈ input, (r.witness bl x).1.natAbs ≤ p) (hlast : last.point.length = R + 2) (htrue : last.eval = mle (output.map (toField p)) last.point) (c csc : F)
    (ts : T.State) (cin cout : List F) (chunks : List (List F)) (hcols : requantColumns p bl r input = (cin, cout, chunks)) :
    ∃ proof q ts', proveRequant threads T p bl r commits last input c csc ts
        = some (proof, trueClaim q (input.map fun x : ℤ => (x : F)), commits.zip ((cin :: cout :: chunks).map (trueClaim q)), ts') ∧
      q.length = R + 2 ∧ cout = output.map (toField p) ∧
      ((∀ sp ∈ proof.ioAccumulation :: (proof.clampingLookup.sumcheckProofs ++ proof.shiftedLookup.sumcheckProofs), ∀ y ∈ sp.point, ∀ k : ℕ, k ≤ 3 → y ≠ (k : F)) →
        verifyRequant T p bl r last proof c csc ts = some (trueClaim q (input.map fun x : ℤ => (x : F)), commits.zip ((cin :: cout :: chunks).map (trueClaim q)), ts') ∧
        ∃ claims num den claims' frac ts1 ts2, verifyLogup T proof.clampingLookup 1 c csc ts = some (claims, [(num, den)], ts1) ∧
          verifyLogup T proof.shiftedLookup (r.shift / bl) c 1 ts1 = some (claims', frac, ts2) ∧
          ((∀ x ∈ lookupFractions (R + 2) [cin, cout] c csc, x.2 ≠ 0) → den ≠ 0 ∧ num / den = fracSum (lookupFractions (R + 2) [cin, cout] c csc)) ∧
          frac.length = chunks.length ∧ ∀ s, ∀ hs : s < chunks.length, ∀ hs' : s < frac.length, (∀ x ∈ lookupFractions (R + 2) [chunks[s]] c 1, x.2 ≠ 0) →
            (frac[s]).2 ≠ 0 ∧ (frac[s]).1 / (frac[s]).2 = fracSum (lookupFractions (R + 2) [chunks[s]] c 1)) := by
  obtain ⟨l1, l2, l3, l4, l5⟩ := requantColumns_spec p bl hbl r hs hdvd hfpm hinv hp input output hout hsmall cin cout chunks hcols
  have hol : output.length = input.length := mapM_length _ _ _ hout
  have hcin : cin.length = 2 ^ (R + 2) := by omega
  have hcout : cout.length = 2 ^ (R + 2) := by rw [l2, List.length_map, hol, hin]
  rw [← l2] at htrue
  have hk : 0 < chunks.length := by rw [l3]; exact Nat.div_pos (Nat.le_of_dvd hs hdvd) hbl
  obtain ⟨info, lk, ts1, q1, h1, h2, -, h4, -, h6, h7⟩ := C92_lookup T threads ht hchar ts c csc R 2 [[cin, cout]] (by simp) (by omega) (by simp) (by simp [hcin, hcout])
  have hflat' : ∀ l : List (List F), (l.map fun t => [t]).flatten = l := by
    intro l
    induction l with
    | nil => rfl
    | cons a l ih => simp [ih]
  have hflat := hflat' chunks
  obtain ⟨info', lk', ts2, q2, h1', h2', -, h4', -, h6', h7'⟩ := C92_lookup T threads ht hchar ts1 c 1 R 1 (chunks.map fun t => [t]) (by simpa using hk) (by omega) (by simp)
    (by rw [hflat]; intro t ht'; rw [l4 t ht', hin])
  rw [hflat] at h1' h6' h7'
  simp only [List.flatten_cons, List.flatten_nil, List.append_nil, List.map_cons, List.map_nil] at h1 h6 h7
  obtain ⟨ch0, chs, hch⟩ := List.exists_cons_of_ne_nil (List.ne_nil_of_length_pos hk)
  obtain ⟨s0, hs0⟩ : ∃ s0, lk'.outputClaims[0]? = some s0 ∧ s0.point = q2 := by
    rw [h6', hch]; exact ⟨_, rfl, rfl⟩
  obtain ⟨hs0, hs0p⟩ := hs0
  obtain ⟨chal, hchal⟩ : ∃ x, x = T.labelled ts2 "requant_batching" := ⟨_, rfl⟩
  obtain ⟨heap, hheap⟩ : ∃ x, x = requantHeap (R + 2) last.point q1 q2 cin cout chunks := ⟨_, rfl⟩
  have hnv : ∀ a, (heap a).numVars = R + 2 ∧ (heap a).evals.length = 2 ^ (R + 2) := by
    intro a
    rw [hheap]
    match a with
    | 0 => exact ⟨rfl, hcout⟩
    | 1 => exact ⟨hlast, by simp only [requantHeap]; rw [computeBetas_length, hlast]⟩
    | 2 => exact ⟨h4, by simp only [requantHeap]; rw [computeBetas_length, h4]⟩
    | 3 => exact ⟨rfl, hcin⟩
    | 4 => exact ⟨h4', by simp only [requantHeap]; rw [computeBetas_length, h4']⟩
    | j + 5 =>
      refine ⟨rfl, ?_⟩
      show (chunks.getD j cin).length = _
      by_cases hj : j < chunks.length
      · rw [List.getD_eq_getElem _ _ hj, l4 _ (List.getElem_mem _), hin]
      · rw [List.getD_eq_default _ _ (by omega), hcin]
  obtain ⟨k, hkk⟩ : ∃ k, chunks.length = k + 1 := ⟨chunks.length - 1, by omega⟩
  obtain ⟨vp, v1, v2, v3, -⟩ := buildVP_requant' heap (R + 2) k (fun a => (hnv a).1) chal.1
  rw [← hkk] at v1 v3
  obtain ⟨acc, ts3, p1, p2, p3⟩ := proveTerms_spec T threads ht heap (R + 2) hnv (requantTerms chal.1 chunks.length) (by simp [requantTerms])
    (by
      intro t ht'
      simp only [requantTerms, List.mem_append, List.mem_cons, List.not_mem_nil, or_false, List.mem_map, List.mem_range] at ht'
      rcases ht' with (rfl | rfl | rfl) | ⟨j, -, rfl⟩ <;> simp) vp v1 (by rw [v2]; intro k hk hk'; exact hchar k hk (by omega)) chal.2
  rw [v3] at p1
  rw [v2] at p3
  obtain ⟨pt, hpt⟩ : ∃ x, x = acc.point := ⟨_, rfl⟩
  rw [← hpt] at p1 p2 p3
  have hev0 : ((List.range (5 + chunks.length)).map fun a => mle (heap a).evals pt)[0]? = some (mle cout pt) := by
    rw [List.getElem?_map, List.getElem?_range (by omega), hheap]; rfl
  have hev3 : ((List.range (5 + chunks.length)).map fun a => mle (heap a).evals pt)[3]? = some (mle cin pt) := by
    rw [List.getElem?_map, List.getElem?_range (by omega), hheap]; rfl
  have hdrop : ((List.range (5 + chunks.length)).map fun a => mle (heap a).evals pt).drop 5 = chunks.map fun t => mle t pt := by
    apply List.ext_getElem
    · simp
    · intro i g1 g2
      have hi : i < chunks.length := by simpa using g2
      simp only [List.getElem_drop, List.getElem_map, List.getElem_range, hheap]
      rw [Nat.add_comm 5 i]
      show mle (chunks.getD i cin) pt = _
      rw [List.getD_eq_getElem _ _ hi]
  have hrec := recombine_mle p bl r (input.map fun x : ℤ => (x : F)) cin chunks pt (by rw [p2, ← hin]; exact l5)
  have hzip : (([mle cin pt, mle cout pt] ++ chunks.map fun t => mle t pt).zip commits).map Prod.fst = [mle cin pt, mle cout pt] ++ chunks.map fun t => mle t pt :=
    List.map_fst_zip (by simp; omega)
  have hzip2 : (([mle cin pt, mle cout pt] ++ chunks.map fun t => mle t pt).zip commits).map Prod.snd = commits :=
    List.map_snd_zip (by simp; omega)
  have hwit : ((([mle cin pt, mle cout pt] ++ chunks.map fun t => mle t pt).zip commits).map fun x => (x.2, (⟨pt, x.1⟩ : Claim F)))
      = commits.zip ((cin :: cout :: chunks).map (trueClaim pt)) := by
    have : [mle cin pt, mle cout pt] ++ (chunks.map fun t => mle t pt) = (cin :: cout :: chunks).map fun t => mle t pt := rfl
    rw [this]
    generalize (cin :: cout :: chunks) = l
    clear hcom hzip hzip2
    induction l generalizing commits with
    | nil => simp
    | cons a l ih =>
      cases commits with
      | nil => simp
      | cons x xs => simp only [List.map_cons, List.zip_cons_cons, ih xs]; rfl
  refine ⟨⟨acc, [mle cin pt, mle cout pt] ++ chunks.map fun t => mle t pt, lk, lk', commits⟩, pt, ts3, ?_, p2, l2, fun hgood => ?_⟩
  · unfold proveRequant
    rw [hcols]
    have hlog : Nat.log2 cin.length = R + 2 := by rw [hcin, Nat.log2_two_pow]
    simp only [h1, h1', h2, h2', h6, hs0, Option.bind_eq_bind, Option.bind_some, List.getElem?_cons_zero, ← hchal, hlog, trueClaim, hs0p, ← hheap, p1, hev0, hev3, hdrop, hzip, hzip2,
      ← hpt, hrec]
    rw [hwit]
  · obtain ⟨frac, f1, f2, f3⟩ := h7 (fun sp hsp => hgood sp (by simp [hsp]))
    obtain ⟨frac', f1', f2', f3'⟩ := h7' (fun sp hsp => hgood sp (by simp [hsp]))
    simp only [List.length_cons, List.length_nil, zero_add] at f1 f2 f3
    simp only [List.length_map] at f1' f2' f3'
    obtain ⟨⟨num, den⟩, rfl⟩ := List.length_eq_one_iff.1 f2
    rw [← l3]
    refine ⟨?_, _, num, den, _, frac', _, _, f1, f1', ?_, f2', ?_⟩
    · have hpne : pt ≠ [] := List.ne_nil_of_length_pos (by omega)
      have hne : ∀ x : List F, x.length = R + 2 → x ≠ [] := fun x hx => List.ne_nil_of_length_pos (by omega)
      have p3' := p3 (fun y hy k hk => hgood acc (by simp) y (hpt ▸ hy) k (by omega))
      have hsum : cubeSum (R + 2) (termsVal heap (requantTerms chal.1 chunks.length))
          = alphaFold chal.1 ([last.eval, mle cout q1, mle cin q1] ++ chunks.map fun t => mle t q2) := by
        rw [alphaFold_eq, htrue, ← requantSum_cube (R + 2) chal.1 last.point q1 q2 cin cout chunks hlast h4 h4', hheap]
        unfold cubeSum
        refine Finset.sum_congr rfl fun b _ => ?_
        exact requantTerms_val (R + 2) chal.1 last.point q1 q2 cin cout chunks hlast h4 h4' _ (by simp [bitsPoint])
      rw [hsum, hheap, requantTerms_val (R + 2) chal.1 last.point q1 q2 cin cout chunks hlast h4 h4' pt p2] at p3'
      unfold verifyRequant
      have hmap : (chunks.map (trueClaim q2)).map Claim.eval = chunks.map fun t => mle t q2 := by rw [List.map_map]; rfl
      have hs0' : (chunks.map (trueClaim q2))[0]? = some ⟨q2, s0.eval⟩ := by
        rw [← h6', hs0, ← hs0p]
      have hcalc : requantCalc (eqPoly last.point pt) (eqPoly q1 pt) (eqPoly q2 pt) chal.1 ([mle cin pt, mle cout pt] ++ chunks.map fun t => mle t pt)
          = some (requantSum chal.1 last.point q1 q2 cout cin chunks pt) := by
        unfold requantCalc
        simp only [List.cons_append, List.nil_append, List.getElem?_cons_succ, List.getElem?_cons_zero, Option.bind_eq_bind, Option.bind_some, List.drop_succ_cons, List.drop_zero,
          Option.some.injEq]
        rw [requantFold_eq, requantSum, powerSum_mul]
        ring
      simp only [List.cons_append, List.nil_append] at hcalc
      simp only [f1, f1', ← l3, Option.bind_eq_bind, Option.bind_some, ← hchal, List.getElem?_cons_zero, List.getElem?_cons_succ, hs0', trueClaim, hmap]
      simp only [h4]
      rw [p3']
      simp only [Option.bind_some, eqXYEval_eq last.point pt (hne _ hlast) (by omega), eqXYEval_eq q1 pt (hne _ h4) (by omega), eqXYEval_eq q2 pt (hne _ h4') (by omega), List.cons_append, List.nil_append,
        hcalc, if_true, List.getElem?_cons_zero, List.drop_succ_cons, List.drop_zero, ← hrec]
      congr 3
      simp only [List.map_cons, List.map_map]
      rfl
    · intro hne
      have := f3 0 (by simp) (by simp) (by simpa using hne)
      simpa using this
    · intro s hs1 hs2 hne
      have := f3' s (by simpa using hs1) hs2 (by simpa using hne)
      simpa using this

/-! ### C95: pooling -/

/-- C95: the honest prover of a pooling layer with `2 × 2` windows. The input has shape `[2^a, 2^(b+1), 2^(g+1)]`, the output is what the layer computed from it, and the claim about
the output is true. The prover succeeds. Its claim about the input is true, and it hands over, for the commitments in order, true claims about the four columns
"output minus window entry" and about the output. Unless a challenge is one of the interpolation points `0, …, 5`, the verifier accepts and returns the same claims, and
the lookup's four fractions are the sums the table check has to see. -/
theorem C95_pooling (T : Transcript F) (threads : ℕ) (ht : 0 < threads) (hchar : ∀ k : ℕ, 0 < k → k ≤ 5 → (k : F) ≠ 0) (p : ℕ) [CharP F p] (a b g R : ℕ) (hn : a + b + g = R + 2)
    (X : List ℤ) (hX : X.length = 2 ^ a * 2 ^ (b + 1) * 2 ^ (g + 1)) (hsmall : ∀ x ∈ X, 2 * x.natAbs ≤ p) (output : Tensor ℤ)
    (hmax : (⟨[2 ^ a, 2 ^ (b + 1), 2 ^ (g + 1)], X⟩ : Tensor ℤ).maxpool2d 2 2 = some output) (commits : List C) (hcom : commits.length = 5) (last : Claim F)
    (hlast : last.point.length = R + 2) (htrue : last.eval = mle (output.data.map (toField p)) last.point) (c csc : F) (ts : T.State) (o : List F) (diffs : List (List F))
    (ho : o = output.data.map fun x : ℤ => (x : F))
    (hdiffs : diffs = [(0, 0), (0, 1), (1, 0), (1, 1)].map fun cr : ℕ × ℕ => List.zipWith (· - ·) o (windowEntries (R + 2) g cr.1 cr.2 (X.map fun x : ℤ => (x : F)))) :
    ∃ proof point q ts', provePooling threads T p (R + 2) commits last ⟨[2 ^ a, 2 ^ (b + 1), 2 ^ (g + 1)], X⟩ output.data c csc ts
        = some (proof, trueClaim point (X.map fun x : ℤ => (x : F)), commits.zip ((diffs ++ [o]).map (trueClaim q)), ts') ∧
      q.length = R + 2 ∧ point.length = R + 4 ∧ diffs.all (fun d => d.length = 2 ^ (R + 2)) ∧
      ((∀ sp ∈ proof.sumcheck :: proof.lookup.sumcheckProofs, ∀ y ∈ sp.point, ∀ k : ℕ, k ≤ 5 → y ≠ (k : F)) →
        verifyPooling T (R + 2) last proof c csc ts = some (trueClaim point (X.map fun x : ℤ => (x : F)), commits.zip ((diffs ++ [o]).map (trueClaim q)), ts') ∧
        ∃ claims frac ts1, verifyLogup T proof.lookup 4 c csc ts = some (claims, frac, ts1) ∧ frac.length = 4 ∧
          ∀ s, ∀ hs : s < diffs.length, ∀ hs' : s < frac.length, (∀ x ∈ lookupFractions (R + 2) [diffs[s]] c csc, x.2 ≠ 0) →
            (frac[s]).2 ≠ 0 ∧ (frac[s]).1 / (frac[s]).2 = fracSum (lookupFractions (R + 2) [diffs[s]] c csc)) := by
  have hX' : X.length = [2 ^ a, 2 ^ (b + 1), 2 ^ (g + 1)].prod := by rw [hX]; simp [mul_assoc]
  obtain ⟨out, m1, m2, m3⟩ := maxpool_windows a b g X hX'
  rw [m1] at hmax
  obtain rfl := (Option.some.inj hmax).symm
  have hpolys := computePolys_spec a b g X hX' out m1 m2
  rw [hn] at m2 m3 hpolys
  simp only at htrue ho
  have hgetX : ∀ i, 2 * (X.getD i 0).natAbs ≤ p := by
    intro i
    by_cases hi : i < X.length
    · rw [List.getD_eq_getElem _ _ hi]; exact hsmall _ (List.getElem_mem _)
    · rw [List.getD_eq_default _ _ (by omega)]; simp
  have hgetO : ∀ w, w < 2 ^ (R + 2) → 2 * (out.getD w 0).natAbs ≤ p := by
    intro w hw
    obtain ⟨h, -⟩ := m3 w hw
    simp only [List.mem_cons, List.not_mem_nil, or_false] at h
    rcases h with h | h | h | h <;> rw [h] <;> exact hgetX _
  have hoF : out.map (toField p) = o := by
    rw [ho]
    apply List.map_congr_left
    intro x hx
    obtain ⟨i, hi, rfl⟩ := List.getElem_of_mem hx
    have := hgetO i (by omega)
    rw [List.getD_eq_getElem _ _ hi] at this
    exact toField_eq_cast p _ (by omega)
  rw [hoF] at htrue
  have hol : o.length = 2 ^ (R + 2) := by rw [ho, List.length_map, m2]
  obtain ⟨D, hD⟩ : ∃ D : ℕ → ℕ → List F, D = fun cc rho => List.zipWith (· - ·) o (windowEntries (R + 2) g cc rho (X.map fun x : ℤ => (x : F))) := ⟨_, rfl⟩
  have hcast : ∀ i, (X.map fun x : ℤ => (x : F)).getD i 0 = ((X.getD i 0 : ℤ) : F) := by
    intro i
    simp only [List.getD_eq_getElem?_getD, List.getElem?_map]
    cases X[i]? <;> simp
  have hcasto : ∀ i, o.getD i 0 = ((out.getD i 0 : ℤ) : F) := by
    intro i
    rw [ho]
    simp only [List.getD_eq_getElem?_getD, List.getElem?_map]
    cases out[i]? <;> simp
  have hDlen : ∀ cc rho, (D cc rho).length = 2 ^ (R + 2) := by intro cc rho; rw [hD]; simp [hol, windowEntries]
  have hDget : ∀ cc rho w, w < 2 ^ (R + 2) → (D cc rho).getD w 0 = ((out.getD w 0 - X.getD (windowIndex g cc rho w) 0 : ℤ) : F) := by
    intro cc rho w hw
    rw [List.getD_eq_getElem _ _ (by rw [hDlen]; exact hw)]
    simp only [hD, windowEntries, List.getElem_zipWith, List.getElem_map, List.getElem_range]
    have := hcasto w
    rw [List.getD_eq_getElem _ _ (by omega)] at this
    rw [this, Int.cast_sub]
    congr 1
    exact hcast _
  have hdF : ∀ cc rho, ((List.range (2 ^ (R + 2))).map fun w => out.getD w 0 - X.getD (windowIndex g cc rho w) 0).map (toField p) = D cc rho := by
    intro cc rho
    apply List.ext_getElem
    · simp [hDlen]
    · intro w w1 w2
      have hw : w < 2 ^ (R + 2) := by simpa using w1
      have := hDget cc rho w hw
      rw [List.getD_eq_getElem _ _ w2] at this
      rw [this]
      simp only [List.getElem_map, List.getElem_range]
      have h1 := hgetO w hw
      have h2 := hgetX (windowIndex g cc rho w)
      exact toField_eq_cast p _ (by omega)
  have hdl : diffs = [D 0 0, D 0 1, D 1 0, D 1 1] := by rw [hdiffs, hD]; rfl
  have hpolysF : ([(0, 0), (0, 1), (1, 0), (1, 1)].map fun cr : ℕ × ℕ => (List.range (2 ^ (R + 2))).map fun w => out.getD w 0 - X.getD (windowIndex g cr.1 cr.2 w) 0).map
      (fun d => d.map (toField (F := F) p)) = diffs := by
    simp only [List.map_cons, List.map_nil, hdF, hdl]
  have hprod : mle (product4 (R + 2) (D 0 0) (D 0 1) (D 1 0) (D 1 1)) = fun _ => 0 := by
    funext lp
    have hz : product4 (R + 2) (D 0 0) (D 0 1) (D 1 0) (D 1 1) = List.replicate (2 ^ (R + 2)) 0 := by
      apply List.ext_getElem
      · simp [product4]
      · intro w w1 w2
        have hw : w < 2 ^ (R + 2) := by simpa using w2
        simp only [product4, List.getElem_map, List.getElem_range, List.getElem_replicate]
        rw [hDget _ _ _ hw, hDget _ _ _ hw, hDget _ _ _ hw, hDget _ _ _ hw]
        obtain ⟨h, -⟩ := m3 w hw
        simp only [List.mem_cons, List.not_mem_nil, or_false] at h
        rcases h with h | h | h | h <;> rw [h] <;> simp
    rw [hz]
    unfold mle
    apply Finset.sum_eq_zero
    intro w _
    rw [List.getD_eq_getElem?_getD, List.getElem?_replicate]
    split <;> simp
  have hflat : (diffs.map fun t => [t]).flatten = diffs := by rw [hdl]; rfl
  obtain ⟨info, lk, ts1, q1, h1, h2, -, h4, -, h6, h7⟩ := C92_lookup T threads ht (fun k h0 h3 => hchar k h0 (by omega)) ts c csc R 1 (diffs.map fun t => [t]) (by rw [hdl]; simp) (by omega) (by simp)
    (by rw [hflat, hdl]; intro t ht'; simp only [List.mem_cons, List.not_mem_nil, or_false] at ht'; rcases ht' with rfl | rfl | rfl | rfl <;> exact hDlen _ _)
  rw [hflat] at h1 h6 h7
  simp only [List.length_map] at h7
  obtain ⟨chal, hchal⟩ : ∃ x, x = T.labelled ts1 "batch_pooling" := ⟨_, rfl⟩
  obtain ⟨heap, hheap⟩ : ∃ x, x = poolingHeap (R + 2) q1 last.point o diffs := ⟨_, rfl⟩
  have hnv : ∀ x, (heap x).numVars = R + 2 ∧ (heap x).evals.length = 2 ^ (R + 2) := by
    intro x
    rw [hheap, hdl]
    match x with
    | 0 => exact ⟨rfl, hDlen _ _⟩
    | 1 => exact ⟨rfl, hDlen _ _⟩
    | 2 => exact ⟨rfl, hDlen _ _⟩
    | 3 => exact ⟨rfl, hDlen _ _⟩
    | 4 => exact ⟨rfl, by simp only [poolingHeap, if_pos]; rw [computeBetas_length, h4]⟩
    | 5 => exact ⟨rfl, hol⟩
    | 6 => exact ⟨rfl, by simp only [poolingHeap]; simp only [if_neg (show ¬ (6 = 4) by omega), if_neg (show ¬ (6 = 5) by omega), if_true]; rw [computeBetas_length, hlast]⟩
    | x + 7 => exact ⟨by simp [poolingHeap], by simp [poolingHeap, hol]⟩
  obtain ⟨vp, v1, v2, v3⟩ := buildVP_pooling heap (R + 2) (fun x => (hnv x).1) chal.1
  obtain ⟨acc, ts2, p1, p2, p3⟩ := proveTerms_spec T threads ht heap (R + 2) hnv (poolingTerms chal.1) (by simp [poolingTerms])
    (by
      intro t ht'
      simp only [poolingTerms, List.mem_cons, List.not_mem_nil, or_false] at ht'
      rcases ht' with rfl | rfl | rfl | rfl | rfl | rfl <;> simp) vp v1 (by rw [v2]; exact hchar) chal.2
  rw [v3] at p1
  rw [v2] at p3
  obtain ⟨pt, hpt⟩ : ∃ x, x = acc.point := ⟨_, rfl⟩
  rw [← hpt] at p1 p2 p3
  have hevs : ([0, 1, 2, 3, 4, 5, 6].map fun x => mle (heap x).evals pt) = [mle (D 0 0) pt, mle (D 0 1) pt, mle (D 1 0) pt, mle (D 1 1) pt, mle (computeBetas q1) pt, mle o pt, mle (computeBetas last.point) pt] := by
    rw [hheap, hdl]; rfl
  rw [hevs] at p1
  obtain ⟨r, hr⟩ : ∃ x, x = T.labelled ts2 "input_batching" := ⟨_, rfl⟩
  have hgle : g ≤ pt.length := by omega
  have hpoint : poolPoint r.1 r.1 g pt = some (r.1 :: pt.take g ++ r.1 :: pt.drop g) := by unfold poolPoint; rw [if_pos hgle]
  have hsubm : ∀ cc rho, mle (windowEntries (R + 2) g cc rho (X.map fun x : ℤ => (x : F))) pt = mle o pt - mle (D cc rho) pt := by
    intro cc rho
    unfold mle
    rw [← Finset.sum_sub_distrib]
    apply Finset.sum_congr rfl
    intro w hw
    have hw' := Finset.mem_range.1 hw
    rw [p2] at hw'
    rw [hDget _ _ _ hw', hcasto, Int.cast_sub, ← hcast]
    have : (windowEntries (R + 2) g cc rho (X.map fun x : ℤ => (x : F))).getD w 0 = (X.map fun x : ℤ => (x : F)).getD (windowIndex g cc rho w) 0 := by
      rw [List.getD_eq_getElem _ _ (by simpa [windowEntries] using hw')]
      simp only [windowEntries, List.getElem_map, List.getElem_range]
      rfl
    rw [this]
    ring
  have hlen : (pt.take g).length + (pt.drop g).length = R + 2 := by
    rw [← List.length_append, List.take_append_drop, p2]
  have hin : poolInputEval r.1 r.1 (mle o pt) [mle (D 0 0) pt, mle (D 0 1) pt, mle (D 1 0) pt, mle (D 1 1) pt] = mle (X.map fun x : ℤ => (x : F)) (r.1 :: pt.take g ++ r.1 :: pt.drop g) := by
    rw [mle_window, hlen, List.take_append_drop, List.length_take, min_eq_left hgle, hsubm, hsubm, hsubm, hsubm]
    simp only [poolInputEval, poolWeights, List.zip_cons_cons, List.zip_nil_left, List.foldl_cons, List.foldl_nil]
    ring
  obtain ⟨x0, x1, x2, x3, x4, rfl⟩ : ∃ x0 x1 x2 x3 x4, commits = [x0, x1, x2, x3, x4] := by
    match commits, hcom with
    | [x0, x1, x2, x3, x4], _ => exact ⟨x0, x1, x2, x3, x4, rfl⟩
  refine ⟨⟨acc, lk, [x0, x1, x2, x3, x4], [mle (D 0 0) pt, mle (D 0 1) pt, mle (D 1 0) pt, mle (D 1 1) pt] ++ [mle o pt], g⟩, r.1 :: pt.take g ++ r.1 :: pt.drop g, pt, r.2, ?_, p2, ?_, ?_, fun hgood => ?_⟩
  · unfold provePooling
    have hl : ceilLog2 (2 ^ (g + 1)) = some (g + 1) := ceilLog2_pow _
    have hs : checkedSub (g + 1) 1 = some g := by simp [checkedSub]
    have hc0 : (diffs.map (trueClaim q1))[0]? = some (trueClaim q1 (D 0 0)) := by rw [hdl]; rfl
    rw [if_pos ⟨rfl, m2, hlast⟩]
    simp only [hpolys, Option.bind_eq_bind, Option.bind_some, hpolysF, hoF, h1, h2, h6, hc0]
    simp only [trueClaim, ← hchal, ← hheap, p1]
    simp only [Option.bind_some, List.getElem?_cons_zero, List.getElem?_cons_succ, hl, hs, ← hr, ← hpt, hpoint,
      List.take_succ_cons, List.take_zero, List.cons_append, List.nil_append, List.zip_cons_cons, List.zip_nil_left, List.map_cons, List.map_nil, hin, hdl, trueClaim]
  · simp; omega
  · rw [hdl]; simp [hDlen]
  · obtain ⟨frac, f1, f2, f3⟩ := h7 (fun sp hsp y hy k hk => hgood sp (by simp [hsp]) y hy k (by omega))
    have hd4 : diffs.length = 4 := by rw [hdl]; rfl
    rw [hd4] at f1 f2
    refine ⟨?_, _, frac, _, f1, f2, ?_⟩
    · have hne : ∀ x : List F, x.length = R + 2 → x ≠ [] := fun x hx => List.ne_nil_of_length_pos (by omega)
      have p3' := p3 (fun y hy k hk => hgood acc (by simp) y (hpt ▸ hy) k hk)
      have hsum : cubeSum (R + 2) (termsVal heap (poolingTerms chal.1)) = poolInitial chal.1 [mle (D 0 0) q1, mle (D 0 1) q1, mle (D 1 0) q1, mle (D 1 1) q1] last.eval := by
        have h0 := poolingSum_cube (R + 2) chal.1 q1 last.point (D 0 0) (D 0 1) (D 1 0) (D 1 1) o h4 hlast
        rw [hprod, zero_add] at h0
        rw [poolInitial_eq, htrue]
        simp only [List.cons_append, List.nil_append]
        rw [← h0, hheap, hdl]
        unfold cubeSum
        refine Finset.sum_congr rfl fun w _ => ?_
        exact poolingTerms_val (R + 2) chal.1 q1 last.point o _ _ _ _ h4 hlast _ (by simp [bitsPoint])
      have hval : termsVal heap (poolingTerms chal.1) pt
          = poolExpected (eqPoly q1 pt) (eqPoly last.point pt) chal.1 [mle (D 0 0) pt, mle (D 0 1) pt, mle (D 1 0) pt, mle (D 1 1) pt] (mle o pt) := by
        rw [hheap, hdl, poolingTerms_val (R + 2) chal.1 q1 last.point o _ _ _ _ h4 hlast pt p2, poolExpected_eq]
        simp only [poolingSum, List.prod_cons, List.prod_nil, powerSum, List.length_cons, List.length_nil]
        ring
      rw [hsum, hval] at p3'
      have hs : checkedSub 5 1 = some 4 := rfl
      unfold verifyPooling
      simp only [f1, Option.bind_eq_bind, Option.bind_some, ← hchal, hdl, List.map_cons, List.map_nil, trueClaim, p3', List.getElem?_cons_zero, eqXYEval_eq q1 pt (hne _ h4) (by omega),
        eqXYEval_eq last.point pt (hne _ hlast) (by omega), List.length_append, List.length_cons, List.length_nil, hs, List.cons_append, List.nil_append, List.getElem?_cons_succ, List.take_succ_cons,
        List.take_zero, if_true, ← hr, hpoint, List.zip_cons_cons, List.zip_nil_left, hin]
    · intro s hs1 hs2 hne
      have := f3 s (by simpa using hs1) hs2 (by simpa using hne)
      simpa using this

/-! ### Examples, modulo 17 -/

/-- The challenges of the examples: none is one of `0, …, 5`. -/
abbrev exLookupTape : List (ZMod 17) := [7, 8, 9, 10, 11, 12, 13, 14, 15, 16, 7, 8, 9, 10, 11, 12, 13, 14]

/-- ReLU of `5 -8 0 2`: prover, then verifier; the points of the sumchecks, the claim and the claims about the columns. -/
example : ((proveActivation 1 (tape (ZMod 17)) 17 none ["in", "out"] ⟨[8, 9], mle (([5, 0, 0, 2] : List ℤ).map (toField 17)) [8, 9]⟩ [5, -8, 0, 2] [5, 0, 0, 2] 3 1 exLookupTape).bind fun r =>
      (verifyActivation (tape (ZMod 17)) 2 none ⟨[8, 9], mle (([5, 0, 0, 2] : List ℤ).map (toField 17)) [8, 9]⟩ r.1 3 1 exLookupTape).map fun v =>
        r.1.lookup.sumcheckProofs.map (·.point) ++ [r.1.ioAccumulation.sumcheck.point, [v.1.eval], v.2.1.map (·.2.eval)])
    = some [[10], [16, 7], [8], [8, 11]] ∧
    (8 : ZMod 17) = mle (([5, -8, 0, 2] : List ℤ).map (toField 17)) [10, 11] := by
  refine ⟨?_, ?_⟩ <;> decide +kernel

/-- GELU with multiplier 2: the prover hands over 12 for the first column, the verifier 7, twice as much. -/
example : ((proveActivation 1 (tape (ZMod 17)) 17 (some (2, -6, 6)) ["in", "out"] ⟨[8, 9], mle (([3, 0, 0, 2] : List ℤ).map (toField 17)) [8, 9]⟩ [3, -1, 0, 2] [3, 0, 0, 2] 3 1 exLookupTape).bind fun r =>
      (verifyActivation (tape (ZMod 17)) 2 (some 2) ⟨[8, 9], mle (([3, 0, 0, 2] : List ℤ).map (toField 17)) [8, 9]⟩ r.1 3 1 exLookupTape).map fun v =>
        (r.2.1.eval, v.1.eval, r.2.2.1.map (·.2.eval), v.2.1.map (·.2.eval)))
    = some (12, 12, [12, 1], [7, 1]) := by decide +kernel

/-- Requantisation of `5 -16 3 8` with two bits and a shift of four. -/
example : (⟨1, 3, 3, 8⟩ : Requant).op 2 [5, -16, 3, 8] = some [1, -1, 1, 1] ∧ (⟨1, 3, 3, 8⟩ : Requant).shift = 4 ∧ (((3 : ℤ) : ZMod 17) ≠ 0) ∧
    ((proveRequant 1 (tape (ZMod 17)) 17 2 ⟨1, 3, 3, 8⟩ ["in", "out", "s0", "s1"] ⟨[8, 9], mle (([1, -1, 1, 1] : List ℤ).map (toField 17)) [8, 9]⟩ [5, -16, 3, 8] 3 1 exLookupTape).bind fun r =>
      (verifyRequant (tape (ZMod 17)) 17 2 ⟨1, 3, 3, 8⟩ ⟨[8, 9], mle (([1, -1, 1, 1] : List ℤ).map (toField 17)) [8, 9]⟩ r.1 3 1 exLookupTape).map fun v =>
        r.1.clampingLookup.sumcheckProofs.map (·.point) ++ r.1.shiftedLookup.sumcheckProofs.map (·.point) ++ [r.1.ioAccumulation.point, [v.1.eval], v.2.1.map (·.2.eval)])
    = some [[10], [7], [12, 13], [9], [2, 0, 15, 14]] ∧
    (9 : ZMod 17) = mle (([5, -16, 3, 8] : List ℤ).map fun x : ℤ => (x : ZMod 17)) [12, 13] := by
  refine ⟨?_, ?_, ?_, ?_, ?_⟩ <;> decide +kernel

/-- Pooling of a `4 × 4` image. -/
example : (⟨[1, 4, 4], [1, 2, 3, 4, 5, -6, 7, 8, 0, -1, -2, -3, -4, -5, -6, -7]⟩ : Tensor ℤ).maxpool2d 2 2 = some ⟨[1, 2, 2], [5, 8, 0, -2]⟩ ∧
    ((provePooling 1 (tape (ZMod 17)) 17 2 ["d0", "d1", "d2", "d3", "out"] ⟨[8, 9], mle (([5, 8, 0, -2] : List ℤ).map (toField 17)) [8, 9]⟩
        ⟨[1, 4, 4], [1, 2, 3, 4, 5, -6, 7, 8, 0, -1, -2, -3, -4, -5, -6, -7]⟩ [5, 8, 0, -2] 3 1 exLookupTape).bind fun r =>
      (verifyPooling (tape (ZMod 17)) 2 ⟨[8, 9], mle (([5, 8, 0, -2] : List ℤ).map (toField 17)) [8, 9]⟩ r.1 3 1 exLookupTape).map fun v =>
        r.1.lookup.sumcheckProofs.map (·.point) ++ [r.1.sumcheck.point, v.1.point, [v.1.eval], v.2.1.map (·.2.eval)])
    = some [[10], [15, 16], [7, 15, 7, 16], [1], [4, 9, 1, 10, 11]] ∧
    (1 : ZMod 17) = mle (([1, 2, 3, 4, 5, -6, 7, 8, 0, -1, -2, -3, -4, -5, -6, -7] : List ℤ).map fun x : ℤ => (x : ZMod 17)) [7, 15, 7, 16] := by
  refine ⟨?_, ?_, ?_⟩ <;> decide +kernel

end Props
