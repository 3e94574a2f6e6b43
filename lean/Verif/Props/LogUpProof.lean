import Verif.Lemmas.LogUpProof
import Mathlib.Tactic.IntervalCases

/-!
Property C16: what an accepted lookup proof says.
-/

namespace Props

open Model Spec Lemmas

variable {F : Type} [Field F] [DecidableEq F]

/-- The fractions of the input layer of a table: multiplicity over merged row. -/
def tableFractions (n : ℕ) (cols : List (List F)) (mult : List F) (c csc : F) : List (F × F) :=
  mult.zip ((List.range (2 ^ n)).map fun i => c + fingerprint csc (rowOf cols i))

/-- The fractions of the input layer of one group of looked-up columns: `-1` over merged row. -/
def lookupFractions (n : ℕ) (cols : List (List F)) (c csc : F) : List (F × F) :=
  (List.range (2 ^ n)).map fun i => (-1, c + fingerprint csc (rowOf cols i))

/-- The claim that `t` evaluates at `p` to what it does evaluate to. -/
def trueClaim (p t : List F) : Claim F := ⟨p, mle t p⟩

omit [DecidableEq F] in
theorem quad_take (e : List F) : quad (e.take 4) = quad e := by
  simp [quad, List.getElem?_take]

omit [DecidableEq F] in
theorem fractionalOutputs_take (outs : List (List F)) :
    fractionalOutputs (outs.map (·.take 4)) = fractionalOutputs outs := by
  unfold fractionalOutputs
  rw [List.mapM_map]
  congr 1
  funext e
  simp only [Function.comp, quad_take]

omit [DecidableEq F] in
theorem outputTerm_take (b lambda : F) (e : List F) : outputTerm b lambda (e.take 4) = outputTerm b lambda e := by
  simp [outputTerm, quad_take]

/-- The first claim is true of the circuits whose outputs the proof carries. -/
theorem init_spec (T : Transcript F) (inst : ℕ) (outs : List (List F)) (ts : T.State) (st : LogUpState F T.State)
    (h : logupInit T inst outs ts = some st) :
    ∃ b, st.point = [b] ∧ ∃ terms, outs.mapM (outputTerm b st.lambda) = some terms ∧ st.claim = powerSum st.alpha terms := by
  unfold logupInit at h
  simp only [Option.bind_eq_bind, Option.bind_eq_some_iff] at h
  obtain ⟨terms, h1, h2⟩ := h
  rw [Option.some.injEq] at h2
  subst h2
  exact ⟨_, rfl, terms, h1, alphaFold_eq _ _⟩

theorem init_true (T : Transcript F) (inst m : ℕ) (frs : List (List (F × F))) (outs : List (List F)) (ts : T.State)
    (st : LogUpState F T.State) (hl : ∀ fr ∈ frs, fr.length = 2 ^ (1 + m))
    (h : logupInit T inst outs ts = some st) (ho : outs.map (·.take 4) = frs.map (outputsOf m)) :
    st.claim = layerClaim false st.alpha st.lambda st.point (frs.map halve^[m]) := by
  obtain ⟨b, hb, terms, h1, h2⟩ := init_spec T inst outs ts st h
  have h3 : (outs.map (·.take 4)).mapM (outputTerm b st.lambda) = some terms := by
    rw [← h1, List.mapM_map]
    congr 1
    funext e
    exact outputTerm_take b st.lambda e
  rw [ho, List.mapM_map, mapM_some' _ (fun fr => mle ((halve^[m] fr).map Prod.fst) [b]
    + st.lambda * mle ((halve^[m] fr).map Prod.snd) [b]) frs (fun fr hfr => by
      have := iterate_halve_length m 1 fr (hl fr hfr)
      exact outputTerm_top b st.lambda (halve^[m] fr) (by simpa using this)), Option.some.injEq] at h3
  rw [h2, ← h3, hb, layerClaim, List.map_map]
  rfl

/-- The prover sent wrong outputs and the first challenges happened to make the batched claim true. -/
def InitLucky {S : Type} (m : ℕ) (frs : List (List (F × F))) (outs : List (List F)) (st : LogUpState F S) : Prop :=
  outs.map (·.take 4) ≠ frs.map (outputsOf m) ∧
    st.claim = layerClaim false st.alpha st.lambda st.point (frs.map halve^[m])

/-- Acceptance, unfolded. -/
theorem accepted_parts (T : Transcript F) (proof : LogUpProof F) (inst : ℕ) (c csc : F) (ts ts' : T.State)
    (claims : List (Claim F)) (frac : List (F × F)) (hv : verifyLogup T proof inst c csc ts = some (claims, frac, ts')) :
    ∃ st0 st, logupInit T inst proof.circuitOutputs ts = some st0 ∧
      logupRounds T inst 0 (proof.sumcheckProofs.zip proof.roundEvals) st0 = some st ∧
      fractionalOutputs proof.circuitOutputs = some frac ∧ claims = proof.outputClaims ∧
      finalEval proof.isTable claims c csc st.alpha st.lambda inst = some st.claim := by
  unfold verifyLogup at hv
  simp only [Option.bind_eq_bind, Option.bind_eq_some_iff] at hv
  obtain ⟨fr, h1, st0, h2, st, h3, e, h4, h5⟩ := hv
  by_cases he : e = st.claim
  · rw [if_pos he, Option.some.injEq, Prod.mk.injEq, Prod.mk.injEq] at h5
    obtain ⟨rfl, rfl, rfl⟩ := h5
    exact ⟨st0, st, h2, h3, h1, rfl, by rw [h4, he]⟩
  · rw [if_neg he] at h5; simp at h5

/-- C16 for tables, part: if the verifier accepts a proof with `R` rounds, whose sumcheck proofs carry the verifier's own
challenges, and the returned claims are true of a multiplicity column and table columns at the verifier's final point,
then the returned fraction is the sum of the fractions of these columns, unless the prover was lucky: wrong outputs or
wrong evaluations batched to the right claim, or a wrong sumcheck message agreed with the right one at a challenge.
`C16_output_error` and `C16_batch_error` bound the first two, when the number of outputs and evaluations is right; C11 the
last. Missing: that the rounds, their number, points and evaluations are as assumed, which is not checked or not bound, see
`C16_zero_rounds_false` and `C16_unbound_evaluations_false`. -/
theorem C16_table_partial (T : Transcript F) (hchar : ∀ k : ℕ, 0 < k → k ≤ 3 → (k : F) ≠ 0) (proof : LogUpProof F)
    (c csc : F) (ts ts' : T.State) (R : ℕ) (cols : List (List F)) (mult : List F)
    (hmult : mult.length = 2 ^ (R + 1))
    (hrounds : proof.sumcheckProofs.length = R ∧ proof.roundEvals.length = R)
    (htable : proof.isTable = true) (claims : List (Claim F)) (frac : List (F × F))
    (hv : verifyLogup T proof 1 c csc ts = some (claims, frac, ts')) :
    ∃ st0 st, logupInit T 1 proof.circuitOutputs ts = some st0 ∧
      logupRounds T 1 0 (proof.sumcheckProofs.zip proof.roundEvals) st0 = some st ∧
      (RoundsWf false T 1 0 (proof.sumcheckProofs.zip proof.roundEvals) st0 →
        claims = (mult :: cols).map (trueClaim st.point) →
        st.point.length = R + 1 ∧
        ((∃ N D, frac = [(N, D)] ∧ ((∀ x ∈ tableFractions (R + 1) cols mult c csc, x.2 ≠ 0) →
            D ≠ 0 ∧ N / D = fracSum (tableFractions (R + 1) cols mult c csc))) ∨
          InitLucky R [tableFractions (R + 1) cols mult c csc] proof.circuitOutputs st0 ∨
          LogupLucky false T 1 [tableFractions (R + 1) cols mult c csc] 0
            (proof.sumcheckProofs.zip proof.roundEvals) st0)) := by
  obtain ⟨st0, st, h1, h2, h3, -, h5⟩ := accepted_parts T proof 1 c csc ts ts' claims frac hv
  refine ⟨st0, st, h1, h2, fun hwf hcl => ?_⟩
  obtain ⟨fr, hfr⟩ : ∃ fr, fr = tableFractions (R + 1) cols mult c csc := ⟨_, rfl⟩
  rw [← hfr]
  have hfl : fr.length = 2 ^ (R + 1) := by rw [hfr]; simp [tableFractions, hmult]
  have hzl : (proof.sumcheckProofs.zip proof.roundEvals).length = R := by rw [List.length_zip, hrounds.1, hrounds.2, min_self]
  obtain ⟨b, hb, -⟩ := init_spec T 1 _ ts st0 h1
  obtain ⟨hp, h6⟩ := loop_sound false T 1 one_pos hchar [fr] (by simp) _ 0 st0 st (by simp) (by rw [hb]; rfl)
    (by intro g hg; rw [List.mem_singleton] at hg; rw [hg, hfl, hzl]; congr 1; omega) h2 hwf
  rw [hzl] at hp h6
  have hp' : st.point.length = R + 1 := by rw [hp]; omega
  refine ⟨hp', ?_⟩
  have htrue : st.claim = layerClaim false st.alpha st.lambda st.point [fr] := by
    rw [htable, hcl] at h5
    simp only [finalEval, if_true, List.map_cons, Option.some.injEq] at h5
    rw [← h5, columnsEval_eq, layerClaim, List.map_cons, List.map_nil, powerSum, powerSum, mul_zero, add_zero]
    simp only [Bool.false_eq_true, if_false]
    have e1 : fr.map Prod.fst = mult := by
      rw [hfr, tableFractions, List.map_fst_zip]; simp [hmult]
    have e2 : fr.map Prod.snd = (List.range (2 ^ (R + 1))).map fun i => c + fingerprint csc (rowOf cols i) := by
      rw [hfr, tableFractions, List.map_snd_zip]; simp [hmult]
    rw [e1, e2, merged_mle (R + 1) csc c st.point hp', List.map_map]
    rfl
  rcases h6 htrue with h7 | h7
  · by_cases ho : proof.circuitOutputs.map (·.take 4) = [fr].map (outputsOf R)
    · left
      obtain ⟨l, g1, g2, g3⟩ := fraction_outputs R [fr] (by
        intro g hg; rw [List.mem_singleton] at hg; rw [hg, hfl]; congr 1; omega)
      rw [← ho, fractionalOutputs_take, h3, Option.some.injEq] at g1
      subst g1
      have : frac = [frac[0]'(by rw [g2]; simp)] := by
        apply List.ext_getElem
        · exact g2
        · intro i hi _
          have : i = 0 := by rw [g2] at hi; simpa using hi
          subst this
          rfl
      refine ⟨_, _, this, fun hx => ?_⟩
      exact g3 0 (by simp) (by rw [g2]; simp) (by simpa using hx)
    · exact Or.inr (Or.inl ⟨ho, h7⟩)
  · exact Or.inr (Or.inr h7)

/-- C16 for lookups, part: the same for `inst` groups of `k` columns each, with at least one round, when the returned
claims are true of the columns at the verifier's final point: the returned fractions are the sums of `-1` over the
merged rows. Missing: as for tables. -/
theorem C16_lookup_partial (T : Transcript F) (hchar : ∀ k : ℕ, 0 < k → k ≤ 3 → (k : F) ≠ 0) (proof : LogUpProof F)
    (c csc : F) (ts ts' : T.State) (R k : ℕ) (groups : List (List (List F))) (hinst : 0 < groups.length) (hk : 0 < k)
    (hg : ∀ g ∈ groups, g.length = k)
    (hrounds : proof.sumcheckProofs.length = R + 1 ∧ proof.roundEvals.length = R + 1)
    (hlookup : proof.isTable = false) (claims : List (Claim F)) (frac : List (F × F))
    (hv : verifyLogup T proof groups.length c csc ts = some (claims, frac, ts')) :
    ∃ st0 st, logupInit T groups.length proof.circuitOutputs ts = some st0 ∧
      logupRounds T groups.length 0 (proof.sumcheckProofs.zip proof.roundEvals) st0 = some st ∧
      (RoundsWf true T groups.length 0 (proof.sumcheckProofs.zip proof.roundEvals) st0 →
        claims = groups.flatten.map (trueClaim st.point) →
        st.point.length = R + 2 ∧
        ((frac.length = groups.length ∧ ∀ s, ∀ hs : s < groups.length, ∀ hs' : s < frac.length,
            (∀ x ∈ lookupFractions (R + 2) groups[s] c csc, x.2 ≠ 0) →
            (frac[s]).2 ≠ 0 ∧ (frac[s]).1 / (frac[s]).2 = fracSum (lookupFractions (R + 2) groups[s] c csc)) ∨
          InitLucky (R + 1) (groups.map fun g => lookupFractions (R + 2) g c csc) proof.circuitOutputs st0 ∨
          LogupLucky true T groups.length (groups.map fun g => lookupFractions (R + 2) g c csc) 0
            (proof.sumcheckProofs.zip proof.roundEvals) st0)) := by
  obtain ⟨st0, st, h1, h2, h3, -, h5⟩ := accepted_parts T proof _ c csc ts ts' claims frac hv
  refine ⟨st0, st, h1, h2, fun hwf hcl => ?_⟩
  obtain ⟨frs, hfrs⟩ : ∃ frs, frs = groups.map fun g => lookupFractions (R + 2) g c csc := ⟨_, rfl⟩
  rw [← hfrs]
  have hfl : ∀ fr ∈ frs, fr.length = 2 ^ (R + 2) := by
    intro fr hfr
    rw [hfrs] at hfr
    obtain ⟨g, -, rfl⟩ := List.mem_map.1 hfr
    simp [lookupFractions]
  have hneg : ∀ fr ∈ frs, ∀ x ∈ fr, x.1 = -1 := by
    intro fr hfr x hx
    rw [hfrs] at hfr
    obtain ⟨g, -, rfl⟩ := List.mem_map.1 hfr
    obtain ⟨i, -, rfl⟩ := List.mem_map.1 hx
    rfl
  have hzl : (proof.sumcheckProofs.zip proof.roundEvals).length = R + 1 := by
    rw [List.length_zip, hrounds.1, hrounds.2, min_self]
  have hne : proof.sumcheckProofs.zip proof.roundEvals ≠ [] := by
    intro h0; rw [h0] at hzl; simp at hzl
  obtain ⟨b, hb, -⟩ := init_spec T _ _ ts st0 h1
  obtain ⟨hp, h6⟩ := loop_sound true T groups.length hinst hchar frs (fun _ => hneg) _ 0 st0 st (fun _ => hne) (by rw [hb]; rfl)
    (by intro g hg; rw [hfl g hg, hzl]; congr 1; omega) h2 hwf
  rw [hzl] at hp h6
  have hp' : st.point.length = R + 2 := by rw [hp]; omega
  refine ⟨hp', ?_⟩
  have htrue : st.claim = layerClaim true st.alpha st.lambda st.point frs := by
    have hcl' : claims = (groups.map (List.map (trueClaim st.point))).flatten := by rw [hcl, List.map_flatten]
    have hgl : ∀ g ∈ groups.map (List.map (trueClaim st.point)), g.length = k := by
      intro g hgm
      obtain ⟨g', hg', rfl⟩ := List.mem_map.1 hgm
      rw [List.length_map]; exact hg g' hg'
    have hlen : claims.length = k * groups.length := by
      rw [hcl', List.length_flatten, List.eq_replicate_of_mem (a := k) (l := (groups.map (List.map (trueClaim st.point))).map List.length)
        (by intro x hx; obtain ⟨g, hg', rfl⟩ := List.mem_map.1 hx; exact hgl g hg')]
      simp [mul_comm]
    have hdiv : claims.length / groups.length = k := by rw [hlen, Nat.mul_div_cancel _ hinst]
    rw [hlookup] at h5
    unfold finalEval at h5
    rw [if_neg (by simp), if_neg (by rw [hdiv]; omega), hdiv, hcl', chunks_flatten k hk _ hgl, Option.some.injEq] at h5
    rw [← h5, alphaFold_eq, layerClaim, hfrs, List.map_map, List.map_map]
    congr 1
    apply List.map_congr_left
    intro g _
    simp only [Function.comp, if_true]
    rw [columnsEval_eq, lookupFractions, List.map_map, List.map_map]
    exact (merged_mle (R + 2) csc c st.point hp' g).symm
  rcases h6 htrue with h7 | h7
  · by_cases ho : proof.circuitOutputs.map (·.take 4) = frs.map (outputsOf (R + 1))
    · left
      obtain ⟨l, g1, g2, g3⟩ := fraction_outputs (R + 1) frs (by
        intro g hg; rw [hfl g hg]; congr 1; omega)
      rw [← ho, fractionalOutputs_take, h3, Option.some.injEq] at g1
      subst g1
      have hl : frs.length = groups.length := by rw [hfrs, List.length_map]
      refine ⟨by rw [g2, hl], fun s hs hs' hx => ?_⟩
      have he : frs[s]'(by rw [hl]; exact hs) = lookupFractions (R + 2) groups[s] c csc := by simp [hfrs]
      have := g3 s (by rw [hl]; exact hs) hs' (by rw [he]; exact hx)
      rw [he] at this
      exact this
    · exact Or.inr (Or.inl ⟨ho, h7⟩)
  · exact Or.inr (Or.inr h7)

/-- An honest proof for the table column `1, 2, 3, 4` with multiplicities `1, 0, 2, 1`, constant 5. -/
def exTableProof : LogUpProof ℚ :=
  ⟨[⟨[5], [[-164, 392, 1150, 2128]]⟩], [[-4, 13, -3, 11]], [⟨[5, 7], 3⟩, ⟨[5, 7], 20⟩], [[20, 7, 48, 63]], true⟩

example : verifyLogup (tape ℚ) exTableProof 1 5 1 [2, 1, 3, 5, 7, 2, 4]
    = some ([[1, 0, 2, 1], [1, 2, 3, 4]].map (trueClaim [5, 7]), [(20 * 63 + 7 * 48, 48 * 63)], []) := by
  decide +kernel

example : ∃ st0, logupInit (tape ℚ) 1 exTableProof.circuitOutputs [2, 1, 3, 5, 7, 2, 4] = some st0 ∧
    RoundsWf false (tape ℚ) 1 0 (exTableProof.sumcheckProofs.zip exTableProof.roundEvals) st0 ∧
    ∀ x ∈ tableFractions 2 [[(1 : ℚ), 2, 3, 4]] [1, 0, 2, 1] 5 1, x.2 ≠ 0 := by
  refine ⟨⟨228, 1, 3, [2], [5, 7, 2, 4]⟩, by decide +kernel, ⟨by decide +kernel, ?_⟩, by decide +kernel⟩
  intro st' h
  have : logupRound (tape ℚ) 1 0 (⟨228, 1, 3, [2], [5, 7, 2, 4]⟩ : LogUpState ℚ (tape ℚ).State)
      ⟨[5], [[-164, 392, 1150, 2128]]⟩ [-4, 13, -3, 11] = some ⟨103, 2, 4, [5, 7], []⟩ := by decide +kernel
  rw [this, Option.some.injEq] at h
  subst h
  exact ⟨rfl, trivial⟩

/-! ### How often the prover is lucky -/

open Classical in
/-- C16, soundness error of a round: wrong evaluations that were fixed before the challenges `b`, `lambda`, `alpha` were
drawn give a true next claim for at most `(inst + 1) · |F|²` of the `|F|³` challenges. -/
theorem C16_batch_error [Fintype F] (frs : List (List (F × F))) (hpos : 0 < frs.length) (ev x : List F)
    (hev : ev.length = 4 * frs.length) (hfrs : ∀ fr ∈ frs, fr.length = 2 ^ (x.length + 1))
    (hne : quadsOf frs.length ev ≠ frs.map (trueQuad x)) (eq alpha lambda : F) :
    (Finset.univ.filter fun y : (F × F) × F => ∃ sc, roundClaims frs.length eq alpha lambda y.1.1 y.2 y.1.2 ev
      = some (layerClaim false y.2 y.1.2 (x ++ [y.1.1]) frs, sc)).card ≤ (frs.length + 1) * Fintype.card F ^ 2 := by
  have := count_batch (quadsOf frs.length ev) (frs.map (trueQuad x)) (by simp [quadsOf]) hne
  rw [show (quadsOf frs.length ev).length = frs.length by simp [quadsOf]] at this
  refine (Finset.card_le_card ?_).trans this
  intro y hy
  obtain ⟨sc, h⟩ := (Finset.mem_filter.1 hy).2
  refine Finset.mem_filter.2 ⟨Finset.mem_univ _, ?_⟩
  rw [roundClaims4 _ hpos _ _ _ _ _ _ ev hev, Option.some.injEq, Prod.mk.injEq] at h
  rw [h.1, layerClaim, List.map_map]
  congr 1
  apply List.map_congr_left
  intro fr hfr
  simp only [Function.comp, Bool.false_eq_true, if_false]
  rw [nextTerm_true _ _ x fr (hfrs fr hfr)]

open Classical in
/-- C16, soundness error of the last round of lookups. -/
theorem C16_last_batch_error [Fintype F] (frs : List (List (F × F))) (hpos : 0 < frs.length) (ev x : List F)
    (hev : ev.length = 2 * frs.length) (hfrs : ∀ fr ∈ frs, fr.length = 2 ^ (x.length + 1))
    (hne : pairsOf frs.length ev ≠ frs.map (fun fr => ((trueQuad x fr).2.1, (trueQuad x fr).2.2.2)))
    (eq alpha lambda lambda' : F) :
    (Finset.univ.filter fun y : F × F => ∃ sc, roundClaims frs.length eq alpha lambda y.1 y.2 lambda' ev
      = some (layerClaim true y.2 lambda' (x ++ [y.1]) frs, sc)).card ≤ frs.length * Fintype.card F := by
  have := count_batch2 (pairsOf frs.length ev) _ (by simp [pairsOf]) hne
  rw [show (pairsOf frs.length ev).length = frs.length by simp [pairsOf]] at this
  refine (Finset.card_le_card ?_).trans this
  intro y hy
  obtain ⟨sc, h⟩ := (Finset.mem_filter.1 hy).2
  refine Finset.mem_filter.2 ⟨Finset.mem_univ _, ?_⟩
  rw [roundClaims2 _ hpos _ _ _ _ _ _ ev hev, Option.some.injEq, Prod.mk.injEq] at h
  rw [h.1, layerClaim, List.map_map]
  congr 1
  apply List.map_congr_left
  intro fr hfr
  simp only [Function.comp, if_true]
  rw [nextTerm2_true _ x fr (hfrs fr hfr)]

/-- The four outputs of a circuit in the order of `nextTerm`. -/
def outQuad (e : List F) : F × F × F × F := (e.getD 0 0, e.getD 3 0, e.getD 1 0, e.getD 2 0)

omit [DecidableEq F] in
theorem outputTerm_some (b lambda : F) (e : List F) (t : F) (h : outputTerm b lambda e = some t) :
    4 ≤ e.length ∧ t = nextTerm b lambda (outQuad e) := by
  have hl : 4 ≤ e.length := by
    by_contra hc
    have h3 : e[3]? = none := List.getElem?_eq_none (by omega)
    simp only [outputTerm, quad, h3, Option.bind_eq_bind] at h
    cases e[0]? <;> cases e[1]? <;> cases e[2]? <;> simp at h
  refine ⟨hl, ?_⟩
  have hg : ∀ j < 4, e[j]? = some (e.getD j 0) := by
    intro j hj
    rw [List.getElem?_eq_getElem (by omega), List.getD_eq_getElem _ _ (by omega)]
  simp only [outputTerm, quad, hg 0 (by omega), hg 1 (by omega), hg 2 (by omega), hg 3 (by omega), Option.bind_eq_bind,
    Option.bind_some, Option.some.injEq] at h
  rw [← h]
  rfl

omit [DecidableEq F] in
theorem mapM_outputTerm (b lambda : F) : ∀ (outs : List (List F)) (terms : List F),
    outs.mapM (outputTerm b lambda) = some terms →
    (∀ e ∈ outs, 4 ≤ e.length) ∧ terms = outs.map fun e => nextTerm b lambda (outQuad e) := by
  intro outs
  induction outs with
  | nil => intro terms h; simp at h; simp [h]
  | cons e es ih =>
    intro terms h
    rw [List.mapM_cons] at h
    simp only [Option.bind_eq_bind, Option.bind_eq_some_iff] at h
    obtain ⟨t, h1, ts, h2, h3⟩ := h
    obtain ⟨g1, g2⟩ := outputTerm_some b lambda e t h1
    obtain ⟨g3, g4⟩ := ih ts h2
    simp only [Option.pure_def, Option.some.injEq] at h3
    rw [← h3, g2, g4]
    exact ⟨by simpa using ⟨g1, g3⟩, rfl⟩

open Classical in
/-- C16, soundness error of the outputs: wrong outputs, one per circuit, batch to the true first claim for at most
`(inst + 1) · |F|²` of the `|F|³` challenges. (The outputs are absorbed before these are drawn.) -/
theorem C16_output_error [Fintype F] (m : ℕ) (frs : List (List (F × F))) (outs : List (List F))
    (hl : outs.length = frs.length) (hfrs : ∀ fr ∈ frs, fr.length = 2 ^ (1 + m))
    (hne : outs.map (·.take 4) ≠ frs.map (outputsOf m)) :
    (Finset.univ.filter fun y : (F × F) × F => ∃ terms, outs.mapM (outputTerm y.1.1 y.1.2) = some terms ∧
      powerSum y.2 terms = layerClaim false y.2 y.1.2 [y.1.1] (frs.map halve^[m])).card
      ≤ (frs.length + 1) * Fintype.card F ^ 2 := by
  by_cases h4 : ∀ e ∈ outs, 4 ≤ e.length
  · have htop : ∀ fr ∈ frs, ∃ x y, halve^[m] fr = [x, y] := by
      intro fr hfr
      have := iterate_halve_length m 1 fr (hfrs fr hfr)
      exact two_of_length _ (by simpa using this)
    have := count_batch (outs.map outQuad) (frs.map fun fr => outQuad (outputsOf m fr)) (by simp [hl]) (by
      intro he
      apply hne
      apply List.ext_getElem
      · simp [hl]
      · intro i h1 h2
        have h1' : i < outs.length := by simpa using h1
        have h2' : i < frs.length := by simpa using h2
        have e1 : outQuad outs[i] = outQuad (outputsOf m frs[i]) := by
          have : (outs.map outQuad)[i]'(by simpa using h1') = (frs.map fun fr => outQuad (outputsOf m fr))[i]'(by simpa using h2') := by
            simp only [he]
          simpa using this
        obtain ⟨x, y, hxy⟩ := htop frs[i] (List.getElem_mem h2')
        have hlen := h4 outs[i] (List.getElem_mem h1')
        simp only [outputsOf, hxy, outQuad, Prod.mk.injEq] at e1
        obtain ⟨a0, a3, a1, a2⟩ := e1
        rw [List.getD_eq_getElem _ _ (by omega)] at a0 a1 a2 a3
        rw [List.getElem_map, List.getElem_map, outputsOf, hxy]
        apply List.ext_getElem
        · simp; omega
        · intro j j1 j2
          have hj : j < 4 := by simpa using j2
          interval_cases j <;> simp [a0, a1, a2, a3])
    rw [List.length_map, hl] at this
    refine (Finset.card_le_card ?_).trans this
    intro y hy
    obtain ⟨terms, h1, h2⟩ := (Finset.mem_filter.1 hy).2
    refine Finset.mem_filter.2 ⟨Finset.mem_univ _, ?_⟩
    obtain ⟨-, h3⟩ := mapM_outputTerm _ _ _ _ h1
    rw [h3] at h2
    rw [List.map_map, List.map_map]
    refine Eq.trans h2 ?_
    rw [layerClaim, List.map_map]
    congr 1
    apply List.map_congr_left
    intro fr hfr
    have := iterate_halve_length m 1 fr (hfrs fr hfr)
    have ht := outputTerm_top y.1.1 y.1.2 (halve^[m] fr) (by simpa using this)
    obtain ⟨-, h5⟩ := outputTerm_some _ _ _ _ ht
    simp only [Function.comp, Bool.false_eq_true, if_false]
    exact h5
  · have : (Finset.univ.filter fun y : (F × F) × F => ∃ terms, outs.mapM (outputTerm y.1.1 y.1.2) = some terms ∧
        powerSum y.2 terms = layerClaim false y.2 y.1.2 [y.1.1] (frs.map halve^[m])) = ∅ := by
      apply Finset.filter_eq_empty_iff.2
      rintro y - ⟨terms, h1, -⟩
      exact h4 (mapM_outputTerm _ _ _ _ h1).1
    rw [this]
    simp

example : quadsOf 1 [-4, 13, -3, (12 : ℚ)] ≠ [tableFractions 2 [[(1 : ℚ), 2, 3, 4]] [1, 0, 2, 1] 5 1].map (trueQuad [5]) := by
  decide +kernel

/-! ### What the verifier does not check -/

/-- C16 is false: no round is required. For every transcript, any four outputs, and any table and multiplicity column of
`2^(n+1)` rows whose batched column depends on the last variable at some point `q`, the verifier accepts a proof without
any sumcheck in which all claims are true, at a point chosen by the prover. -/
theorem C16_zero_rounds_false (T : Transcript F) (ts : T.State) (c csc o0 o1 o2 o3 : F) (cols : List (List F))
    (mult q : List F) (hm : mult.length = 2 ^ (q.length + 1)) (hc : ∀ t ∈ cols, t.length = 2 ^ (q.length + 1)) :
    ∃ (st : LogUpState F T.State), logupInit T 1 [[o0, o1, o2, o3]] ts = some st ∧
      ((mle mult (q ++ [1]) + st.lambda * fingerprint csc (cols.map fun t => mle t (q ++ [1]))
          ≠ mle mult (q ++ [0]) + st.lambda * fingerprint csc (cols.map fun t => mle t (q ++ [0]))) →
        ∃ p, verifyLogup T ⟨[], [], (mult :: cols).map (trueClaim (q ++ [p])), [[o0, o1, o2, o3]], true⟩ 1 c csc ts
          = some ((mult :: cols).map (trueClaim (q ++ [p])), [(o0 * o3 + o1 * o2, o2 * o3)], st.ts)) := by
  obtain ⟨st, hst⟩ : ∃ st, logupInit T 1 [[o0, o1, o2, o3]] ts = some st := ⟨_, rfl⟩
  refine ⟨st, hst, fun hne => ?_⟩
  have haff : ∀ t : List F, t.length = 2 ^ (q.length + 1) → ∀ p,
      mle t (q ++ [p]) = p * (mle t (q ++ [1]) - mle t (q ++ [0])) + mle t (q ++ [0]) := by
    intro t ht p
    rw [mle_halves t q p ht, mle_halves t q 1 ht, mle_halves t q 0 ht]
    ring
  have hfp : ∀ (l : List (List F)) (p : F), (∀ t ∈ l, t.length = 2 ^ (q.length + 1)) →
      fingerprint csc (l.map fun t => mle t (q ++ [p]))
        = p * (fingerprint csc (l.map fun t => mle t (q ++ [1])) - fingerprint csc (l.map fun t => mle t (q ++ [0])))
          + fingerprint csc (l.map fun t => mle t (q ++ [0])) := by
    intro l p
    induction l with
    | nil => intro _; simp [fingerprint]
    | cons t l ih =>
      intro hl
      simp only [List.map_cons, fingerprint]
      rw [ih (fun x hx => hl x (by simp [hx])), haff t (hl t (by simp)) p]
      ring
  obtain ⟨A, hA⟩ : ∃ A, A = mle mult (q ++ [1]) + st.lambda * fingerprint csc (cols.map fun t => mle t (q ++ [1])) := ⟨_, rfl⟩
  obtain ⟨B, hB⟩ : ∃ B, B = mle mult (q ++ [0]) + st.lambda * fingerprint csc (cols.map fun t => mle t (q ++ [0])) := ⟨_, rfl⟩
  rw [← hA, ← hB] at hne
  have hAB : A - B ≠ 0 := sub_ne_zero.2 hne
  refine ⟨(st.claim - st.lambda * c - B) / (A - B), ?_⟩
  obtain ⟨p, hp⟩ : ∃ p, p = (st.claim - st.lambda * c - B) / (A - B) := ⟨_, rfl⟩
  rw [← hp]
  have hfin : finalEval true ((mult :: cols).map (trueClaim (q ++ [p]))) c csc st.alpha st.lambda 1 = some st.claim := by
    simp only [finalEval, if_true, List.map_cons, Option.some.injEq]
    rw [columnsEval_eq, List.map_map]
    show mle mult (q ++ [p]) + st.lambda * (c + fingerprint csc (cols.map fun t => mle t (q ++ [p]))) = _
    rw [haff mult hm p, hfp cols p hc]
    have : p * (A - B) = st.claim - st.lambda * c - B := by rw [hp]; field_simp
    rw [hA, hB] at this
    linear_combination this
  have hfr : fractionalOutputs [[o0, o1, o2, o3]] = some [(o0 * o3 + o1 * o2, o2 * o3)] := rfl
  unfold verifyLogup
  simp only [hst, hfr, Option.bind_eq_bind, Option.bind_some, List.zip_nil_left, logupRounds, hfin, if_true]

/-- A constant message is accepted for every claim. -/
theorem verify_constant (T : Transcript F) (hchar : ∀ k : ℕ, 0 < k → k ≤ 3 → (k : F) ≠ 0) (s : F) (pt : List F)
    (ts ts1 : T.State) (r : F)
    (hr : T.challenge (T.appendExts (T.appendUsize (T.appendUsize ts 1) 3) [s / 2, s / 2, s / 2, s / 2]) = (r, ts1))
    (hgen : ∀ k : ℕ, k ≤ 3 → r ≠ (k : F)) :
    verify T s ⟨pt, [[s / 2, s / 2, s / 2, s / 2]]⟩ 3 1 ts = some (⟨[r], s / 2⟩, ts1) := by
  have h2 : (2 : F) ≠ 0 := by have := hchar 2 (by omega) (by omega); exact_mod_cast this
  have hi : interpolateUniPoly [s / 2, s / 2, s / 2, s / 2] r = some (s / 2) := by
    have := interpolateUniPoly_eq [s / 2, s / 2, s / 2, s / 2] 4 rfl (by omega) (fun k h1 h2 => hchar k h1 (by omega))
      (Polynomial.C (s / 2)) (lt_of_le_of_lt Polynomial.degree_C_le (by norm_num)) (by
        intro i hi
        interval_cases i <;> simp) r (fun k hk => hgen k (by omega))
    simpa using this
  have hadd : s / 2 + s / 2 = s := by field_simp; ring
  unfold verify
  rw [if_neg (by omega)]
  simp only [verifyLoop, List.getElem?_cons_zero, Option.bind_eq_bind, Option.bind_some, hr]
  simp [checkSubclaim, hi, hadd]

/-- The right number of rounds with honest points does not help either: the evaluations of a round are not absorbed before
the challenges `b`, `alpha`, `lambda` are drawn. For every transcript, any four outputs, and any table and multiplicity
columns of four rows, let `b0` be the first challenge, `r` the challenge after a constant sumcheck message and `b` the
batching challenge after that. If they are generic, there are evaluations with which the verifier accepts, though the
sumcheck proof carries the verifier's own challenge and all claims are true at the verifier's own final point
`[r, b]`. -/
theorem C16_unbound_evaluations_false (T : Transcript F) (hchar : ∀ k : ℕ, 0 < k → k ≤ 3 → (k : F) ≠ 0)
    (ts ts1 : T.State) (c csc o0 o1 o2 o3 : F) (cols : List (List F)) (mult : List F) (st : LogUpState F T.State)
    (hst : logupInit T 1 [[o0, o1, o2, o3]] ts = some st) (b0 r b : F) (hb0 : st.point = [b0])
    (hr : T.challenge (T.appendExts (T.appendUsize (T.appendUsize (T.appendExt st.ts st.claim) 1) 3)
      [st.claim / 2, st.claim / 2, st.claim / 2, st.claim / 2]) = (r, ts1))
    (hb : b = (T.labelled ts1 "logup_batching").1)
    (hgen : ∀ k : ℕ, k ≤ 3 → r ≠ (k : F)) (hb' : b ≠ 0) (heq : eqPoly [b0] [r] ≠ 0) :
    ∃ (evals : List F) (ts' : T.State), evals.length = 4 ∧
        verifyLogup T ⟨[⟨[r], [[st.claim / 2, st.claim / 2, st.claim / 2, st.claim / 2]]⟩], [evals],
            (mult :: cols).map (trueClaim [r, b]), [[o0, o1, o2, o3]], true⟩ 1 c csc ts
          = some ((mult :: cols).map (trueClaim [r, b]), [(o0 * o3 + o1 * o2, o2 * o3)], ts') := by
  obtain ⟨msgs, hmsgs⟩ : ∃ msgs, msgs = [[st.claim / 2, st.claim / 2, st.claim / 2, st.claim / 2]] := ⟨_, rfl⟩
  have hv := verify_constant T hchar st.claim [r] (T.appendExt st.ts st.claim) ts1 r hr hgen
  rw [← hmsgs] at hv ⊢
  obtain ⟨a', ha⟩ : ∃ a', a' = (T.labelled (T.labelled ts1 "logup_batching").2 "logup_alpha").1 := ⟨_, rfl⟩
  obtain ⟨l', hl⟩ : ∃ l', l' = (T.labelled (T.labelled (T.labelled ts1 "logup_batching").2 "logup_alpha").2 "logup_lambda").1 := ⟨_, rfl⟩
  obtain ⟨tgt, htgt⟩ : ∃ tgt, tgt = mle mult [r, b] + l' * (c + fingerprint csc (cols.map fun t => mle t [r, b])) := ⟨_, rfl⟩
  obtain ⟨e1, he1⟩ : ∃ e1, e1 = st.claim / 2 / eqPoly [b0] [r] := ⟨_, rfl⟩
  refine ⟨[1, e1, (tgt - 1 - l' * (b * e1)) / b + 1, 0],
    (T.labelled (T.labelled (T.labelled ts1 "logup_batching").2 "logup_alpha").2 "logup_lambda").2, rfl, ?_⟩
  have hround : logupRound T 1 0 st ⟨[r], msgs⟩ [1, e1, (tgt - 1 - l' * (b * e1)) / b + 1, 0]
      = some ⟨tgt, a', l', [r] ++ [b], (T.labelled (T.labelled (T.labelled ts1 "logup_batching").2 "logup_alpha").2
        "logup_lambda").2⟩ := by
    unfold logupRound
    simp only [zero_add, hv, Option.bind_eq_bind, Option.bind_some, ← hb, ← ha, ← hl]
    rw [roundClaims4 1 one_pos _ _ _ _ _ _ _ (by rfl), hb0, identityEval_eq' _ _ (by rfl)]
    simp only [Option.bind_some]
    have hq : quadsOf 1 [1, e1, (tgt - 1 - l' * (b * e1)) / b + 1, 0] = [(1, e1, (tgt - 1 - l' * (b * e1)) / b + 1, 0)] := rfl
    rw [hq]
    simp only [List.map_cons, List.map_nil, powerSum, nextTerm, checkTerm, mul_zero, add_zero]
    have h3 : eqPoly [b0] [r] * (1 * e1) = st.claim / 2 := by rw [he1]; field_simp
    rw [if_pos (by rw [← h3]; ring)]
    have h4 : b * ((tgt - 1 - l' * (b * e1)) / b + 1 - 1) + 1 + l' * (b * (e1 - 0)) = tgt := by field_simp; ring
    rw [sub_zero] at h4 ⊢
    rw [h4]
  have hfin : finalEval true ((mult :: cols).map (trueClaim [r, b])) c csc a' l' 1 = some tgt := by
    simp only [finalEval, if_true, List.map_cons, Option.some.injEq]
    rw [columnsEval_eq, List.map_map, htgt]
    rfl
  have hfr : fractionalOutputs [[o0, o1, o2, o3]] = some [(o0 * o3 + o1 * o2, o2 * o3)] := rfl
  unfold verifyLogup
  simp only [hst, hfr, Option.bind_eq_bind, Option.bind_some, List.zip_cons_cons, List.zip_nil_left, logupRounds, hround,
    hfin, if_true]

/-- The same table as in `exTableProof`, with outputs that claim the fraction `0/1`. -/
example : ∃ e msgs, verifyLogup (tape ℚ) ⟨[⟨[5], msgs⟩], [e], [[1, 0, 2, 1], [1, 2, 3, 4]].map (trueClaim [5, 7]), [[0, 0, 1, 1]], true⟩
    1 5 1 [2, 1, 3, 5, 7, 2, 4] = some ([[1, 0, 2, 1], [1, 2, 3, 4]].map (trueClaim [5, 7]), [(0, 1)], []) :=
  ⟨[1, 3 / 2 / 14, (103 - 1 - 4 * (7 * (3 / 2 / 14))) / 7 + 1, 0], [[3 / 2, 3 / 2, 3 / 2, 3 / 2]], by decide +kernel⟩

end Props
