import Verif.Lemmas.LayerNormProof
import Verif.Props.LogUpProof
import Verif.Props.LookupLayers
import Verif.Props.SoftmaxProof

/-!
C84: what an accepted proof of a layer normalisation says.
-/

namespace Props
open Model Spec Lemmas

variable {F : Type} [Field F] [DecidableEq F] {C : Type}

theorem layerNormFirst_inv (T : Transcript F) (bl : ℕ) (ctx : LayerNormCtx) (chals : List (F × F)) (proof : LayerNormProof F C) (ts ts1 ts2 : T.State) (inv range : List (Claim F)) (rc : ℕ) (sp : List F)
    (hl : verifyLogups T (proof.logupProofs.zip (chals.zip [1, (ctx.rangeBits - 1) / bl + 1])) ts = some ([inv, range], ts1))
    (h : verifyLayerNormFirst T bl ctx chals proof ts = some (rc, sp, ts2)) :
    ∃ (sq : ℕ) (inv0 range0 : Claim F) (expected : F), 1 ≤ ctx.rangeBits ∧ rc = range.length ∧ ceilLog2 (inv.length + range.length) = some sq ∧ inv[0]? = some inv0 ∧ range[0]? = some range0 ∧
      verify T (weightedSum (computeBetas (T.labelledN "batching" sq ts1).1) ((inv ++ range).map Claim.eval)) proof.accumulation 2 inv0.point.length (T.labelledN "batching" sq ts1).2
        = some (⟨sp, expected⟩, ts2) ∧
      inv0.point.length = sp.length ∧ range0.point.length = sp.length ∧ 0 < sp.length ∧
      layerNormCalc ((ctx.rangeBits - 1) / bl + 1) (eqPoly inv0.point sp) (eqPoly range0.point sp) (computeBetas (T.labelledN "batching" sq ts1).1) proof.accEvals = expected := by
  unfold verifyLayerNormFirst at h
  split at h
  swap
  · simp at h
  simp only [Option.bind_eq_bind, Option.bind_eq_some_iff] at h
  obtain ⟨k, hk, h⟩ := h
  have hk' : 1 ≤ ctx.rangeBits ∧ k = (ctx.rangeBits - 1) / bl + 1 := by
    unfold layerNormChunks checkedSub at hk
    split at hk
    · simp only [Option.bind_eq_bind, Option.bind_some, Option.some.injEq] at hk
      exact ⟨by omega, hk.symm⟩
    · simp at hk
  obtain ⟨hR, rfl⟩ := hk'
  obtain ⟨⟨claims, tsx⟩, hcl, h⟩ := h
  rw [hl, Option.some.injEq, Prod.mk.injEq] at hcl
  obtain ⟨rfl, rfl⟩ := hcl
  simp only [List.getElem?_cons_zero, List.getElem?_cons_succ, Option.some.injEq] at h
  obtain ⟨_, rfl, _, rfl, sq, hsq, h⟩ := h
  rcases hb : T.labelledN "batching" sq ts1 with ⟨bc, tsb⟩
  rw [hb] at h
  obtain ⟨inv0, hi0, ⟨⟨sp', expected⟩, ts2'⟩, hv, range0, hr0, es, hes, er, her, h⟩ := h
  split at h
  swap
  · simp at h
  rename_i hcalc
  simp only [Option.some.injEq, Prod.mk.injEq] at h
  obtain ⟨rfl, rfl, rfl⟩ := h
  obtain ⟨hne, hl1, rfl⟩ := eqXYEval_inv hes
  obtain ⟨-, hl2, rfl⟩ := eqXYEval_inv her
  refine ⟨sq, inv0, range0, expected, hR, rfl, hsq, hi0, hr0, ?_, hl1, hl2, ?_, ?_⟩
  · rw [hb, ← zero_add (weightedSum _ _), ← claimsFold_eq]
    exact hv
  · rw [← hl1]; exact List.length_pos_of_ne_nil hne
  · rw [hb]; exact hcalc

theorem layerNormIo_inv (T : Transcript F) (p bl : ℕ) (ctx : LayerNormCtx) (last : Claim F) (rc : ℕ) (proof : LayerNormProof F C) (sp iop : List F) (v : ℕ) (ts2 ts3 : T.State)
    (h : verifyLayerNormIo T p bl ctx last rc proof sp ts2 = some (v, iop, ts3)) :
    ∃ (rec1 e1 x m inv expected : F), layerNormRecombine bl ctx rc proof.accEvals = some rec1 ∧ proof.accEvals[1]? = some e1 ∧ layerNormIoEvals proof.evaluations = some (x, m) ∧
      proof.evaluations[1]? = some inv ∧ ceilLog2 ctx.dimSize = some v ∧ v + sp.length = iop.length ∧ last.point.length = iop.length ∧ (2 : F) ≠ 0 ∧
      let c := (T.labelled ts2 "batching").1
      let d := (T.labelled (T.labelled ts2 "batching").2 "batching").1
      verify T ((1 - c) * (1 - d) * rec1 + c * (1 - d) * last.eval + e1 * ((1 - c) * d)) proof.io 4 last.point.length (T.labelled (T.labelled ts2 "batching").2 "batching").2 = some (⟨iop, expected⟩, ts3) ∧
      layerNormIoCalc p ctx v ((1 - c) * (1 - d)) (c * (1 - d)) ((1 - c) * d) (eqPoly (List.replicate v (2 : F)⁻¹ ++ sp) iop) (eqPoly last.point iop) x m inv proof.gammaEval proof.betaEval = expected := by
  unfold verifyLayerNormIo at h
  rcases hb : T.labelled ts2 "batching" with ⟨c, tsb⟩
  rcases hd : T.labelled tsb "batching" with ⟨d, tsd⟩
  simp only [hb, hd, Option.bind_eq_bind, Option.bind_eq_some_iff] at h
  obtain ⟨rec1, h1, e1, h2, ⟨⟨iop', expected⟩, ts3'⟩, hv, ⟨x, m⟩, hxm, inv, hinv, v', hvv, half, hhalf, ie, hie, le, hle, h⟩ := h
  split at h
  swap
  · simp at h
  rename_i hcalc
  simp only [Option.some.injEq, Prod.mk.injEq] at h
  obtain ⟨rfl, rfl, rfl⟩ := h
  unfold checkedInv at hhalf
  split at hhalf
  · simp at hhalf
  rename_i hne2
  rw [Option.some.injEq] at hhalf
  subst hhalf
  obtain ⟨-, hl1, rfl⟩ := eqXYEval_inv hie
  obtain ⟨-, hl2, rfl⟩ := eqXYEval_inv hle
  rw [List.length_append, List.length_replicate] at hl1
  exact ⟨rec1, e1, x, m, inv, expected, h1, h2, hxm, hinv, hvv, hl1, hl2, hne2, hv, hcalc⟩

theorem layerNormInput_inv (T : Transcript F) (v : ℕ) (proof : LayerNormProof F C) (iop : List F) (claim : Claim F) (ts3 ts' : T.State) (h : verifyLayerNormInput T v proof iop ts3 = some (claim, ts')) :
    ∃ (x m expected : F), layerNormIoEvals proof.evaluations = some (x, m) ∧ claim.point.length = iop.length ∧
      let c := (T.labelled ts3 "batching").1
      verify T (x + c * (m - x)) proof.input 2 iop.length (T.labelled ts3 "batching").2 = some (⟨claim.point, expected⟩, ts') ∧
      expected = claim.eval * ((1 - c) * eqPoly iop claim.point + c * (2 ^ v * eqPoly (List.replicate v (2 : F)⁻¹ ++ iop.drop v) claim.point)) ∧
      (1 - c) * eqPoly iop claim.point + c * (2 ^ v * eqPoly (List.replicate v (2 : F)⁻¹ ++ iop.drop v) claim.point) ≠ 0 := by
  unfold verifyLayerNormInput at h
  rcases hb : T.labelled ts3 "batching" with ⟨c, tsb⟩
  simp only [hb, Option.bind_eq_bind, Option.bind_eq_some_iff] at h
  obtain ⟨⟨x, m⟩, hxm, ⟨⟨pt, expected⟩, tsx⟩, hv, half, hhalf, ei, hei, es, hes, iv, hiv, h⟩ := h
  simp only [Option.some.injEq, Prod.mk.injEq] at h
  obtain ⟨rfl, rfl⟩ := h
  unfold checkedInv at hhalf hiv
  split at hhalf
  · simp at hhalf
  rw [Option.some.injEq] at hhalf
  subst hhalf
  split at hiv
  · simp at hiv
  rename_i hne
  rw [Option.some.injEq] at hiv
  subst hiv
  obtain ⟨-, hl1, rfl⟩ := eqXYEval_inv hei
  obtain ⟨-, hl2, rfl⟩ := eqXYEval_inv hes
  have he : (1 - c) * eqPoly iop pt + c * (2 ^ v * eqPoly (List.replicate v (2 : F)⁻¹ ++ iop.drop v) pt)
      = eqPoly iop pt + c * (((2 ^ v : ℕ) : F) * eqPoly (List.replicate v (2 : F)⁻¹ ++ iop.drop v) pt - eqPoly iop pt) := by
    push_cast
    ring
  refine ⟨x, m, expected, hxm, hl1.symm, hv, ?_, ?_⟩
  · simp only
    rw [he, inv_mul_cancel_right₀ hne]
  · simp only
    rw [he]
    exact hne

/-- C84, part. If the verifier accepts, then it accepted three sumchecks, ending in the points `sp`, `iop` and that of the returned claim. Suppose the evaluations in the proof are those of columns: `accEvals` those of
`ein`, `eout` (index and value looked up in the table of the inverse square root) and `rs`, `rl` (range checked chunks) at `sp`, the second evaluation that of `eout'` at the rest of `iop`, and those of `gamma` and `beta`
at the beginning of `iop`; and suppose that the returned claim is true of the input `X`. Then, unless the prover was lucky in a sumcheck:

* the differences between the columns and the looked-up values, at the lookup points, are combined to zero by the weights;
* the differences between the evaluations `x`, `m` in the proof and those of the input and of the sums of its rows are combined to zero by the third challenge;
* if these are the true evaluations, the difference between the index with its chunks and the scaled variance of the rows, the difference between the output claim and the normalised input, with `eout'` looked up, and
  the difference between `eout` and `eout'` are combined to zero by two challenges.

Missing: that `accEvals` are evaluations of the committed columns, which is false, see `C84_forged_false`, that the chunks determine the index, which is false, see `C84_index_false`, and that the lookup points
are those of the verifier (C16). -/
theorem C84_layernorm_partial (T : Transcript F) (p bl : ℕ) [CharP F p] (hchar : ∀ k : ℕ, 0 < k → k ≤ 4 → (k : F) ≠ 0) (ctx : LayerNormCtx) (hN : ctx.dimSize ≤ p) (hM : ctx.multiplier.natAbs ≤ p)
    (chals : List (F × F)) (last : Claim F) (proof : LayerNormProof F C) (ts ts1 ts' : T.State) (claim : Claim F) (wit : List (C × Claim F)) (common : Claim F × Claim F) (inv range : List (Claim F))
    (hl : verifyLogups T (proof.logupProofs.zip (chals.zip [1, (ctx.rangeBits - 1) / bl + 1])) ts = some ([inv, range], ts1))
    (h : verifyLayerNorm T p bl ctx chals last proof ts = some (claim, wit, common, ts')) :
    ∃ (sq v : ℕ) (sp iop : List F) (claimed1 expected1 claimed2 expected2 : F) (ts2 ts3 : T.State),
      let bc := T.labelledN "batching" sq ts1
      let w := (List.range (2 ^ sq)).map (chi bc.1)
      let c := T.labelled ts2 "batching"
      let d := T.labelled c.2 "batching"
      let ic := (T.labelled ts3 "batching").1
      let n := last.point.length
      inv.length + range.length ≤ 2 ^ sq ∧ ctx.dimSize ≤ 2 ^ v ∧ 2 ^ v < 2 * ctx.dimSize ∧ v + sp.length = n ∧ iop.length = n ∧ claim.point.length = n ∧
      verify T claimed1 proof.accumulation 2 sp.length bc.2 = some (⟨sp, expected1⟩, ts2) ∧ verify T claimed2 proof.io 4 n d.2 = some (⟨iop, expected2⟩, ts3) ∧
      common = (⟨iop.take v, proof.gammaEval⟩, ⟨iop.take v, proof.betaEval⟩) ∧
      ∀ (ein eout eout' X gamma beta ip rp rl : List F) (rs : List (List F)) (x0 x1 x m : F) (er pre : List F),
        inv.map Claim.eval = [x0, x1] → (inv.map Claim.point).head? = some ip → range.map Claim.eval = er → (range.map Claim.point).head? = some rp → er.length = rs.length + 1 →
        rs.length = (ctx.rangeBits - 1) / bl →
        proof.accEvals = [mle ein sp, mle eout sp] ++ rs.map (fun t => mle t sp) ++ [mle rl sp] → proof.evaluations = pre ++ [x, m] → proof.evaluations[1]? = some (mle eout' (iop.drop v)) →
        proof.gammaEval = mle gamma (iop.take v) → proof.betaEval = mle beta (iop.take v) → claim.eval = mle X claim.point →
        (weightedSum w ([mle ein ip - x0, mle eout ip - x1] ++ List.zipWith (· - ·) ((rs ++ [rl]).map fun t => mle t rp) er) = 0
          ∨ LuckyRound 2 sp.length (normAccSum w ip rp ein eout (rs ++ [rl])) proof.accumulation.proofs sp) ∧
        ((1 - ic) * (mle X iop - x) + ic * (mle (normSums n v X) iop - m) = 0 ∨ LuckyRound 2 n (normInputSum v ic iop X) proof.input.proofs claim.point) ∧
        (x = mle X iop → m = mle (normSums n v X) iop →
          (1 - c.1) * (1 - d.1) * (mle (normRecombined sp.length ctx.rangeBits bl ctx.topLog ein rs rl) sp - mle (normVariance sp.length v (ctx.dimSize : F) (ctx.multiplier : F) X) sp)
              + c.1 * (1 - d.1) * (last.eval - mle (normOutput n v (ctx.dimSize : F) gamma beta X eout') last.point) + (1 - c.1) * d.1 * (mle eout sp - mle eout' sp) = 0
            ∨ LuckyRound 4 n (normIoSum n v ((1 - c.1) * (1 - d.1)) (c.1 * (1 - d.1)) ((1 - c.1) * d.1) (ctx.dimSize : F) (ctx.multiplier : F) (List.replicate v (2 : F)⁻¹ ++ sp) last.point X gamma beta
              eout') proof.io.proofs iop) := by
  unfold verifyLayerNorm at h
  simp only [Option.bind_eq_bind, Option.bind_eq_some_iff] at h
  obtain ⟨⟨rc, sp, ts2⟩, h1, ⟨v, iop, ts3⟩, h2, ⟨claim', ts4⟩, h3, h4⟩ := h
  simp only [Option.some.injEq, Prod.mk.injEq] at h4
  obtain ⟨rfl, -, hcommon, rfl⟩ := h4
  obtain ⟨sq, inv0, range0, expected1, hR, rfl, hsq, hi0, hr0, hv1, hl1, hl2, hpos, hcalc1⟩ := layerNormFirst_inv T bl ctx chals proof ts ts1 ts2 inv range rc sp hl h1
  obtain ⟨rec1, e1, x', m', iv, expected2, hrec, he1, hxm, hiv, hv, hvl, hll, h2ne, hv2, hcalc2⟩ := layerNormIo_inv T p bl ctx last _ proof sp iop v ts2 ts3 h2
  obtain ⟨x'', m'', expected3, hxm', hcl, hv3, hex3, hne3⟩ := layerNormInput_inv T v proof iop claim' ts3 ts4 h3
  rw [hxm, Option.some.injEq, Prod.mk.injEq] at hxm'
  obtain ⟨rfl, rfl⟩ := hxm'
  have hw : computeBetas (T.labelledN "batching" sq ts1).1 = (List.range (2 ^ sq)).map (chi (T.labelledN "batching" sq ts1).1) := by
    rw [computeBetas_spec, labelledN_length]
  have hsq' := (ceilLog2_spec hsq).1
  refine ⟨sq, v, sp, iop, _, expected1, _, expected2, ts2, ts3, hsq', (ceilLog2_spec hv).1, (ceilLog2_spec hv).2, by omega, hll.symm, by omega, by rw [← hl1]; exact hv1, hv2, hcommon.symm, ?_⟩
  rw [hw] at hv1 hcalc1
  intro ein eout eout' X gamma beta ip rp rl rs x0 x1 x m er pre hx hip hr hrp hrl hrsk hacc hev hev1 hgam hbet hclaim
  have head : ∀ (l : List (Claim F)) (c : Claim F) (q : List F), l[0]? = some c → (l.map Claim.point).head? = some q → c.point = q := by
    intro l c q h1 h2
    cases l with
    | nil => simp at h1
    | cons y l => simp at h1 h2; rw [← h1, ← h2]
  have hip' := head _ _ _ hi0 hip
  have hrp' := head _ _ _ hr0 hrp
  rw [hip'] at hv1 hl1 hcalc1
  rw [hrp'] at hl2 hcalc1
  have hxm2 : layerNormIoEvals proof.evaluations = some (x, m) := by
    unfold layerNormIoEvals checkedSub
    rw [hev, if_pos (by simp)]
    simp
  rw [hxm, Option.some.injEq, Prod.mk.injEq] at hxm2
  obtain ⟨rfl, rfl⟩ := hxm2
  have hinvl : inv.length = 2 := by have := congrArg List.length hx; simpa using this
  have hrangel : range.length = rs.length + 1 := by rw [← hrl, ← hr, List.length_map]
  generalize hwdef : (List.range (2 ^ sq)).map (chi (T.labelledN "batching" sq ts1).1) = w at hv1 hcalc1 ⊢
  have hwl : w.length = 2 ^ sq := by rw [← hwdef]; simp
  rw [hacc, ← hrsk, show [mle ein sp, mle eout sp] ++ rs.map (fun t => mle t sp) ++ [mle rl sp] = [mle ein sp, mle eout sp] ++ (rs ++ [rl]).map (fun t => mle t sp) ++ [] by simp,
    layerNormCalc_eq _ _ _ _ _ _ _ _ (by simp) (by rw [hwl]; omega)] at hcalc1
  refine ⟨?_, ?_, ?_⟩
  · have hg : expected1 = normAccSum w ip rp ein eout (rs ++ [rl]) sp := by
      rw [← hcalc1, normAccSum, List.map_map]
      rfl
    rcases (accepted_sound T 2 ip.length (fun k h1 h2 => hchar k h1 (by omega)) _ _ _ _ _ _ hv1 hg).2 with hsc | hlucky
    · left
      rw [cubeSum_normAcc w ip rp ein eout _ _ rfl (by omega), List.map_append, hx, hr] at hsc
      have key : [mle ein ip - x0, mle eout ip - x1] ++ List.zipWith (· - ·) ((rs ++ [rl]).map fun t => mle t rp) er
          = List.zipWith (· - ·) ([mle ein ip, mle eout ip] ++ (rs ++ [rl]).map fun t => mle t rp) ([x0, x1] ++ er) := by
        rw [List.zipWith_append (by simp)]
        rfl
      rw [key, weightedSum_sub _ _ _ (by simp [hrl]), hsc, sub_self]
    · right
      rw [← hl1]
      exact hlucky
  · have hg : expected3 = normInputSum v (T.labelled ts3 "batching").1 iop X claim'.point := by
      rw [hex3, hclaim, normInputSum]
      ring
    rw [hll]
    rcases (accepted_sound T 2 iop.length (fun k h1 h2 => hchar k h1 (by omega)) _ _ _ _ _ _ hv3 hg).2 with hsc | hlucky
    · left
      rw [cubeSum_normInput h2ne _ v (by omega) _ iop X rfl] at hsc
      linear_combination -hsc
    · exact Or.inr hlucky
  · intro hxe hme
    rw [hev1, Option.some.injEq] at hiv
    rw [hacc, hrangel] at hrec
    have hrec' := layerNormRecombine_eq bl ctx h2ne (mle ein sp) (mle eout sp) (mle rl sp) (rs.map fun t => mle t sp) []
    rw [List.append_nil, List.length_map, hrec, Option.some.injEq] at hrec'
    have he1' : e1 = mle eout sp := by rw [hacc] at he1; simpa using he1.symm
    have hg : expected2 = normIoSum last.point.length v ((1 - (T.labelled ts2 "batching").1) * (1 - (T.labelled (T.labelled ts2 "batching").2 "batching").1))
        ((T.labelled ts2 "batching").1 * (1 - (T.labelled (T.labelled ts2 "batching").2 "batching").1))
        ((1 - (T.labelled ts2 "batching").1) * (T.labelled (T.labelled ts2 "batching").2 "batching").1) (ctx.dimSize : F) (ctx.multiplier : F) (List.replicate v (2 : F)⁻¹ ++ sp) last.point X gamma beta eout'
        iop := by
      rw [← hcalc2, layerNormIoCalc, normIoSum, hgam, hbet, hxe, hme, ← hiv, toField_eq_cast p _ hM, toField_eq_cast p _ (by simpa using hN)]
      push_cast
      ring
    rcases (accepted_sound T 4 last.point.length hchar _ _ _ _ _ _ hv2 hg).2 with hsc | hlucky
    · left
      rw [cubeSum_normIo h2ne _ v sp.length (by omega) _ _ _ _ _ sp last.point X gamma beta eout' rfl rfl, he1', hrec'] at hsc
      rw [mle_normRecombined _ _ _ _ _ _ _ _ rfl]
      linear_combination hsc
    · exact Or.inr hlucky

/-- The prover's run, and the verifier on its proof with further numbers appended to `accEvals`. -/
theorem layerNorm_run (T : Transcript F) (threads : ℕ) (ht : 0 < threads) (p bl : ℕ) [CharP F p] (hchar : ∀ k : ℕ, 0 < k → k ≤ 4 → (k : F) ≠ 0) (ctx : LayerNormCtx) (hN : ctx.dimSize ≤ p)
    (hM : ctx.multiplier.natAbs ≤ p) (hR : 1 ≤ ctx.rangeBits) (v m n : ℕ) (hn : n = v + m) (hm : 0 < m) (hv : ceilLog2 ctx.dimSize = some v) (ein eout : List F) (rs : List (List F)) (rl : List F)
    (h1 : ein.length = 2 ^ m) (h2 : eout.length = 2 ^ m) (h3 : ∀ t ∈ rs ++ [rl], t.length = 2 ^ m) (hk : rs.length = (ctx.rangeBits - 1) / bl) (X gamma beta : List F) (hX : X.length = 2 ^ n)
    (hg : gamma.length = 2 ^ v) (hb : beta.length = 2 ^ v) (ip rp lp : List F) (hip : ip.length = m) (hrp : rp.length = m) (hlp : lp.length = n) (ts1 : T.State) :
    let last : Claim F := ⟨lp, mle (normOutput n v (ctx.dimSize : F) gamma beta X eout) lp⟩
    ∃ (acc io input : IOPProof F) (ts' : T.State),
      let sp := acc.point
      let iop := io.point
      let accEvals := [mle ein sp, mle eout sp] ++ (rs ++ [rl]).map fun t => mle t sp
      let evaluations := [mle ein sp, mle eout (iop.drop v)] ++ ((rs ++ [rl]).map fun t => mle t sp) ++ [mle X iop, mle (normSums n v X) iop]
      proveLayerNorm (C := C) threads T p ctx n ein eout (rs ++ [rl]) X (normSums n v X) gamma beta ip rp last ts1
        = some (⟨[], [], acc, io, input, accEvals, evaluations, mle gamma (iop.take v), mle beta (iop.take v)⟩, ⟨input.point, mle X input.point⟩, ts') ∧
      sp.length = m ∧ iop.length = n ∧ input.point.length = n ∧
      (∀ (logups : List (LogUpProof F)) (commits : List C) (chals : List (F × F)) (ts : T.State), logups.length = 2 →
        verifyLogups T (logups.zip (chals.zip [1, (ctx.rangeBits - 1) / bl + 1])) ts = some ([[⟨ip, mle ein ip⟩, ⟨ip, mle eout ip⟩], (rs ++ [rl]).map fun t => (⟨rp, mle t rp⟩ : Claim F)], ts1) →
        (∀ r ∈ sp ++ iop ++ input.point, ∀ j : ℕ, j ≤ 4 → r ≠ (j : F)) → ∀ (extra mid : List F) (z : F), [mle rl sp] ++ extra = mid ++ [z] →
        2 ^ ctx.rangeBits * mle ein sp + powerSum (2 ^ bl) (rs.map fun t => mle t sp) + (2 ^ bl) ^ rs.length * (z / 2 ^ ctx.topLog) = mle (normVariance m v (ctx.dimSize : F) (ctx.multiplier : F) X) sp →
        let proof : LayerNormProof F C := ⟨logups, commits, acc, io, input, accEvals ++ extra, evaluations, mle gamma (iop.take v), mle beta (iop.take v)⟩
        ∃ ts2 ts3, verifyLayerNormFirst T bl ctx chals proof ts = some (rs.length + 1, sp, ts2) ∧ verifyLayerNormIo T p bl ctx last (rs.length + 1) proof sp ts2 = some (v, iop, ts3) ∧
          let c := (T.labelled ts3 "batching").1
          ((1 - c) * eqPoly iop input.point + c * (2 ^ v * eqPoly (List.replicate v (2 : F)⁻¹ ++ iop.drop v) input.point) ≠ 0 →
            verifyLayerNorm T p bl ctx chals last proof ts = some (⟨input.point, mle X input.point⟩,
              commits.zip ([⟨sp, mle ein sp⟩, ⟨iop.drop v, mle eout (iop.drop v)⟩] ++ (rs ++ [rl]).map fun t => (⟨sp, mle t sp⟩ : Claim F)),
              (⟨iop.take v, mle gamma (iop.take v)⟩, ⟨iop.take v, mle beta (iop.take v)⟩), ts'))) := by
  intro last
  have h2ne : (2 : F) ≠ 0 := by have := hchar 2 (by omega) (by omega); exact_mod_cast this
  have hhalf : checkedInv (2 : F) = some 2⁻¹ := by unfold checkedInv; rw [if_neg h2ne]
  obtain ⟨sq, hsq⟩ := ceilLog2_some (x := 2 + (rs ++ [rl]).length) (by omega)
  have hsq' := (ceilLog2_spec hsq).1
  rcases hbc : T.labelledN "batching" sq ts1 with ⟨bc, tsb⟩
  have hbcl : bc.length = sq := by have := labelledN_length T "batching" sq ts1; rw [hbc] at this; exact this
  obtain ⟨r0, rest, hrr⟩ : ∃ r0 rest, rs ++ [rl] = r0 :: rest := by
    cases rs with
    | nil => exact ⟨rl, [], rfl⟩
    | cons a l => exact ⟨a, l ++ [rl], rfl⟩
  have hrestl : rest.length = rs.length := by have := congrArg List.length hrr; simp at this; omega
  -- first sumcheck
  have htab : ∀ a, (layerNormHeap m ein eout (rs ++ [rl]) ip rp a).numVars = m ∧ (layerNormHeap m ein eout (rs ++ [rl]) ip rp a).evals.length = 2 ^ m := by
    intro a
    refine ⟨rfl, ?_⟩
    rw [hrr]
    rw [hrr] at h3
    match a with
    | 0 => exact h1
    | 1 => simp [layerNormHeap, computeBetas_length, hip]
    | 2 => exact h2
    | 3 => exact h3 r0 (by simp)
    | 4 => simp [layerNormHeap, computeBetas_length, hrp]
    | a + 5 =>
      have : (layerNormHeap m ein eout (r0 :: rest) ip rp (a + 5)).evals = rest.getD a ein := by simp [layerNormHeap]
      rw [this, List.getD_eq_getElem?_getD]
      cases hq : rest[a]? with
      | none => exact h1
      | some t => exact h3 t (List.mem_cons_of_mem _ (List.mem_of_getElem? hq))
  obtain ⟨vp, hvp, hvd, hvf⟩ := buildVP_layerNorm (layerNormHeap m ein eout (rs ++ [rl]) ip rp) m rest.length (fun a => (htab a).1) (computeBetas bc)
  have hlen3 : ∀ t ∈ layerNormTerms (computeBetas bc) (rest.length + 1), t.2 ≠ [] ∧ t.2.length ≤ 5 := by
    intro t ht
    unfold layerNormTerms at ht
    rw [List.mem_append, List.mem_map] at ht
    rcases ht with ht | ⟨i, -, rfl⟩
    · simp only [List.mem_cons, List.not_mem_nil, or_false] at ht
      rcases ht with rfl | rfl | rfl <;> simp
    · simp
  obtain ⟨acc, ts2, hprove, hapl, hver⟩ := proveTerms_spec T threads ht (layerNormHeap m ein eout (rs ++ [rl]) ip rp) m htab (layerNormTerms (computeBetas bc) (rest.length + 1)) (by simp [layerNormTerms]) hlen3 vp hvp
    (fun k h1 h2 => hchar k h1 (by omega)) tsb
  rw [hvf] at hprove
  rw [hvd] at hver
  -- second sumcheck
  rcases hcc : T.labelled ts2 "batching" with ⟨c, tsc⟩
  rcases hdd : T.labelled tsc "batching" with ⟨d, tsd⟩
  have hfull : (List.replicate v (2 : F)⁻¹ ++ acc.point).length = n := by rw [List.length_append, List.length_replicate, hapl, hn]
  obtain ⟨gr, hgr⟩ : ∃ gr, gr = (List.range (2 ^ n)).map fun w => gamma.getD (w % 2 ^ v) 0 := ⟨_, rfl⟩
  obtain ⟨br, hbr⟩ : ∃ br, br = (List.range (2 ^ n)).map fun w => beta.getD (w % 2 ^ v) 0 := ⟨_, rfl⟩
  obtain ⟨er, her⟩ : ∃ er, er = (List.range (2 ^ n)).map fun w => eout.getD (w / 2 ^ v) 0 := ⟨_, rfl⟩
  have hgr' : (List.replicate (2 ^ m) gamma).flatten = gr := by rw [hgr, hn]; exact repeat_flatten v m gamma hg
  have hbr' : (List.replicate (2 ^ m) beta).flatten = br := by rw [hbr, hn]; exact repeat_flatten v m beta hb
  have her' : (eout.flatMap fun e => List.replicate (2 ^ v) e) = er := by rw [her, hn]; exact repeat_each v m eout h2
  obtain ⟨heap2, hheap2⟩ : ∃ heap2 : ℕ → Mle F, heap2 = fun a => ⟨n, [computeBetas (List.replicate v (2 : F)⁻¹ ++ acc.point), X, normSums n v X, computeBetas lp, gr, er].getD a br⟩ := ⟨_, rfl⟩
  have htab2 : ∀ a, (heap2 a).numVars = n ∧ (heap2 a).evals.length = 2 ^ n := by
    intro a
    rw [hheap2]
    refine ⟨rfl, ?_⟩
    match a with
    | 0 => simp only [List.getD_cons_zero]; rw [computeBetas_length, hfull]
    | 1 => exact hX
    | 2 => exact normSums_length n v X
    | 3 => simp [computeBetas_length, hlp]
    | 4 => simp [hgr]
    | 5 => simp [her]
    | a + 6 => simp [hbr]
  obtain ⟨vp2, hvp2, hvd2, hvf2⟩ := buildVP_layerNormIo heap2 n (fun a => (htab2 a).1)
    ((1 - c) * (1 - d) * toField p ctx.multiplier * toField p (ctx.dimSize : ℤ) * ((2 ^ v : ℕ) : F)) (-((1 - c) * (1 - d)) * toField p ctx.multiplier) (c * (1 - d) * toField p (ctx.dimSize : ℤ)) (-(c * (1 - d)))
    (c * (1 - d)) ((1 - c) * d)
  obtain ⟨io, ts3, hprove2, hiol, hver2⟩ := proveTerms_spec T threads ht heap2 n htab2 (layerNormIoTerms p ctx v ((1 - c) * (1 - d)) (c * (1 - d)) ((1 - c) * d)) (by simp [layerNormIoTerms])
    (by intro t ht; simp only [layerNormIoTerms, List.mem_cons, List.not_mem_nil, or_false] at ht; rcases ht with rfl | rfl | rfl | rfl | rfl | rfl <;> simp) vp2 hvp2
    (fun k h1 h2 => hchar k h1 (by omega)) tsd
  rw [hvf2] at hprove2
  rw [hvd2] at hver2
  -- third sumcheck
  rcases hic : T.labelled ts3 "batching" with ⟨ic, tsi⟩
  have hsum : (List.replicate v (2 : F)⁻¹ ++ io.point.drop v).length = n := by rw [List.length_append, List.length_replicate, List.length_drop, hiol]; omega
  obtain ⟨heap3, hheap3⟩ : ∃ heap3 : ℕ → Mle F, heap3 = fun a => ⟨n, [X, computeBetas io.point].getD a (computeBetas (List.replicate v (2 : F)⁻¹ ++ io.point.drop v))⟩ := ⟨_, rfl⟩
  have htab3 : ∀ a, (heap3 a).numVars = n ∧ (heap3 a).evals.length = 2 ^ n := by
    intro a
    rw [hheap3]
    refine ⟨rfl, ?_⟩
    match a with
    | 0 => exact hX
    | 1 => simp [computeBetas_length, hiol]
    | a + 2 => simp only [List.getD_cons_succ, List.getD_nil]; rw [computeBetas_length, hsum]
  obtain ⟨vp3, hvp3, hvd3, hvf3⟩ := buildVP_layerNormInput heap3 n (fun a => (htab3 a).1) (1 - ic) (ic * ((2 ^ v : ℕ) : F))
  obtain ⟨input, ts4, hprove3, hinl, hver3⟩ := proveTerms_spec T threads ht heap3 n htab3 [(1 - ic, [0, 1]), (ic * ((2 ^ v : ℕ) : F), [0, 2])] (by simp) (by simp) vp3 hvp3
    (fun k h1 h2 => hchar k h1 (by omega)) tsi
  rw [hvf3] at hprove3
  rw [hvd3] at hver3
  have hgr3 : ∀ pt : List F, pt.length = n → mle gr pt = mle gamma (pt.take v) := by
    intro pt hpt
    rw [hgr, ← hpt, mle_take v gamma pt (by omega)]
  have hbr3 : ∀ pt : List F, pt.length = n → mle br pt = mle beta (pt.take v) := by
    intro pt hpt
    rw [hbr, ← hpt, mle_take v beta pt (by omega)]
  have her3 : ∀ pt : List F, pt.length = n → mle er pt = mle eout (pt.drop v) := by
    intro pt hpt
    rw [her, ← hpt, mle_drop v eout pt (by omega)]
  refine ⟨acc, io, input, ts4, ?_, hapl, hiol, hinl, ?_⟩
  · have hrl1 : (rs ++ [rl]).length = rest.length + 1 := by rw [hrr, List.length_cons]
    have hev : ∀ sp : List F, (List.range (5 + rest.length)).map (fun a => mle (layerNormHeap m ein eout (rs ++ [rl]) ip rp a).evals sp)
        = [mle ein sp, mle (computeBetas ip) sp, mle eout sp, mle r0 sp, mle (computeBetas rp) sp] ++ rest.map fun t => mle t sp := by
      intro sp
      rw [List.range_add, List.map_append, List.map_map, hrr]
      congr 1
      apply list_ext_getD 0
      · simp
      · intro j hj
        simp only [List.length_map, List.length_range] at hj
        rw [getD_range_map' _ _ _ _ hj, Function.comp_apply, Nat.add_comm 5 j, show (layerNormHeap m ein eout (r0 :: rest) ip rp (j + 5)).evals = rest.getD j ein by simp [layerNormHeap]]
        rw [List.getD_eq_getElem _ _ hj, List.getD_eq_getElem _ _ (by simpa using hj), List.getElem_map]
    rw [hev] at hprove
    have hsub : checkedSub lp.length v = some m := by unfold checkedSub; rw [if_pos (by omega)]; congr 1; omega
    have hp1 : proveLayerNormFirst threads T ein eout (rs ++ [rl]) ip rp ts1 = some (acc, [mle ein acc.point, mle eout acc.point] ++ (rs ++ [rl]).map (fun t => mle t acc.point), ts2) := by
      unfold proveLayerNormFirst
      simp only [hsq, Option.bind_eq_bind, Option.bind_some, hbc]
      rw [hip, hrl1, hprove, hrr]
      rfl
    have hp2 : proveLayerNormIo threads T p ctx n eout X (normSums n v X) gamma beta acc.point last ts2
        = some (io, v, (mle X io.point, mle (normSums n v X) io.point, mle gamma (io.point.take v), mle eout (io.point.drop v), mle beta (io.point.take v)), ts3) := by
      unfold proveLayerNormIo
      rw [hg, ceilLog2_pow, hhalf]
      simp only [Option.bind_eq_bind, Option.bind_some, hcc, hdd]
      rw [show checkedSub last.point.length v = some m from hsub]
      simp only [Option.bind_some]
      have hh : layerNormIoHeap n v m (2 : F)⁻¹ eout X (normSums n v X) gamma beta acc.point last.point = heap2 := by
        funext a
        unfold layerNormIoHeap
        rw [hgr', hbr', her', hheap2]
      rw [hh, hprove2]
      simp only [Option.bind_some, List.map_cons, List.map_nil, List.getElem?_cons_zero, List.getElem?_cons_succ]
      rw [show (heap2 1).evals = X by rw [hheap2]; rfl, show (heap2 2).evals = normSums n v X by rw [hheap2]; rfl, show (heap2 4).evals = gr by rw [hheap2]; rfl, show (heap2 5).evals = er by rw [hheap2]; rfl,
        show (heap2 6).evals = br by rw [hheap2]; rfl, hgr3 _ hiol, hbr3 _ hiol, her3 _ hiol]
    have hp3 : proveLayerNormInput threads T n v X io.point ts3 = some (input, ⟨input.point, mle X input.point⟩, ts4) := by
      unfold proveLayerNormInput
      rw [hhalf]
      simp only [Option.bind_eq_bind, Option.bind_some, hic]
      rw [← hheap3, hprove3]
      simp only [Option.bind_some, List.map_cons, List.map_nil, List.getElem?_cons_zero]
      rw [show (heap3 0).evals = X by rw [hheap3]; rfl]
    unfold proveLayerNorm
    rw [hp1]
    simp only [Option.bind_eq_bind, Option.bind_some]
    rw [hp2]
    simp only [Option.bind_some]
    rw [hp3]
    rfl
  · intro logups commits chals ts hll hl hsmall extra mid z hz hrec proof
    have hw : computeBetas bc = (List.range (2 ^ sq)).map (chi bc) := by rw [computeBetas_spec, hbcl]
    have hwl : (computeBetas bc).length = 2 ^ sq := by rw [computeBetas_length, hbcl]
    have hne : ∀ (k : ℕ) (x : List F), 0 < k → x.length = k → x ≠ [] := by
      intro k x hk hx h0
      rw [h0] at hx
      simp at hx
      omega
    have hv1 := hver (fun r hr j hj => hsmall r (by simp [hr]) j (by omega))
    have hts : ∀ pt : List F, pt.length = m → termsVal (layerNormHeap m ein eout (rs ++ [rl]) ip rp) (layerNormTerms (computeBetas bc) (rest.length + 1)) pt
        = normAccSum (computeBetas bc) ip rp ein eout (rs ++ [rl]) pt := by
      intro pt hpt
      rw [hrr]
      exact layerNormTerms_sum m ein eout r0 rest ip rp _ hip hrp pt hpt
    rw [cubeSum_congr m _ _ hts, hts _ hapl, cubeSum_normAcc _ ip rp ein eout _ m hip hrp] at hv1
    have hfirst : verifyLayerNormFirst T bl ctx chals proof ts = some (rs.length + 1, acc.point, ts2) := by
      have hch : layerNormChunks bl ctx = some ((ctx.rangeBits - 1) / bl + 1) := by
        unfold layerNormChunks checkedSub
        rw [if_pos hR]
        rfl
      unfold verifyLayerNormFirst
      rw [if_pos hll, hch]
      simp only [Option.bind_eq_bind, Option.bind_some, proof]
      rw [hl]
      simp only [Option.bind_some, List.getElem?_cons_zero, List.getElem?_cons_succ]
      rw [show [(⟨ip, mle ein ip⟩ : Claim F), ⟨ip, mle eout ip⟩].length + ((rs ++ [rl]).map fun t => (⟨rp, mle t rp⟩ : Claim F)).length = 2 + (rs ++ [rl]).length by simp, hsq]
      simp only [Option.bind_some, hbc, hip]
      rw [claimsFold_eq, zero_add, List.map_append, List.map_map]
      simp only [List.map_cons, List.map_nil, Function.comp_def]
      rw [hv1]
      simp only [Option.bind_some]
      rw [List.getElem?_map, hrr]
      simp only [List.getElem?_cons_zero, Option.map_some, Option.bind_some]
      rw [eqXYEval_eq _ _ (hne m _ hm hip) (by omega), eqXYEval_eq _ _ (hne m _ hm hrp) (by omega)]
      simp only [Option.bind_some]
      rw [if_pos]
      · simp [hrestl]
      · rw [layerNormCalc_eq _ _ _ _ _ _ _ _ (by rw [List.length_map, List.length_cons, hrestl, hk]) (by rw [hwl, ← hk]; simp at hsq'; omega), normAccSum, List.map_map]
        rfl
    have hv2 := hver2 (fun r hr j hj => hsmall r (by simp [hr]) j (by omega))
    have hts2 : ∀ pt : List F, pt.length = n → termsVal heap2 (layerNormIoTerms p ctx v ((1 - c) * (1 - d)) (c * (1 - d)) ((1 - c) * d)) pt
        = normIoSum n v ((1 - c) * (1 - d)) (c * (1 - d)) ((1 - c) * d) (ctx.dimSize : F) (ctx.multiplier : F) (List.replicate v (2 : F)⁻¹ ++ acc.point) lp X gamma beta eout pt := by
      intro pt hpt
      have b1 := mle_computeBetas (List.replicate v (2 : F)⁻¹ ++ acc.point) pt (by omega)
      have b2 := mle_computeBetas lp pt (by omega)
      rw [hheap2]
      simp only [termsVal, layerNormIoTerms, normIoSum, List.map_cons, List.map_nil, List.getD_cons_zero, List.getD_cons_succ, List.getD_nil, List.prod_cons, List.prod_nil, List.sum_cons, List.sum_nil, b1, b2,
        hgr3 pt hpt, hbr3 pt hpt, her3 pt hpt, toField_eq_cast p _ hM, toField_eq_cast p (ctx.dimSize : ℤ) (by simpa using hN)]
      push_cast
      ring
    rw [cubeSum_congr n _ _ hts2, hts2 _ hiol, cubeSum_normIo h2ne n v m hn.symm _ _ _ _ _ acc.point lp X gamma beta eout hapl hlp] at hv2
    have hioe : layerNormIoEvals proof.evaluations = some (mle X io.point, mle (normSums n v X) io.point) := by
      unfold layerNormIoEvals checkedSub
      simp only [proof]
      rw [if_pos (by simp)]
      simp
    have hrecv : layerNormRecombine bl ctx (rs.length + 1) proof.accEvals = some (mle (normVariance m v (ctx.dimSize : F) (ctx.multiplier : F) X) acc.point) := by
      have := layerNormRecombine_eq bl ctx h2ne (mle ein acc.point) (mle eout acc.point) z (rs.map fun t => mle t acc.point) mid
      rw [List.length_map] at this
      rw [← hrec, ← this]
      congr 1
      simp only [proof, List.map_append, List.map_cons, List.map_nil]
      rw [List.append_assoc, List.append_assoc, List.append_assoc, List.append_assoc, ← hz]
    have hio : verifyLayerNormIo T p bl ctx last (rs.length + 1) proof acc.point ts2 = some (v, io.point, ts3) := by
      unfold verifyLayerNormIo
      simp only [hcc, hdd, Option.bind_eq_bind]
      rw [hrecv, hioe, hv, hhalf]
      simp only [Option.bind_some]
      rw [show proof.accEvals[1]? = some (mle eout acc.point) from rfl, show proof.evaluations[1]? = some (mle eout (io.point.drop v)) from rfl]
      simp only [Option.bind_some]
      rw [show last.point.length = n from hlp, show last.eval = mle (normOutput n v (ctx.dimSize : F) gamma beta X eout) lp from rfl, mul_comm (mle eout acc.point), show proof.io = io from rfl, hv2]
      simp only [Option.bind_some]
      rw [eqXYEval_eq _ _ (hne n _ (by omega) hfull) (by omega), eqXYEval_eq _ _ (hne n _ (by omega) hlp) (by show lp.length = _; omega)]
      simp only [Option.bind_some]
      rw [if_pos]
      unfold layerNormIoCalc normIoSum
      rw [toField_eq_cast p _ hM, toField_eq_cast p (ctx.dimSize : ℤ) (by simpa using hN)]
      simp only [proof, last]
      push_cast
      ring
    refine ⟨ts2, ts3, hfirst, hio, ?_⟩
    intro c' hdiv
    have hv3 := hver3 (fun r hr j hj => hsmall r (by simp [hr]) j (by omega))
    have hts3 : ∀ pt : List F, pt.length = n → termsVal heap3 [(1 - ic, [0, 1]), (ic * ((2 ^ v : ℕ) : F), [0, 2])] pt = normInputSum v ic io.point X pt := by
      intro pt hpt
      have b1 := mle_computeBetas (List.replicate v (2 : F)⁻¹ ++ io.point.drop v) pt (by omega)
      have b2 := mle_computeBetas io.point pt (by omega)
      rw [hheap3]
      simp only [termsVal, normInputSum, List.map_cons, List.map_nil, List.getD_cons_zero, List.getD_cons_succ, List.getD_nil, List.prod_cons, List.prod_nil, List.sum_cons, List.sum_nil, b1, b2]
      push_cast
      ring
    rw [cubeSum_congr n _ _ hts3, hts3 _ hinl, cubeSum_normInput h2ne n v (by omega) ic io.point X hiol] at hv3
    have hin : verifyLayerNormInput T v proof io.point ts3 = some (⟨input.point, mle X input.point⟩, ts4) := by
      have hc' : c' = ic := by simp only [c', hic]
      rw [hc'] at hdiv
      unfold verifyLayerNormInput
      simp only [hic, Option.bind_eq_bind]
      rw [hioe, hhalf]
      simp only [Option.bind_some]
      rw [hiol, show mle X io.point + ic * (mle (normSums n v X) io.point - mle X io.point) = (1 - ic) * mle X io.point + ic * mle (normSums n v X) io.point by ring, show proof.input = input from rfl, hv3]
      simp only [Option.bind_some]
      rw [eqXYEval_eq _ _ (hne n _ (by omega) hiol) (by omega), eqXYEval_eq _ _ (hne n _ (by omega) hsum) (by omega)]
      simp only [Option.bind_some]
      have he : (1 - ic) * eqPoly io.point input.point + ic * (2 ^ v * eqPoly (List.replicate v (2 : F)⁻¹ ++ io.point.drop v) input.point)
          = eqPoly io.point input.point + ic * (((2 ^ v : ℕ) : F) * eqPoly (List.replicate v (2 : F)⁻¹ ++ io.point.drop v) input.point - eqPoly io.point input.point) := by
        push_cast
        ring
      unfold checkedInv
      rw [← he, if_neg hdiv]
      simp only [Option.bind_some, Option.some.injEq, Prod.mk.injEq, and_true, Claim.mk.injEq, true_and]
      rw [mul_inv_eq_iff_eq_mul₀ hdiv]
      unfold normInputSum
      ring
    unfold verifyLayerNorm
    simp only [Option.bind_eq_bind]
    rw [hfirst]
    simp only [Option.bind_some]
    rw [hio]
    simp only [Option.bind_some]
    rw [hin]
    simp only [Option.bind_some, Option.some.injEq, Prod.mk.injEq, true_and, and_true]
    refine ⟨?_, rfl, rfl⟩
    unfold layerNormWitness
    simp only [proof]
    congr 1
    rw [show ([mle ein acc.point, mle eout (io.point.drop v)] ++ ((rs ++ [rl]).map fun t => mle t acc.point) ++ [mle X io.point, mle (normSums n v X) io.point]).length - 2
        = ([mle ein acc.point, mle eout (io.point.drop v)] ++ ((rs ++ [rl]).map fun t => mle t acc.point)).length by simp, List.take_left]
    simp only [List.cons_append, List.nil_append, List.mapIdx_cons]
    congr 1
    congr 1
    generalize rs ++ [rl] = l
    apply List.ext_getElem
    · simp
    · intro i h1 h2
      simp

theorem ceilLog2_of {x v : ℕ} (h1 : x ≤ 2 ^ v) (h2 : 2 ^ v < 2 * x) : ceilLog2 x = some v := by
  obtain ⟨k, hk⟩ := ceilLog2_some (x := x) (by by_contra h; have := Nat.pos_of_ne_zero (pow_ne_zero v (two_ne_zero (α := ℕ))); omega)
  obtain ⟨h3, h4⟩ := ceilLog2_spec hk
  rw [hk, Option.some.injEq]
  have a : v < k + 1 := (Nat.pow_lt_pow_iff_right (a := 2) (by omega)).1 (by rw [pow_succ]; omega)
  have b : k < v + 1 := (Nat.pow_lt_pow_iff_right (a := 2) (by omega)).1 (by rw [pow_succ]; omega)
  omega

/-- C84, the honest prover after its lookup proofs, part. Let the input `X` have rows of `2^v` entries, and for each row let the index looked up and the chunks stand for the scaled variance of the row. If the lookup proofs are accepted and
their claims are true of the columns, then the proof built by the prover for the output `gamma (N x - Σ x) eout + beta` is accepted, the claim returned is true of `X` and so are the claims on the committed
columns, `gamma` and `beta`, unless a challenge of the sumchecks is at most four or the verifier divides by zero. At least two rows are assumed. With the lookup proofs: `C84_complete_partial`. -/
theorem C84_after_lookups_partial (T : Transcript F) (threads : ℕ) (ht : 0 < threads) (p bl : ℕ) [CharP F p] (hchar : ∀ k : ℕ, 0 < k → k ≤ 4 → (k : F) ≠ 0) (ctx : LayerNormCtx) (hN : ctx.dimSize ≤ p)
    (hM : ctx.multiplier.natAbs ≤ p) (hR : 1 ≤ ctx.rangeBits) (v m n : ℕ) (hn : n = v + m) (hm : 0 < m) (hv1 : ctx.dimSize ≤ 2 ^ v) (hv2 : 2 ^ v < 2 * ctx.dimSize) (ein eout : List F) (rs : List (List F)) (rl : List F)
    (h1 : ein.length = 2 ^ m) (h2 : eout.length = 2 ^ m) (h3 : ∀ t ∈ rs ++ [rl], t.length = 2 ^ m) (hk : rs.length = (ctx.rangeBits - 1) / bl) (X gamma beta : List F) (hX : X.length = 2 ^ n)
    (hg : gamma.length = 2 ^ v) (hb : beta.length = 2 ^ v) (ip rp lp : List F) (hip : ip.length = m) (hrp : rp.length = m) (hlp : lp.length = n) (logups : List (LogUpProof F)) (hll : logups.length = 2)
    (commits : List C) (chals : List (F × F)) (ts ts1 : T.State)
    (hl : verifyLogups T (logups.zip (chals.zip [1, (ctx.rangeBits - 1) / bl + 1])) ts
      = some ([[⟨ip, mle ein ip⟩, ⟨ip, mle eout ip⟩], (rs ++ [rl]).map fun t => (⟨rp, mle t rp⟩ : Claim F)], ts1))
    (hrel : ∀ r < 2 ^ m, 2 ^ ctx.rangeBits * ein.getD r 0 + powerSum (2 ^ bl) (rs.map fun t => t.getD r 0) + (2 ^ bl) ^ rs.length * (rl.getD r 0 / 2 ^ ctx.topLog)
      = (ctx.multiplier : F) * ((ctx.dimSize : F) * (∑ c ∈ Finset.range (2 ^ v), X.getD (r * 2 ^ v + c) 0 ^ 2) - (∑ c ∈ Finset.range (2 ^ v), X.getD (r * 2 ^ v + c) 0) ^ 2)) :
    let last : Claim F := ⟨lp, mle (normOutput n v (ctx.dimSize : F) gamma beta X eout) lp⟩
    ∃ (proof : LayerNormProof F C) (pt : List F) (ts' : T.State), proveLayerNorm threads T p ctx n ein eout (rs ++ [rl]) X (normSums n v X) gamma beta ip rp last ts1 = some (proof, ⟨pt, mle X pt⟩, ts') ∧
      let sp := proof.accumulation.point
      let iop := proof.io.point
      sp.length = m ∧ iop.length = n ∧ pt.length = n ∧
      ((∀ r ∈ sp ++ iop ++ pt, ∀ j : ℕ, j ≤ 4 → r ≠ (j : F)) →
        let sent : LayerNormProof F C := { proof with logupProofs := logups, commitments := commits }
        ∃ ts2 ts3, verifyLayerNormFirst T bl ctx chals sent ts = some (rs.length + 1, sp, ts2) ∧ verifyLayerNormIo T p bl ctx last (rs.length + 1) sent sp ts2 = some (v, iop, ts3) ∧
        let c := (T.labelled ts3 "batching").1
        ((1 - c) * eqPoly iop pt + c * (2 ^ v * eqPoly (List.replicate v (2 : F)⁻¹ ++ iop.drop v) pt) ≠ 0 →
          verifyLayerNorm T p bl ctx chals last sent ts = some (⟨pt, mle X pt⟩,
            commits.zip ([⟨sp, mle ein sp⟩, ⟨iop.drop v, mle eout (iop.drop v)⟩] ++ (rs ++ [rl]).map fun t => (⟨sp, mle t sp⟩ : Claim F)),
            (⟨iop.take v, mle gamma (iop.take v)⟩, ⟨iop.take v, mle beta (iop.take v)⟩), ts'))) := by
  intro last
  obtain ⟨acc, io, input, ts', hp, hsp, hiop, hpt, hacc⟩ := layerNorm_run T threads ht p bl hchar ctx hN hM hR v m n hn hm (ceilLog2_of hv1 hv2) ein eout rs rl h1 h2 h3 hk X gamma beta hX hg hb ip rp lp hip hrp hlp ts1
  refine ⟨_, input.point, ts', hp, hsp, hiop, hpt, ?_⟩
  intro hsmall
  have hrec : 2 ^ ctx.rangeBits * mle ein acc.point + powerSum (2 ^ bl) (rs.map fun t => mle t acc.point) + (2 ^ bl) ^ rs.length * (mle rl acc.point / 2 ^ ctx.topLog)
      = mle (normVariance m v (ctx.dimSize : F) (ctx.multiplier : F) X) acc.point := by
    rw [← mle_normRecombined m ctx.rangeBits bl ctx.topLog ein rs rl acc.point hsp]
    congr 1
    apply List.map_congr_left
    intro r hr
    exact hrel r (List.mem_range.1 hr)
  have := hacc logups commits chals ts hll hl hsmall [] [] (mle rl acc.point) rfl hrec
  simp only [List.append_nil] at this
  exact this

/-- C84 does not hold: the verifier does not check that the variance belongs to the row. Take any columns whose entries are in the tables, so that the lookup proofs are accepted and their claims are true, whether or
not they have to do with the input `X`. The prover's proof for the output computed from these columns, with one number appended to `accEvals`, is accepted, and all claims passed on to the commitment verifier,
to the weights and to the layer before are true. -/
theorem C84_forged_false (T : Transcript F) (threads : ℕ) (ht : 0 < threads) (p bl : ℕ) [CharP F p] (hchar : ∀ k : ℕ, 0 < k → k ≤ 4 → (k : F) ≠ 0) (ctx : LayerNormCtx) (hN : ctx.dimSize ≤ p)
    (hM : ctx.multiplier.natAbs ≤ p) (hR : 1 ≤ ctx.rangeBits) (v m n : ℕ) (hn : n = v + m) (hm : 0 < m) (hv1 : ctx.dimSize ≤ 2 ^ v) (hv2 : 2 ^ v < 2 * ctx.dimSize) (ein eout : List F) (rs : List (List F)) (rl : List F)
    (h1 : ein.length = 2 ^ m) (h2 : eout.length = 2 ^ m) (h3 : ∀ t ∈ rs ++ [rl], t.length = 2 ^ m) (hk : rs.length = (ctx.rangeBits - 1) / bl) (X gamma beta : List F) (hX : X.length = 2 ^ n)
    (hg : gamma.length = 2 ^ v) (hb : beta.length = 2 ^ v) (ip rp lp : List F) (hip : ip.length = m) (hrp : rp.length = m) (hlp : lp.length = n) (logups : List (LogUpProof F)) (hll : logups.length = 2)
    (commits : List C) (chals : List (F × F)) (ts ts1 : T.State)
    (hl : verifyLogups T (logups.zip (chals.zip [1, (ctx.rangeBits - 1) / bl + 1])) ts
      = some ([[⟨ip, mle ein ip⟩, ⟨ip, mle eout ip⟩], (rs ++ [rl]).map fun t => (⟨rp, mle t rp⟩ : Claim F)], ts1)) :
    let last : Claim F := ⟨lp, mle (normOutput n v (ctx.dimSize : F) gamma beta X eout) lp⟩
    ∃ (proof : LayerNormProof F C) (z : F) (pt : List F) (ts' : T.State), proveLayerNorm threads T p ctx n ein eout (rs ++ [rl]) X (normSums n v X) gamma beta ip rp last ts1 = some (proof, ⟨pt, mle X pt⟩, ts') ∧
      let sp := proof.accumulation.point
      let iop := proof.io.point
      sp.length = m ∧ iop.length = n ∧ pt.length = n ∧
      ((∀ r ∈ sp ++ iop ++ pt, ∀ j : ℕ, j ≤ 4 → r ≠ (j : F)) →
        let sent : LayerNormProof F C := { proof with logupProofs := logups, commitments := commits, accEvals := proof.accEvals ++ [z] }
        ∃ ts2 ts3, verifyLayerNormFirst T bl ctx chals sent ts = some (rs.length + 1, sp, ts2) ∧ verifyLayerNormIo T p bl ctx last (rs.length + 1) sent sp ts2 = some (v, iop, ts3) ∧
        let c := (T.labelled ts3 "batching").1
        ((1 - c) * eqPoly iop pt + c * (2 ^ v * eqPoly (List.replicate v (2 : F)⁻¹ ++ iop.drop v) pt) ≠ 0 →
          verifyLayerNorm T p bl ctx chals last sent ts = some (⟨pt, mle X pt⟩,
            commits.zip ([⟨sp, mle ein sp⟩, ⟨iop.drop v, mle eout (iop.drop v)⟩] ++ (rs ++ [rl]).map fun t => (⟨sp, mle t sp⟩ : Claim F)),
            (⟨iop.take v, mle gamma (iop.take v)⟩, ⟨iop.take v, mle beta (iop.take v)⟩), ts'))) := by
  intro last
  have h2ne : (2 : F) ≠ 0 := by have := hchar 2 (by omega) (by omega); exact_mod_cast this
  obtain ⟨acc, io, input, ts', hp, hsp, hiop, hpt, hacc⟩ := layerNorm_run T threads ht p bl hchar ctx hN hM hR v m n hn hm (ceilLog2_of hv1 hv2) ein eout rs rl h1 h2 h3 hk X gamma beta hX hg hb ip rp lp hip hrp hlp ts1
  obtain ⟨z, hz⟩ : ∃ z : F, z = 2 ^ ctx.topLog * (((2 ^ bl) ^ rs.length)⁻¹ * (mle (normVariance m v (ctx.dimSize : F) (ctx.multiplier : F) X) acc.point - 2 ^ ctx.rangeBits * mle ein acc.point
      - powerSum (2 ^ bl) (rs.map fun t => mle t acc.point))) := ⟨_, rfl⟩
  refine ⟨_, z, input.point, ts', hp, hsp, hiop, hpt, ?_⟩
  intro hsmall
  have hrec : 2 ^ ctx.rangeBits * mle ein acc.point + powerSum (2 ^ bl) (rs.map fun t => mle t acc.point) + (2 ^ bl) ^ rs.length * (z / 2 ^ ctx.topLog)
      = mle (normVariance m v (ctx.dimSize : F) (ctx.multiplier : F) X) acc.point := by
    have ha : (2 : F) ^ ctx.topLog ≠ 0 := pow_ne_zero _ h2ne
    have hb' : ((2 : F) ^ bl) ^ rs.length ≠ 0 := pow_ne_zero _ (pow_ne_zero _ h2ne)
    rw [hz, mul_div_cancel_left₀ _ ha, mul_inv_cancel_left₀ hb']
    ring
  exact hacc logups commits chals ts hll hl hsmall [z] [mle rl acc.point] z rfl hrec

theorem powerSum_chunks (a : F) (g : ℕ → F) : ∀ k : ℕ, powerSum a ((List.range k).map g) = ((List.range k).map fun j => g j * a ^ j).sum := by
  intro k
  induction k with
  | zero => rfl
  | succ k ih =>
    rw [List.range_succ, List.map_append, List.map_append, powerSum_append, ih, List.sum_append]
    simp [powerSum, mul_comm]

/-- C84 does not hold: the chunks do not determine the index. The last chunk is committed times `2^top` and the verifier divides by it, without checking that it is a multiple. Let `bits` not be a multiple of the
`bl` bits of a chunk. If the number of a row is `2^bits q + rest`, with `rest` below `2^(bl k) - 2^(bl k - top)`, then with range checked chunks the index `q - 1` stands for it as well. -/
theorem C84_index_false (bl k top bits : ℕ) (h2 : (2 : F) ≠ 0) (ht : 0 < top) (htb : top < bl) (hk : 0 < k) (hbits : bits = bl * k + (bl - top)) (q : ℤ) (rest : ℕ)
    (hrest : rest + 2 ^ (bl * k - top) < 2 ^ (bl * k)) :
    ∃ (rs : List ℕ) (rl : ℕ), rs.length = k ∧ (∀ x ∈ rs, x < 2 ^ bl) ∧ rl < 2 ^ bl ∧
      normRecombined 0 bits bl top [((q - 1 : ℤ) : F)] (rs.map fun x : ℕ => [(x : F)]) [(rl : F)] = [2 ^ bits * (q : F) + (rest : F)] := by
  have htk : top ≤ bl * k := le_trans htb.le (Nat.le_mul_of_pos_right _ hk)
  obtain ⟨M, hM⟩ : ∃ M : ℕ, M = rest + 2 ^ (bl * k - top) := ⟨_, rfl⟩
  have hs := chunks_sum bl k (M : ℤ)
  rw [mul_comm k bl, Int.emod_eq_of_lt (by positivity) (by rw [hM]; exact_mod_cast hrest)] at hs
  refine ⟨(List.range k).map fun j => (M >>> (j * bl)) % 2 ^ bl, 2 ^ bl - 1, by simp, ?_, by have := Nat.pos_of_ne_zero (pow_ne_zero bl (two_ne_zero (α := ℕ))); omega, ?_⟩
  · intro x hx
    rw [List.mem_map] at hx
    obtain ⟨j, -, rfl⟩ := hx
    exact Nat.mod_lt _ (by positivity)
  · have hsF : powerSum ((2 : F) ^ bl) (((List.range k).map fun j => (M >>> (j * bl)) % 2 ^ bl).map fun x : ℕ => (x : F)) = (M : F) := by
      rw [List.map_map, powerSum_chunks]
      have := congrArg (fun x : ℤ => (x : F)) hs
      simp only [Int.cast_natCast] at this
      rw [← this, Int.cast_list_sum, List.map_map]
      congr 1
      apply List.map_congr_left
      intro j _
      simp only [Function.comp_apply, Int.cast_mul, Int.cast_pow, Int.cast_ofNat]
      congr 1
      rw [show ((M : ℤ) >>> (j * bl)) % 2 ^ bl = (((M >>> (j * bl)) % 2 ^ bl : ℕ) : ℤ) by push_cast; rfl, Int.cast_natCast]
    unfold normRecombined
    simp only [pow_zero, List.range_one, List.map_cons, List.map_nil, List.getD_cons_zero, List.map_map, Function.comp_def, List.length_map, List.length_range, List.cons.injEq, and_true]
    simp only [List.map_map, Function.comp_def] at hsF
    rw [hsF, hM]
    have e1 : (2 : F) ^ (bl * k) = 2 ^ (bl * k - top) * 2 ^ top := by rw [← pow_add]; congr 1; omega
    have e2 : (2 : F) ^ bits = 2 ^ (bl * k - top) * 2 ^ bl := by rw [← pow_add]; congr 1; omega
    have ha : (2 : F) ^ top ≠ 0 := pow_ne_zero _ h2
    rw [← pow_mul, e1, Nat.cast_sub (Nat.one_le_two_pow), e2]
    push_cast
    field_simp
    ring

/-- The hypotheses can be met: 8 bit chunks, 12 range checked bits, so that the last chunk is committed times 16, and a row whose number is `5 · 2^12 + 100`. The honest index is 5. Index 4 with the chunks 116, 255 stands for
the same number. -/
example : 100 + 2 ^ (8 * 1 - 4) < 2 ^ (8 * 1) ∧ (normRecombined 0 12 8 4 [5] [[100]] [0] : List (ZMod 524287)) = [2 ^ 12 * 5 + 100] ∧
    (normRecombined 0 12 8 4 [4] [[116]] [255] : List (ZMod 524287)) = [2 ^ 12 * 5 + 100] := by
  refine ⟨by norm_num, ?_, ?_⟩ <;> decide +kernel

/-- C84 is false of the commitments: their number is never compared with that of the columns. An accepted proof stays accepted, with the same claims on the input and the weights, if all commitments after the first
`j` are removed, and no opening of the columns concerned is requested; with `j = 0` none at all. -/
theorem C84_unopened_false (T : Transcript F) (p bl : ℕ) (ctx : LayerNormCtx) (chals : List (F × F)) (last : Claim F) (proof : LayerNormProof F C) (ts ts' : T.State) (claim : Claim F) (wit : List (C × Claim F))
    (common : Claim F × Claim F) (h : verifyLayerNorm T p bl ctx chals last proof ts = some (claim, wit, common, ts')) (j : ℕ) :
    verifyLayerNorm T p bl ctx chals last { proof with commitments := proof.commitments.take j } ts = some (claim, wit.take j, common, ts') := by
  unfold verifyLayerNorm at h ⊢
  simp only [Option.bind_eq_bind, Option.bind_eq_some_iff] at h
  obtain ⟨⟨rc, sp, ts2⟩, h1, ⟨v, iop, ts3⟩, h2, ⟨claim', ts4⟩, h3, h4⟩ := h
  simp only [Option.some.injEq, Prod.mk.injEq] at h4
  obtain ⟨rfl, rfl, rfl, rfl⟩ := h4
  rw [show verifyLayerNormFirst T bl ctx chals { proof with commitments := proof.commitments.take j } ts = some (rc, sp, ts2) from h1]
  simp only [Option.bind_eq_bind, Option.bind_some]
  rw [show verifyLayerNormIo T p bl ctx last rc { proof with commitments := proof.commitments.take j } sp ts2 = some (v, iop, ts3) from h2]
  simp only [Option.bind_some]
  rw [show verifyLayerNormInput T v { proof with commitments := proof.commitments.take j } iop ts3 = some (claim', ts4) from h3]
  simp only [Option.bind_some, Option.some.injEq, Prod.mk.injEq, and_true, true_and]
  unfold layerNormWitness
  simp only [List.zip, List.take_zipWith]
  apply List.ext_getElem?
  intro i
  simp only [List.getElem?_zipWith, List.getElem?_take]
  by_cases hi : i < j
  · simp only [if_pos hi]
  · simp only [if_neg hi]

/-- Four rows of two entries, `5 -7 / 100 60 / 0 0 / -90 30`, multiplier 3, 12 range checked bits, chunks of 8 bits. The table gives 100, 64, 20 for the indices 0, 1, 10. The integers below are modulo `2^19 - 1`. -/
def exNormCtx : LayerNormCtx := ⟨12, 2, 3, 4⟩
def exNormX : List (ZMod 524287) := [5, -7, 100, 60, 0, 0, -90, 30]
def exNormGamma : List (ZMod 524287) := [3, -2]
def exNormBeta : List (ZMod 524287) := [10, 20]
def exNormIn : List (ZMod 524287) := [0, 1, 0, 10]
def exNormOut : List (ZMod 524287) := [100, 64, 100, 20]
def exNormLo : List (ZMod 524287) := [176, 192, 0, 192]
def exNormHi : List (ZMod 524287) := [16, 32, 0, 128]
def exNormTape : List (ZMod 524287) := [12, 5, 7, 11, 6, 9, 14, 13, 8, 10, 22, 17, 15, 18, 12, 5, 7, 11, 6, 9, 14, 13, 8, 10, 22, 17, 15]
def exNormProof : LayerNormProof (ZMod 524287) String :=
  ⟨[⟨[⟨[11], [[1455, 96252, -203037, 159701]]⟩], [[-77870, -29569]], [⟨[11, 6], 605⟩, ⟨[11, 6], -3200⟩], [[-20040, -8451, 261583, -72545]], false⟩,
    ⟨[⟨[22], [[-105058, 188786, 178463, 212188]]⟩], [[4244, 548, 2836, 388]], [⟨[22, 17], 63360⟩, ⟨[22, 17], 41984⟩], [[-216, -424, 3920, 44944], [-56, -200, 720, 7696]], false⟩],
    ["in", "out", "lo", "hi"], ⟨[7, 11], [[-260485, -768, -209529], [-109160, 217248, -6433]]⟩, ⟨[14, 13, 8], [[261741, 201539, -190361, 179341, -217490], [54726, 139969, 181161, 140841, -18452], [194072, -73836, -93904, 153999, 165717]]⟩,
    ⟨[22, 17, 15], [[-193932, -184639, -179760], [-225715, -259118, -166068], [164764, -13619, 107292]]⟩, [700, -3540, 11904, 8576], [700, -4944, 11904, 8576, 193528, -20968], -67, 150⟩

/-- The hypothesis on the columns in `C84_after_lookups_partial`. -/
example : ∀ r < 2 ^ 2, 2 ^ 12 * exNormIn.getD r 0 + powerSum (2 ^ 8) ([exNormLo].map fun t => t.getD r 0) + (2 ^ 8) ^ 1 * (exNormHi.getD r 0 / 2 ^ 4)
      = 3 * (2 * (∑ c ∈ Finset.range (2 ^ 1), exNormX.getD (r * 2 ^ 1 + c) 0 ^ 2) - (∑ c ∈ Finset.range (2 ^ 1), exNormX.getD (r * 2 ^ 1 + c) 0) ^ 2) := by
  decide +kernel

/-- The lookup proofs. -/
example : verifyLogups (tape (ZMod 524287)) (exNormProof.logupProofs.zip ([(20, 100), (20, 1)].zip [1, 2])) exNormTape
      = some ([[⟨[11, 6], mle exNormIn [11, 6]⟩, ⟨[11, 6], mle exNormOut [11, 6]⟩], [⟨[22, 17], mle exNormLo [22, 17]⟩, ⟨[22, 17], mle exNormHi [22, 17]⟩]], [12, 5, 7, 11, 6, 9, 14, 13, 8, 10, 22, 17, 15]) := by
  decide +kernel

set_option synthInstance.maxSize 1000 in
/-- The proof is accepted. -/
example : verifyLayerNorm (tape (ZMod 524287)) 524287 8 exNormCtx [(20, 100), (20, 1)] ⟨[21, 22, 23], mle (normOutput 3 1 2 exNormGamma exNormBeta exNormX exNormOut) [21, 22, 23]⟩ exNormProof exNormTape
      = some (⟨[22, 17, 15], mle exNormX [22, 17, 15]⟩, [("in", ⟨[7, 11], mle exNormIn [7, 11]⟩), ("out", ⟨[13, 8], mle exNormOut [13, 8]⟩), ("lo", ⟨[7, 11], mle exNormLo [7, 11]⟩),
          ("hi", ⟨[7, 11], mle exNormHi [7, 11]⟩)], (⟨[14], mle exNormGamma [14]⟩, ⟨[14], mle exNormBeta [14]⟩), []) := by
  decide +kernel

/-- Columns that have nothing to do with the rows: the first row is normalised with the number for index 10, the last with that for index 1. -/
def exNormIn' : List (ZMod 524287) := [10, 0, 0, 1]
def exNormOut' : List (ZMod 524287) := [20, 100, 100, 64]
def exNormLo' : List (ZMod 524287) := [0, 1, 2, 3]
def exNormHi' : List (ZMod 524287) := [0, 0, 0, 0]
def exNormForged : LayerNormProof (ZMod 524287) String :=
  ⟨[⟨[⟨[11], [[-48381, -120408, -87183, 43755]]⟩], [[-29569, 89920]], [⟨[11, 6], 566⟩, ⟨[11, 6], -6276⟩], [[-12050, -16441, -106593, -148881]], false⟩,
    ⟨[⟨[22], [[91831, -50229, -170129, 257918]]⟩], [[44, 42, 20, 20]], [⟨[22, 17], 56⟩, ⟨[22, 17], 0⟩], [[-42, -44, 440, 483], [-40, -40, 400, 400]], false⟩],
    ["in", "out", "lo", "hi"], ⟨[7, 11], [[-223017, 21802, 34374], [59259, 224279, -104317]]⟩, ⟨[14, 13, 8], [[-100809, 81436, 248077, 61328, 231977], [122316, 113108, 100778, 157163, -170187], [-73994, -68721, 103841, 131499, 226347]]⟩,
    ⟨[22, 17, 15], [[-193932, -184639, -179760], [-225715, -259118, -166068], [164764, -13619, 107292]]⟩, [677, -7472, 29, 0, 113510], [677, -10364, 29, 0, 193528, -20968], -67, 150⟩

/-- The lookup proofs, as `C84_forged_false` assumes. -/
example : verifyLogups (tape (ZMod 524287)) (exNormForged.logupProofs.zip ([(20, 100), (20, 1)].zip [1, 2])) exNormTape
      = some ([[⟨[11, 6], mle exNormIn' [11, 6]⟩, ⟨[11, 6], mle exNormOut' [11, 6]⟩], [⟨[22, 17], mle exNormLo' [22, 17]⟩, ⟨[22, 17], mle exNormHi' [22, 17]⟩]], [12, 5, 7, 11, 6, 9, 14, 13, 8, 10, 22, 17, 15]) := by
  decide +kernel

set_option synthInstance.maxSize 1000 in
/-- The forged proof is accepted for the output computed from these columns. -/
example : verifyLayerNorm (tape (ZMod 524287)) 524287 8 exNormCtx [(20, 100), (20, 1)] ⟨[21, 22, 23], mle (normOutput 3 1 2 exNormGamma exNormBeta exNormX exNormOut') [21, 22, 23]⟩ exNormForged exNormTape
      = some (⟨[22, 17, 15], mle exNormX [22, 17, 15]⟩, [("in", ⟨[7, 11], mle exNormIn' [7, 11]⟩), ("out", ⟨[13, 8], mle exNormOut' [13, 8]⟩), ("lo", ⟨[7, 11], mle exNormLo' [7, 11]⟩),
          ("hi", ⟨[7, 11], mle exNormHi' [7, 11]⟩)], (⟨[14], mle exNormGamma [14]⟩, ⟨[14], mle exNormBeta [14]⟩), []) := by
  decide +kernel

end Props
