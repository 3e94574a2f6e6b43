import Verif.Props.LayerNormProof
import Verif.Props.SoftmaxStep
import Verif.Props.LayerNorm

/-!
C84: the honest prover of a layer normalisation with its lookup proofs.
-/

namespace Props
open Model Spec Lemmas

variable {F : Type} [Field F] [DecidableEq F] {C : Type}

theorem columnGroups (l : List (List F)) : (l.map fun t => [t]).flatten = l := by
  induction l with
  | nil => rfl
  | cons t l ih => simp [ih]

/-- C84, the honest prover, part. Let the input `X` have `2^m` rows of `2^v` entries, at least four rows, and for each row let the index looked up and the chunks stand for the scaled variance of the row. Then the
prover makes a proof for the output `gamma (N x - Σ x) eout + beta`, lookup proofs included, and passes on the true claim on `X`. The verifier accepts it, returns the same claim and hands on true claims on the
committed columns, `gamma` and `beta`, unless a challenge of the sumchecks is at most four or the verifier divides by zero. Missing: fewer rows, for which it is false, see `C84_few_rows_false`. -/
theorem C84_complete_partial (T : Transcript F) (threads : ℕ) (ht : 0 < threads) (p bl : ℕ) [CharP F p] (hchar : ∀ k : ℕ, 0 < k → k ≤ 4 → (k : F) ≠ 0) (ctx : LayerNormCtx) (hN : ctx.dimSize ≤ p)
    (hM : ctx.multiplier.natAbs ≤ p) (hR : 1 ≤ ctx.rangeBits) (v m n : ℕ) (hn : n = v + m) (hm : 2 ≤ m) (hv1 : ctx.dimSize ≤ 2 ^ v) (hv2 : 2 ^ v < 2 * ctx.dimSize) (ein eout : List F) (rs : List (List F)) (rl : List F)
    (h1 : ein.length = 2 ^ m) (h2 : eout.length = 2 ^ m) (h3 : ∀ t ∈ rs ++ [rl], t.length = 2 ^ m) (hk : rs.length = (ctx.rangeBits - 1) / bl) (X gamma beta : List F) (hX : X.length = 2 ^ n)
    (hg : gamma.length = 2 ^ v) (hb : beta.length = 2 ^ v) (lp : List F) (hlp : lp.length = n) (commits : List C) (chals : List (F × F)) (hch : 2 ≤ chals.length) (ts : T.State)
    (hrel : ∀ r < 2 ^ m, 2 ^ ctx.rangeBits * ein.getD r 0 + powerSum (2 ^ bl) (rs.map fun t => t.getD r 0) + (2 ^ bl) ^ rs.length * (rl.getD r 0 / 2 ^ ctx.topLog)
      = (ctx.multiplier : F) * ((ctx.dimSize : F) * (∑ c ∈ Finset.range (2 ^ v), X.getD (r * 2 ^ v + c) 0 ^ 2) - (∑ c ∈ Finset.range (2 ^ v), X.getD (r * 2 ^ v + c) 0) ^ 2)) :
    let last : Claim F := ⟨lp, mle (normOutput n v (ctx.dimSize : F) gamma beta X eout) lp⟩
    ∃ (proof : LayerNormProof F C) (pt : List F) (ts' : T.State), proveLayerNormStep threads T p ctx n ein eout (rs ++ [rl]) X (normSums n v X) gamma beta commits chals last ts = some (proof, ⟨pt, mle X pt⟩, ts') ∧
      let sp := proof.accumulation.point
      let iop := proof.io.point
      sp.length = m ∧ iop.length = n ∧ pt.length = n ∧ proof.commitments = commits ∧
      ((∀ l ∈ proof.logupProofs, ∀ sp ∈ l.sumcheckProofs, ∀ y ∈ sp.point, ∀ j : ℕ, j ≤ 3 → y ≠ (j : F)) → (∀ r ∈ sp ++ iop ++ pt, ∀ j : ℕ, j ≤ 4 → r ≠ (j : F)) →
        ∃ ts2 ts3, verifyLayerNormFirst T bl ctx chals proof ts = some (rs.length + 1, sp, ts2) ∧ verifyLayerNormIo T p bl ctx last (rs.length + 1) proof sp ts2 = some (v, iop, ts3) ∧
        let c := (T.labelled ts3 "batching").1
        ((1 - c) * eqPoly iop pt + c * (2 ^ v * eqPoly (List.replicate v (2 : F)⁻¹ ++ iop.drop v) pt) ≠ 0 →
          verifyLayerNorm T p bl ctx chals last proof ts = some (⟨pt, mle X pt⟩,
            commits.zip ([⟨sp, mle ein sp⟩, ⟨iop.drop v, mle eout (iop.drop v)⟩] ++ (rs ++ [rl]).map fun t => (⟨sp, mle t sp⟩ : Claim F)),
            (⟨iop.take v, mle gamma (iop.take v)⟩, ⟨iop.take v, mle beta (iop.take v)⟩), ts'))) := by
  intro last
  have hc3 : ∀ k : ℕ, 0 < k → k ≤ 3 → (k : F) ≠ 0 := fun k h1 h2 => hchar k h1 (by omega)
  obtain ⟨c0, c1, cs, rfl⟩ : ∃ c0 c1 cs, chals = c0 :: c1 :: cs := by
    match chals, hch with
    | c0 :: c1 :: cs, _ => exact ⟨c0, c1, cs, rfl⟩
    | [], h => simp at h
    | [_], h => simp at h
  obtain ⟨p0, t0, ip, a1, a2, a3, -, a5⟩ := proveLogups_step T threads ht hc3 ts c0 m 2 hm [ein, eout] [[ein, eout]] rfl (by simp) (by omega) (by simp) (by simp [h1, h2])
  obtain ⟨p1, t1, rp, b1, b2, b3, -, b5⟩ := proveLogups_step T threads ht hc3 t0 c1 m 1 hm (rs ++ [rl]) ((rs ++ [rl]).map fun t => [t]) (columnGroups _) (by simp) (by omega)
    (by intro g hg; obtain ⟨t, -, rfl⟩ := List.mem_map.1 hg; rfl) h3
  have hrun := a3 _ _ (b3 _ _ (show proveLogups threads T [] t1 = some ([], t1) from rfl))
  obtain ⟨acc, io, input, ts', hp, hsp, hiop, hpt, hacc⟩ := layerNorm_run (C := C) T threads ht p bl hchar ctx hN hM hR v m n hn (by omega) (ceilLog2_of hv1 hv2) ein eout rs rl h1 h2 h3 hk X gamma beta hX hg hb ip rp lp
    a1 b1 hlp t1
  have hbh : ((rs ++ [rl]).map (trueClaim rp))[0]? = some ⟨rp, mle ((rs ++ [rl]).headD []) rp⟩ := by
    cases rs <;> rfl
  refine ⟨⟨[p0, p1], commits, acc, io, input, [mle ein acc.point, mle eout acc.point] ++ (rs ++ [rl]).map fun t => mle t acc.point,
    [mle ein acc.point, mle eout (io.point.drop v)] ++ ((rs ++ [rl]).map fun t => mle t acc.point) ++ [mle X io.point, mle (normSums n v X) io.point], mle gamma (io.point.take v), mle beta (io.point.take v)⟩,
    input.point, ts', ?_, hsp, hiop, hpt, rfl, ?_⟩
  · unfold proveLayerNormStep
    dsimp only
    rw [if_neg (by simp), show [([ein, eout], 2), (rs ++ [rl], 1)].zip (c0 :: c1 :: cs) = [(([ein, eout], 2), c0), ((rs ++ [rl], 1), c1)] by simp, hrun]
    simp only [Option.bind_eq_bind, Option.bind_some, List.getElem?_cons_zero, List.getElem?_cons_succ, a2, b2, hbh, List.map_cons, trueClaim]
    rw [hp]
    rfl
  · intro hgood hsmall
    have hver := a5 (hgood p0 (by simp)) _ _ (b5 (hgood p1 (by simp)) _ _ (show verifyLogups T [] t1 = some ([], t1) from rfl))
    have hrec : 2 ^ ctx.rangeBits * mle ein acc.point + powerSum (2 ^ bl) (rs.map fun t => mle t acc.point) + (2 ^ bl) ^ rs.length * (mle rl acc.point / 2 ^ ctx.topLog)
        = mle (normVariance m v (ctx.dimSize : F) (ctx.multiplier : F) X) acc.point := by
      rw [← mle_normRecombined m ctx.rangeBits bl ctx.topLog ein rs rl acc.point hsp]
      congr 1
      apply List.map_congr_left
      intro r hr
      exact hrel r (List.mem_range.1 hr)
    have := hacc [p0, p1] commits (c0 :: c1 :: cs) ts rfl (by
      rw [show [p0, p1].zip ((c0 :: c1 :: cs).zip [1, (ctx.rangeBits - 1) / bl + 1]) = [(p0, c0, [[ein, eout]].length), (p1, c1, ((rs ++ [rl]).map fun t => [t]).length)] by simp [hk], hver]
      rfl) hsmall [] [] (mle rl acc.point) rfl hrec
    simp only [List.append_nil] at this
    exact this

/-- C84 is false for fewer than four rows: the prover fails, whatever the columns and challenges are. -/
theorem C84_few_rows_false (T : Transcript F) (threads : ℕ) (p : ℕ) (ctx : LayerNormCtx) (m n : ℕ) (hm : m ≤ 1) (ein eout : List F) (h1 : ein.length = 2 ^ m) (h2 : eout.length = 2 ^ m) (rs : List (List F))
    (X M gamma beta : List F) (commits : List C) (chals : List (F × F)) (last : Claim F) (ts : T.State) :
    proveLayerNormStep threads T p ctx n ein eout rs X M gamma beta commits chals last ts = none := by
  unfold proveLayerNormStep
  dsimp only
  split
  · rfl
  · rename_i hlen
    obtain ⟨⟨a, b⟩, cs, rfl⟩ : ∃ c0 cs, chals = c0 :: cs := by
      cases chals with
      | nil => simp at hlen
      | cons c l => exact ⟨c, l, rfl⟩
    obtain ⟨input, g1, g2⟩ := C92_short_lookup_false T threads ts a b m 2 hm [[ein, eout]] (by simp) (by omega) (by simp) (by simp [h1, h2])
    have g1' : LogUpInput.newLookup [ein, eout] a b 2 = some input := g1
    simp only [List.zip_cons_cons, proveLogups, g1', g2, Option.bind_eq_bind, Option.bind_some, Option.bind_none]

theorem layerNormSizes_pos (bl dim : ℕ) (hbl : 1 ≤ bl) (mult : ℤ) (r t : ℕ) (h : layerNormSizes bl dim mult = some (r, t)) : 1 ≤ r := by
  unfold layerNormSizes at h
  simp only [Option.bind_eq_bind, Option.bind_eq_some_iff, Option.some.injEq, Prod.mk.injEq] at h
  obtain ⟨l, -, m, -, rb, hrb, rfl, -⟩ := h
  unfold checkedSub at hrb
  split at hrb
  · rw [Option.some.injEq] at hrb
    omega
  · simp at hrb

theorem getD_intCast (l : List ℤ) (i : ℕ) : (l.map (Int.cast : ℤ → F)).getD i 0 = ((l.getD i 0 : ℤ) : F) := by
  rw [List.getD_eq_getElem?_getD, List.getD_eq_getElem?_getD, List.getElem?_map]
  cases l[i]? <;> simp

theorem sum_intCast (f : ℕ → ℤ) (n : ℕ) : ((∑ c ∈ Finset.range n, f c : ℤ) : F) = ∑ c ∈ Finset.range n, (f c : F) := by push_cast; rfl

/-- C84, from inference to proof, part. Let `q` be a quantised layer with padded weights and let the evaluation of `2^m` rows of `2^v` numbers, at least four rows, give `run`. The columns made from `run` lead to a proof of the
true claim on the output of the evaluation, which is accepted, and the claims handed on are true of the input, the columns and the weights, unless a challenge is small or the verifier divides by zero. Missing: fewer
rows, see `C84_few_rows_false`. -/
theorem C84_inference_partial (T : Transcript F) (threads : ℕ) (ht : 0 < threads) (p bl : ℕ) (hbl : 1 ≤ bl) [CharP F p] (hchar : ∀ k : ℕ, 0 < k → k ≤ 4 → (k : F) ≠ 0) (q : QuantLayerNorm) (dim : ℕ)
    (hs : layerNormSizes bl dim q.multiplier = some (q.rangeBits, q.topLog)) (hN : q.dimSize ≤ p) (hM : q.multiplier.natAbs ≤ p) (v m : ℕ) (hm : 2 ≤ m) (hv1 : q.dimSize ≤ 2 ^ v) (hv2 : 2 ^ v < 2 * q.dimSize)
    (hg : q.gamma.length = 2 ^ v) (hb : q.beta.length = 2 ^ v) (pre : List ℕ) (hpre : pre.prod = 2 ^ m) (data : List ℤ) (hd : data.length = 2 ^ m * 2 ^ v) (lp : List F) (hlp : lp.length = v + m)
    (commits : List C) (chals : List (F × F)) (hch : 2 ≤ chals.length) (ts : T.State) :
    let toF : List ℤ → List F := List.map Int.cast
    let ctx : LayerNormCtx := ⟨q.rangeBits, q.dimSize, q.multiplier, q.topLog⟩
    ∃ run, q.evaluate ⟨pre ++ [2 ^ v], data⟩ = some run ∧
    let last : Claim F := ⟨lp, mle (toF run.output.data) lp⟩
    let columns := (q.rangeColumns bl run.rangeCheck).map toF
    ∃ (proof : LayerNormProof F C) (pt : List F) (ts' : T.State), proveLayerNormStep threads T p ctx (v + m) (toF run.lookupInput) (toF run.lookupOutput) columns (toF data) (normSums (v + m) v (toF data)) (toF q.gamma) (toF q.beta)
        commits chals last ts = some (proof, ⟨pt, mle (toF data) pt⟩, ts') ∧
      let sp := proof.accumulation.point
      let iop := proof.io.point
      sp.length = m ∧ iop.length = v + m ∧ pt.length = v + m ∧ proof.commitments = commits ∧
      ((∀ l ∈ proof.logupProofs, ∀ sp ∈ l.sumcheckProofs, ∀ y ∈ sp.point, ∀ j : ℕ, j ≤ 3 → y ≠ (j : F)) → (∀ r ∈ sp ++ iop ++ pt, ∀ j : ℕ, j ≤ 4 → r ≠ (j : F)) →
        ∃ ts2 ts3, verifyLayerNormFirst T bl ctx chals proof ts = some (columns.length, sp, ts2) ∧ verifyLayerNormIo T p bl ctx last columns.length proof sp ts2 = some (v, iop, ts3) ∧
        let c := (T.labelled ts3 "batching").1
        ((1 - c) * eqPoly iop pt + c * (2 ^ v * eqPoly (List.replicate v (2 : F)⁻¹ ++ iop.drop v) pt) ≠ 0 →
          verifyLayerNorm T p bl ctx chals last proof ts = some (⟨pt, mle (toF data) pt⟩,
            commits.zip ([⟨sp, mle (toF run.lookupInput) sp⟩, ⟨iop.drop v, mle (toF run.lookupOutput) (iop.drop v)⟩] ++ columns.map fun t => (⟨sp, mle t sp⟩ : Claim F)),
            (⟨iop.take v, mle (toF q.gamma) (iop.take v)⟩, ⟨iop.take v, mle (toF q.beta) (iop.take v)⟩), ts'))) := by
  intro toF ctx
  have h2ne : (2 : F) ≠ 0 := by have := hchar 2 (by omega) (by omega); exact_mod_cast this
  obtain ⟨run, k1, k2, k3, k4, k5, k6, k7⟩ := layerNorm_evaluate q pre (2 ^ m) (2 ^ v) (Nat.two_pow_pos v) hpre data hd hg hb _ _ (fun _ => rfl) (fun _ => rfl)
  obtain ⟨w1, w2, w3, w4⟩ := C83_witness q pre (2 ^ m) (2 ^ v) (Nat.two_pow_pos v) hpre data hd hg hb run k1
  refine ⟨run, k1, ?_⟩
  intro last columns
  obtain ⟨K, hK⟩ : ∃ K, K = (q.rangeBits - 1) / bl := ⟨_, rfl⟩
  obtain ⟨col, hcol⟩ : ∃ col : ℕ → List F, col = fun j => toF (run.rangeCheck.map fun v => (q.rangeChunks bl v).getD j 0) := ⟨_, rfl⟩
  have hcols : columns = (List.range K).map col ++ [col K] := by
    have : columns = (List.range (K + 1)).map col := by
      rw [hcol, hK]
      simp only [columns, QuantLayerNorm.rangeColumns, List.map_map]
      rfl
    rw [this, List.range_succ, List.map_append]
    rfl
  have hcoll : ∀ j, (col j).length = 2 ^ m := by intro j; rw [hcol]; simp [toF, w3]
  have hcolg : ∀ j r, r < 2 ^ m → (col j).getD r 0 = (((q.rangeChunks bl (run.rangeCheck.getD r 0)).getD j 0 : ℤ) : F) := by
    intro j r hr
    rw [hcol]
    simp only [toF]
    rw [getD_intCast]
    congr 1
    have hlt : r < run.rangeCheck.length := by rw [w3]; exact hr
    rw [List.getD_eq_getElem (l := run.rangeCheck.map _) _ (by simpa using hlt), List.getElem_map, List.getD_eq_getElem run.rangeCheck 0 hlt]
  have hX : (toF data).length = 2 ^ (v + m) := by simp [toF, hd, pow_add, mul_comm]
  have hout : toF run.output.data = normOutput (v + m) v (q.dimSize : F) (toF q.gamma) (toF q.beta) (toF data) (toF run.lookupOutput) := by
    apply list_ext_getD 0
    · simp [toF, k3, normOutput, pow_add, mul_comm]
    · intro w hw
      have hw' : w < 2 ^ m * 2 ^ v := by simpa [toF, k3] using hw
      rw [normOutput, getD_range_map' _ _ _ _ (by rw [pow_add, mul_comm]; exact hw')]
      have hi : w / 2 ^ v < 2 ^ m := (Nat.div_lt_iff_lt_mul (Nat.two_pow_pos v)).2 hw'
      have hj : w % 2 ^ v < 2 ^ v := Nat.mod_lt _ (Nat.two_pow_pos v)
      have h := k7 _ _ hi hj
      rw [Nat.div_add_mod'] at h
      simp only [toF, getD_intCast, normSum]
      rw [List.getD_eq_getElem?_getD, h, k5, getD_range_map' _ _ _ _ hi]
      simp only [Option.getD_some]
      push_cast
      ring
  have hctx : (q.rangeBits - 1) / bl = ((List.range K).map col).length := by simp [hK]
  obtain ⟨proof, pt, ts', g⟩ := C84_complete_partial T threads ht p bl hchar ctx hN hM (layerNormSizes_pos bl dim hbl _ _ _ hs) v m (v + m) rfl hm hv1 hv2 (toF run.lookupInput) (toF run.lookupOutput) ((List.range K).map col) (col K)
    (by simp [toF, w1]) (by simp [toF, w2, w1]) (by
      intro t ht'
      rcases List.mem_append.1 ht' with ht' | ht'
      · obtain ⟨j, -, rfl⟩ := List.mem_map.1 ht'
        exact hcoll j
      · rw [List.mem_singleton.1 ht']
        exact hcoll K) hctx.symm (toF data) (toF q.gamma) (toF q.beta) hX (by simp [toF, hg]) (by simp [toF, hb]) lp hlp commits chals hch ts (by
      intro r hr
      obtain ⟨u1, u2, u3⟩ := w4 r hr
      obtain ⟨low, top, c1, c2, -, c4, c5⟩ := C83_chunks bl hbl dim q hs _ u1 u2
      have hlow : ∀ j < K, (col j).getD r 0 = ((low.getD j 0 : ℤ) : F) := by
        intro j hj
        rw [hcolg j r hr, c1, List.getD_append _ _ _ _ (by rw [c2, ← hK]; exact hj)]
      have htop : (col K).getD r 0 = ((top : ℤ) : F) := by
        rw [hcolg K r hr, c1, List.getD_append_right _ _ _ _ (by rw [c2, ← hK]), c2, ← hK]
        simp
      have hps : powerSum ((2 : F) ^ bl) (((List.range K).map col).map fun t => t.getD r 0) = (((List.range low.length).map fun j => low.getD j 0 * (2 ^ bl) ^ j).sum : ℤ) := by
        rw [List.map_map, powerSum_chunks, c2, ← hK]
        have : ∀ l : List ℕ, (∀ j ∈ l, j < K) → (l.map fun j => ((fun t : List F => t.getD r 0) ∘ col) j * ((2 : F) ^ bl) ^ j).sum = ((l.map fun j => low.getD j 0 * (2 ^ bl) ^ j).sum : ℤ) := by
          intro l
          induction l with
          | nil => intro _; simp
          | cons j l ih =>
            intro hl
            simp only [List.map_cons, List.sum_cons]
            rw [ih fun i hi => hl i (List.mem_cons_of_mem _ hi)]
            simp only [Function.comp_apply, hlow j (hl j List.mem_cons_self)]
            push_cast
            rfl
        exact this _ fun j hj => List.mem_range.1 hj
      rw [hps, htop]
      obtain ⟨tq, rfl⟩ := c4
      have htq : ((2 ^ q.topLog * tq : ℤ) : F) / 2 ^ ctx.topLog = (tq : F) := by
        push_cast
        exact mul_div_cancel_left₀ _ (pow_ne_zero _ h2ne)
      rw [htq]
      rw [Int.mul_ediv_cancel_left _ (by positivity)] at c5
      simp only [toF, getD_intCast]
      have hz := congrArg (Int.cast : ℤ → F) u3
      rw [c5] at hz
      push_cast at hz
      simp only [List.length_map, List.length_range]
      rw [c2, ← hK] at hz
      rw [c2, ← hK]
      push_cast
      linear_combination hz)
  refine ⟨proof, pt, ts', ?_⟩
  have hlen : columns.length = ((List.range K).map col).length + 1 := by rw [hcols]; simp
  simp only [last]
  rw [hlen, hout, hcols]
  exact g

set_option synthInstance.maxSize 1000 in
/-- The columns of `exNormProof`, which meet the hypothesis on the columns (see `exNormIn`): the proof the prover makes has the same claims, evaluations and points as `exNormProof`, which is accepted; none of its challenges is at most four. -/
example : (proveLayerNormStep 1 (tape (ZMod 524287)) 524287 exNormCtx 3 exNormIn exNormOut ([exNormLo] ++ [exNormHi]) exNormX (normSums 3 1 exNormX) exNormGamma exNormBeta ["in", "out", "lo", "hi"] [(20, 100), (20, 1)]
      ⟨[21, 22, 23], mle (normOutput 3 1 2 exNormGamma exNormBeta exNormX exNormOut) [21, 22, 23]⟩ exNormTape).map (fun r => (r.1.logupProofs.map (·.outputClaims), r.1.accEvals, r.1.evaluations, r.1.accumulation.point, r.1.io.point, r.2))
    = some (exNormProof.logupProofs.map (·.outputClaims), exNormProof.accEvals, exNormProof.evaluations, [7, 11], [14, 13, 8], ⟨[22, 17, 15], mle exNormX [22, 17, 15]⟩, []) := by
  decide +kernel

set_option synthInstance.maxSize 1000 in
/-- It is accepted, and a wrong entry in the output makes it fail. -/
example : ((proveLayerNormStep 1 (tape (ZMod 524287)) 524287 exNormCtx 3 exNormIn exNormOut ([exNormLo] ++ [exNormHi]) exNormX (normSums 3 1 exNormX) exNormGamma exNormBeta ["in", "out", "lo", "hi"] [(20, 100), (20, 1)]
      ⟨[21, 22, 23], mle (normOutput 3 1 2 exNormGamma exNormBeta exNormX exNormOut) [21, 22, 23]⟩ exNormTape).bind fun r =>
        (verifyLayerNorm (tape (ZMod 524287)) 524287 8 exNormCtx [(20, 100), (20, 1)] ⟨[21, 22, 23], mle (normOutput 3 1 2 exNormGamma exNormBeta exNormX exNormOut) [21, 22, 23]⟩ r.1 exNormTape).map fun c =>
          (decide (c.1 = r.2.1), (verifyLayerNorm (tape (ZMod 524287)) 524287 8 exNormCtx [(20, 100), (20, 1)]
            ⟨[21, 22, 23], 1 + mle (normOutput 3 1 2 exNormGamma exNormBeta exNormX exNormOut) [21, 22, 23]⟩ r.1 exNormTape).isNone))
    = some (true, true) := by
  decide +kernel

/-- A layer for rows of two numbers, with a table that falls from 100; twelve range checked bits make two chunks. -/
def exNormLayer : QuantLayerNorm := ⟨[3, -2], [10, 20], 300, fun i => 100 - 2 * i, 2, 12, 4⟩

/-- Four rows. -/
def exNormData : List ℤ := [5, -1, 2, 9, 4, 4, -6, 11]

set_option synthInstance.maxSize 1000 in
/-- Its sizes are those of `layerNormSizes`; the rows are evaluated, the proof is made from what the evaluation left and accepted with the true claim on the rows. -/
example : layerNormSizes 8 2 exNormLayer.multiplier = some (exNormLayer.rangeBits, exNormLayer.topLog) ∧
    ((exNormLayer.evaluate ⟨[2, 2, 2], exNormData⟩).map fun run => (run.lookupInput, run.lookupOutput, run.rangeCheck, run.output.data))
      = some ([2, 3, 0, 21], [96, 94, 100, 58], [2608, 2412, 0, 684], [1738, 1172, -1964, -1296, 10, 20, -2948, -1952]) ∧
    ((exNormLayer.evaluate ⟨[2, 2, 2], exNormData⟩).bind fun run =>
      (proveLayerNormStep 1 (tape (ZMod 524287)) 524287 ⟨12, 2, 300, 4⟩ 3 (run.lookupInput.map Int.cast) (run.lookupOutput.map Int.cast) ((exNormLayer.rangeColumns 8 run.rangeCheck).map (List.map Int.cast)) (exNormData.map Int.cast)
          (normSums 3 1 (exNormData.map Int.cast)) [3, -2] [10, 20] ["in", "out", "lo", "hi"] [(20, 100), (20, 1)] ⟨[21, 22, 23], mle (run.output.data.map Int.cast) [21, 22, 23]⟩ exNormTape).bind fun r =>
        (verifyLayerNorm (tape (ZMod 524287)) 524287 8 ⟨12, 2, 300, 4⟩ [(20, 100), (20, 1)] ⟨[21, 22, 23], mle (run.output.data.map Int.cast) [21, 22, 23]⟩ r.1 exNormTape).map fun c =>
          (decide (c.1.eval = mle (exNormData.map Int.cast) c.1.point), decide (c.1 = r.2.1)))
      = some (true, true) := by
  refine ⟨?_, ?_, ?_⟩ <;> decide +kernel

end Props
