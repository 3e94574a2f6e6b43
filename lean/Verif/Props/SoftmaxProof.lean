import Verif.Lemmas.SoftmaxProof
import Verif.Props.LogUpProof
import Verif.Props.LookupLayers
import Mathlib.Algebra.Field.ZMod
import Mathlib.Tactic.NormNum.Prime

/-!
C80: what an accepted softmax proof says.
-/

namespace Props
open Model Spec Lemmas

variable {F : Type} [Field F] [DecidableEq F] {C : Type}

theorem verifySoftmax_inv (T : Transcript F) (p : ℕ) (ctx : SoftmaxCtx) (hchar : ∀ k : ℕ, 0 < k → k ≤ ctx.zeroChunks + 3 → (k : F) ≠ 0) (shape : List ℕ) (chals : List (F × F)) (last : Claim F)
    (proof : SoftmaxProof F C) (ts ts1 ts' : T.State) (claim : Claim F) (wit : List (C × Claim F)) (exp range error : List (Claim F)) (zero : List (List (Claim F)))
    (hl : verifyLogups T (proof.logupProofs.zip (chals.zip (softmaxInstances ctx.zeroChunks))) ts = some (exp :: range :: error :: zero, ts1))
    (h : verifySoftmax T p ctx shape chals last proof ts = some (claim, wit, ts')) :
    ∃ (exp0 range0 error0 : Claim F) (e : ℕ) (sp : List F) (expected zb m got eq tril shift input : F) (ts2 ts3 : T.State) (tv rows columns : ℕ) (sub2 : SubClaim F),
      exp[0]? = some exp0 ∧ range[0]? = some range0 ∧ error[0]? = some error0 ∧ e + error0.point.length = exp0.point.length ∧
      ((ctx.zeroChunks = 0 ∧ zero = []) ∨ (ctx.zeroChunks ≠ 0 ∧ ∃ z z0, zero = [z] ∧ z[0]? = some z0 ∧ eqXYEval z0.point sp = some zb)) ∧
      verify T (alphaFold (T.labelled ts1 "batching_challenge").1 ((exp ++ range ++ zero.flatten ++ error).map Claim.eval ++ [last.eval])) proof.accumulation (ctx.zeroChunks + 2) exp0.point.length
        (T.labelled ts1 "batching_challenge").2 = some (⟨sp, expected⟩, ts2) ∧
      sp.length = exp0.point.length ∧ last.point.length = sp.length ∧ range0.point.length = sp.length ∧ 0 < sp.length ∧
      proof.evaluations.length = 5 + 2 * ctx.zeroChunks ∧
      softmaxCalc ctx.zeroChunks (T.labelled ts1 "batching_challenge").1 (eqPoly exp0.point sp) (eqPoly range0.point sp) zb (eqPoly (List.replicate e (2 : F)⁻¹ ++ error0.point) sp)
        (eqPoly last.point sp) ((2 ^ e : ℕ) : F) proof.evaluations = some got ∧ expected = got ∧
      (ctx.zeroChunks ≠ 0 → ceilLog2 (ctx.bkm / 2 ^ 16).toNat = some tv) ∧
      softmaxRecombine ctx.zeroChunks ctx.zeroVars tv proof.evaluations = some m ∧
      verify T (-m) proof.mask 3 sp.length ts2 = some (sub2, ts3) ∧ sub2.point.length = sp.length ∧
      eq = eqPoly sub2.point sp ∧ shape.dropLast.getLast?.bind ceilLog2 = some rows ∧ shape.getLast?.bind ceilLog2 = some columns ∧
      tril = evalZeroifier (sub2.point.take columns) ((sub2.point.drop columns).take rows) ∧
      proof.evaluations[4]? = some shift ∧ softmaxInputEval p ctx eq tril sub2.expected shift = some input ∧
      softmaxWitness ctx.zeroChunks proof.commitments proof.evaluations sp (sub2.point.drop e) = some wit ∧ claim = ⟨sub2.point, input⟩ := by
  unfold verifySoftmax at h
  simp only [Option.bind_eq_bind, Option.bind_eq_some_iff] at h
  obtain ⟨⟨e, sp, ts2⟩, h, hmask⟩ := h
  unfold verifySoftmaxFirst at h
  have hlen := verifyLogups_length T _ _ _ _ hl
  have hinst : (softmaxInstances ctx.zeroChunks).length ≤ 4 := by unfold softmaxInstances; split <;> simp
  have hz1 : zero.length ≤ 1 := by
    simp only [List.length_cons, List.length_zip] at hlen
    omega
  have hz0 : ctx.zeroChunks = 0 → zero = [] := by
    intro h0
    have : (softmaxInstances ctx.zeroChunks).length = 3 := by rw [h0]; rfl
    simp only [List.length_cons, List.length_zip, this] at hlen
    rw [← List.length_eq_zero_iff]
    omega
  have hzero : (if (exp :: range :: error :: zero).length = 4 then (exp :: range :: error :: zero).getD 3 [] else []) = zero.flatten := by
    match zero, hz1 with
    | [], _ => simp
    | [z], _ => simp
    | _ :: _ :: _, h => simp at h
  rw [hl, Option.bind_eq_bind, Option.bind_some] at h
  dsimp only at h
  rw [hzero] at h
  rw [List.getElem?_cons_zero, Option.bind_eq_bind, Option.bind_some, List.getElem?_cons_succ, List.getElem?_cons_zero, Option.bind_eq_bind, Option.bind_some, List.getElem?_cons_succ,
    List.getElem?_cons_succ, List.getElem?_cons_zero, Option.bind_eq_bind, Option.bind_some] at h
  simp only [Option.bind_eq_bind, Option.bind_eq_some_iff] at h
  rcases hb : T.labelled ts1 "batching_challenge" with ⟨alpha, tsb⟩
  rw [hb] at h
  obtain ⟨exp0, he0, range0, hr0, error0, hq0, e', he, ⟨sub, ts2'⟩, hv, lb, hlb, eb, heb, rb, hrb, fb, hfb, zb, hzb, got, hgot, h⟩ := h
  have he' : e' + error0.point.length = exp0.point.length := by
    unfold checkedSub at he
    split at he
    · simp only [Option.some.injEq] at he; omega
    · simp at he
  have hcond : proof.evaluations.length = 5 + 2 * ctx.zeroChunks ∧ sub.expected = got := by
    by_contra hne
    rw [if_neg hne] at h
    simp at h
  obtain ⟨hEv, hgt⟩ := hcond
  rw [if_pos ⟨hEv, hgt⟩] at h
  simp only [Option.some.injEq, Prod.mk.injEq] at h
  obtain ⟨rfl, rfl, rfl⟩ := h
  have h := hmask
  unfold verifySoftmaxMask at h
  simp only [Option.bind_eq_bind, Option.bind_eq_some_iff, Option.some.injEq, Prod.mk.injEq] at h
  obtain ⟨tv, htv, m, hm, ⟨sub2, ts3⟩, hv2, eq, heq, rows, hrows, columns, hcols, shift, hshift, input, hinput, w, hw, hcl, hww, -⟩ := h
  obtain ⟨hne, hl1, rfl⟩ := eqXYEval_inv hlb
  obtain ⟨-, hl2, rfl⟩ := eqXYEval_inv heb
  obtain ⟨-, hl3, rfl⟩ := eqXYEval_inv hrb
  obtain ⟨-, hl4, rfl⟩ := eqXYEval_inv hfb
  obtain ⟨-, hl5, heq'⟩ := eqXYEval_inv heq
  have hz : (ctx.zeroChunks = 0 ∧ zero = []) ∨ (ctx.zeroChunks ≠ 0 ∧ ∃ z z0, zero = [z] ∧ z[0]? = some z0 ∧ eqXYEval z0.point sub.point = some zb) := by
    by_cases h0 : ctx.zeroChunks = 0
    · exact Or.inl ⟨h0, hz0 h0⟩
    · right
      refine ⟨h0, ?_⟩
      unfold softmaxZeroBeta at hzb
      rw [if_pos h0] at hzb
      simp only [Option.bind_eq_some_iff] at hzb
      obtain ⟨z0, ⟨z, hz, hzf⟩, hzz⟩ := hzb
      match zero, hz1, hz with
      | [], _, hz => simp at hz
      | [z'], _, hz =>
        have hz' : z' = z := by simpa using hz
        exact ⟨z', z0, rfl, by rw [hz']; exact hzf, hzz⟩
  have hdeg : (if (exp :: range :: error :: zero).length = 4 then ctx.zeroChunks + 2 else 2) = ctx.zeroChunks + 2 := by
    rcases hz with ⟨h0, rfl⟩ | ⟨-, z, z0, rfl, -⟩
    · rw [h0]; simp
    · simp
  rw [hdeg] at hv
  refine ⟨exp0, range0, error0, e', sub.point, sub.expected, zb, m, got, eq, _, shift, input, ts2', ts3, tv, rows, columns, sub2, he0, hr0, hq0, he', hz, ?_, hl2.symm, hl1, hl3,
    ?_, hEv, hgot, hgt, ?_, hm, hv2, hl5, heq', by rw [Option.bind_eq_some_iff]; exact hrows, by rw [Option.bind_eq_some_iff]; exact hcols, rfl, hshift, hinput, ?_, hcl.symm⟩
  · exact hv
  · rw [← hl1]; exact List.length_pos_of_ne_nil hne
  · intro h0; unfold softmaxTableVars at htv; rw [if_pos h0] at htv; exact htv
  · rw [hw, hww]

/-- C80, part. If the verifier accepts, and the evaluations in the proof are those of columns `ein`, `eout` (index and value looked up in the table of the exponential), `lo`, `hi` (range checked digits), `zs`
(pairs looked up in the zero table) at the point `sp` of the first sumcheck and of a column `shift` at the rest of the returned point, then unless the prover was lucky in a sumcheck:

* the differences between the columns and the looked-up values, at the lookup points, the difference between the sums of blocks of `2^e` outputs and the value looked up in the error table, and the
  difference between the output and the output claim are combined to zero by the batching challenge (by `C38_batch_error` this happens for few challenges unless all are zero); `e` is the number of
  variables by which the first lookup exceeds the third;
* if the returned claim is true of `X`, the digits recombine to minus the masked scores: `X` rescaled and shifted in the visible part, minus infinity elsewhere.

Missing: that the lookup points are those of the verifier (C16), that the evaluations are bound to commitments, which is false, see `C80_unopened_false`, and that `2^e` is the number of columns, which is
false, see `C80_after_lookups_partial`, where `e` is free. -/
theorem C80_softmax_partial (T : Transcript F) (p : ℕ) [CharP F p] (ctx : SoftmaxCtx) (hchar : ∀ k : ℕ, 0 < k → k ≤ ctx.zeroChunks + 3 → (k : F) ≠ 0) (shape : List ℕ) (chals : List (F × F))
    (last : Claim F) (proof : SoftmaxProof F C) (ts ts1 ts' : T.State) (claim : Claim F) (wit : List (C × Claim F)) (exp range error : List (Claim F)) (zero : List (List (Claim F)))
    (hl : verifyLogups T (proof.logupProofs.zip (chals.zip (if ctx.zeroChunks ≠ 0 then [1, 2, 1, ctx.zeroChunks] else [1, 2, 1]))) ts = some (exp :: range :: error :: zero, ts1))
    (h : verifySoftmax T p ctx shape chals last proof ts = some (claim, wit, ts')) :
    ∃ sp : List F, sp.length = claim.point.length ∧ ∀ (ein eout lo hi shift : List F) (zs : List (List F × List F)) (x0 x1 r0 r1 b : F) (ez ep rp ap zp : List F),
      exp.map Claim.eval = [x0, x1] → (exp.map Claim.point).head? = some ep → range.map Claim.eval = [r0, r1] → (range.map Claim.point).head? = some rp →
      error.map Claim.eval = [b] → (error.map Claim.point).head? = some ap → zero.flatten.map Claim.eval = ez → ez.length = 2 * zs.length →
      (zs ≠ [] → (zero.flatten.map Claim.point).head? = some zp) → zs.length = ctx.zeroChunks →
      proof.evaluations = [mle ein sp, mle eout sp, mle lo sp, mle hi sp, mle shift (claim.point.drop (ep.length - ap.length))] ++ (zs.flatMap fun z => [mle z.1 sp, mle z.2 sp]) →
      let n := ep.length
      let e := ep.length - ap.length
      let alpha := (T.labelled ts1 "batching_challenge").1
      sp.length = n ∧ e + ap.length = n ∧
      (powerSum alpha ([mle ein ep - x0, mle eout ep - x1, mle lo rp - r0, mle hi rp - r1] ++ List.zipWith (· - ·) (zs.flatMap fun z => [mle z.1 zp, mle z.2 zp]) ez
          ++ [mle (blockSums ap.length e (softmaxOut n eout zs)) ap - b, mle (softmaxOut n eout zs) last.point - last.eval]) = 0
        ∨ LuckyRound (ctx.zeroChunks + 2) n (softmaxSum alpha ep rp zp (List.replicate e (2 : F)⁻¹ ++ ap) last.point (2 ^ e) ein eout lo hi zs) proof.accumulation.proofs sp) ∧
      ∀ (k a tv : ℕ) (pre : List ℕ) (X : List F), shape = pre ++ [2 ^ k, 2 ^ k] → n = k + k + a → ctx.scalar.natAbs ≤ p → (-(ctx.bkm / 2 ^ 16 + 1) * 2 ^ 16).natAbs ≤ p →
        (ctx.zeroChunks ≠ 0 → (ctx.bkm / 2 ^ 16).toNat ≤ 2 ^ tv ∧ 2 ^ tv < 2 * (ctx.bkm / 2 ^ 16).toNat) →
        claim.eval = mle X claim.point →
        mle (recombined n tv ctx.zeroVars ein lo hi zs) sp = -mle (maskedScores n k e (ctx.scalar : F) ((-(ctx.bkm / 2 ^ 16 + 1) * 2 ^ 16 : ℤ) : F) X shift) sp
        ∨ LuckyRound 3 n (maskSum n k e sp (ctx.scalar : F) ((-(ctx.bkm / 2 ^ 16 + 1) * 2 ^ 16 : ℤ) : F) X shift) proof.mask.proofs claim.point := by
  obtain ⟨exp0, range0, error0, e, sp, expected, zb, m, got, eq, tril, shiftv, input, ts2, ts3, tv, rows, columns, sub2, he0, hr0, hq0, he, hz, hv, hsp, hlast, hrange, hpos, hEv, hgot, hexp,
    htv, hm, hv2, hsub2, heq, hrows, hcols, htril, hshiftv, hinput, hwit, rfl⟩ := verifySoftmax_inv T p ctx hchar shape chals last proof ts ts1 ts' claim wit exp range error zero hl h
  refine ⟨sp, hsub2.symm, ?_⟩
  intro ein eout lo hi shift zs x0 x1 r0 r1 b ez ep rp ap zp hx hep hr hrp hb hap hez hezl hzp hzs hev
  have head : ∀ (l : List (Claim F)) (c : Claim F) (q : List F), l[0]? = some c → (l.map Claim.point).head? = some q → c.point = q := by
    intro l c q h1 h2
    cases l with
    | nil => simp at h1
    | cons y l => simp at h1 h2; rw [← h1, ← h2]
  have hep' := head _ _ _ he0 hep
  have hrp' := head _ _ _ hr0 hrp
  have hap' := head _ _ _ hq0 hap
  rw [hep', hap'] at he
  have hee : ep.length - ap.length = e := by omega
  intro n e' alpha
  have hn : n = ep.length := rfl
  have he'' : e' = e := hee
  have hal : (T.labelled ts1 "batching_challenge").1 = alpha := rfl
  rw [hee] at hev
  rw [hal] at hgot hv
  rw [hep'] at hsp hv hgot
  rw [hrp'] at hrange hgot
  rw [hap'] at hgot
  have h2 : (2 : F) ≠ 0 := by have := hchar 2 (by omega) (by omega); exact_mod_cast this
  have hzpl : zs ≠ [] → zp.length = n ∧ zb = eqPoly zp sp := by
    intro hne
    rcases hz with ⟨h0, -⟩ | ⟨h0, z, z0, rfl, hz0, hzz⟩
    · exact absurd (List.length_eq_zero_iff.mp (hzs.trans h0)) hne
    · have := hzp hne
      rw [List.flatten_cons, List.flatten_nil, List.append_nil] at this
      obtain ⟨-, h1, h2⟩ := eqXYEval_inv hzz
      rw [head _ _ _ hz0 this] at h1 h2
      exact ⟨by rw [h1, hsp], h2⟩
  have hzsp : (zs.flatMap fun z => [mle z.1 sp, mle z.2 sp]) = (zs.map fun z => (mle z.1 sp, mle z.2 sp)).flatMap fun z => [z.1, z.2] := by
    rw [List.flatMap_map]
  rw [hev, ← hzs, hzsp, show zs.length = (zs.map fun z => (mle z.1 sp, mle z.2 sp)).length by simp, softmaxCalc_eq, Option.some.injEq] at hgot
  rw [hev, ← hzs, hzsp, show zs.length = (zs.map fun z => (mle z.1 sp, mle z.2 sp)).length by simp, softmaxRecombine_eq, Option.some.injEq] at hm
  rw [he'']
  refine ⟨hsp, by omega, ?_, ?_⟩
  · have hg : expected = softmaxSum alpha ep rp zp (List.replicate e (2 : F)⁻¹ ++ ap) last.point (2 ^ e) ein eout lo hi zs sp := by
      rw [hexp, ← hgot]
      unfold softmaxSum
      rw [List.flatMap_map, List.map_map]
      have : (zs.flatMap fun z => [zb * mle z.1 sp, zb * mle z.2 sp]) = zs.flatMap fun z => [eqPoly zp sp * mle z.1 sp, eqPoly zp sp * mle z.2 sp] := by
        cases zs with
        | nil => rfl
        | cons z l => rw [(hzpl (by simp)).2]
      push_cast
      rw [← this]
      rfl
    rcases (accepted_sound T (ctx.zeroChunks + 2) n (fun k h1 h2 => hchar k h1 (by omega)) _ _ _ _ _ _ hv hg).2 with hsc | hlucky
    · left
      have hzl : (zs.flatMap fun z => [mle z.1 zp, mle z.2 zp]).length = ez.length := by
        rw [hezl]
        simp [mul_comm]
      rw [cubeSum_softmaxSum h2 alpha n e ep rp zp ap last.point rfl (by rw [hrange, hsp]) he (by rw [hlast, hsp]) ein eout lo hi zs fun hne => (hzpl hne).1] at hsc
      rw [alphaFold_eq] at hsc
      simp only [List.map_append, hx, hr, hez, hb] at hsc
      have key : ([mle ein ep - x0, mle eout ep - x1, mle lo rp - r0, mle hi rp - r1] ++ List.zipWith (· - ·) (zs.flatMap fun z => [mle z.1 zp, mle z.2 zp]) ez
          ++ [mle (blockSums ap.length e (softmaxOut n eout zs)) ap - b, mle (softmaxOut n eout zs) last.point - last.eval])
        = List.zipWith (· - ·) ([mle ein ep, mle eout ep, mle lo rp, mle hi rp] ++ (zs.flatMap fun z => [mle z.1 zp, mle z.2 zp])
            ++ [mle (blockSums ap.length e (softmaxOut n eout zs)) ap, mle (softmaxOut n eout zs) last.point])
          ([x0, x1] ++ [r0, r1] ++ ez ++ [b] ++ [last.eval]) := by
        rw [show [x0, x1] ++ [r0, r1] ++ ez ++ [b] ++ [last.eval] = [x0, x1, r0, r1] ++ ez ++ [b, last.eval] by simp,
          List.zipWith_append (by simp [hzl]), List.zipWith_append (by simp)]
        rfl
      rw [key, powerSum_zip_sub _ _ _ (by simp only [List.length_append, hzl, List.length_cons, List.length_nil]), hsc, sub_self]
    · exact Or.inr hlucky
  · intro k a tv' pre X hshape hna hsc hni htv' hcl
    obtain ⟨hk1, hk2⟩ : columns = k ∧ rows = k := by
      rw [hshape] at hrows hcols
      simp only [List.getLast?_append, List.getLast?_cons_cons, List.getLast?_singleton, Option.some_or, Option.bind_some] at hcols
      rw [ceilLog2_pow, Option.some.injEq] at hcols
      rw [show pre ++ [2 ^ k, 2 ^ k] = (pre ++ [2 ^ k]) ++ [2 ^ k] by simp, List.dropLast_concat] at hrows
      simp only [List.getLast?_append, List.getLast?_singleton, Option.some_or, Option.bind_some] at hrows
      rw [ceilLog2_pow, Option.some.injEq] at hrows
      exact ⟨hcols.symm, hrows.symm⟩
    subst hk1
    have hk2' : rows = columns := hk2
    rw [hk2'] at htril
    have hpl : sub2.point.length = columns + columns + a := by rw [hsub2, hsp, ← hna]
    have htril' : tril = mle (causal n columns) sub2.point := by
      rw [htril, hna, mle_causal columns a _ hpl]
    have hex : sub2.expected = maskSum n columns e sp (ctx.scalar : F) ((-(ctx.bkm / 2 ^ 16 + 1) * 2 ^ 16 : ℤ) : F) X shift sub2.point := by
      have hsv : shiftv = mle shift (sub2.point.drop e) := by rw [hev] at hshiftv; simpa using hshiftv.symm
      unfold softmaxInputEval checkedInv at hinput
      rw [toField_eq_cast p _ hsc, toField_eq_cast p _ hni] at hinput
      by_cases hA : eq * tril = 0
      · rw [if_pos hA] at hinput; simp at hinput
      by_cases hB : (ctx.scalar : F) = 0
      · rw [if_pos hB] at hinput; simp at hinput
      rw [if_neg hA, if_neg hB] at hinput
      simp only [Option.bind_eq_bind, Option.bind_some, Option.some.injEq] at hinput
      have hcl' : input = mle X sub2.point := hcl
      rw [hcl', ← div_eq_mul_inv, ← div_eq_mul_inv, div_eq_iff hB, sub_eq_iff_eq_add, div_eq_iff hA] at hinput
      unfold maskSum
      rw [← htril', ← hsv, eqPoly_comm' sp, ← heq]
      linear_combination hinput
    have hmm : -m = -mle (recombined n tv' ctx.zeroVars ein lo hi zs) sp := by
      rw [mle_recombined n tv' ctx.zeroVars ein lo hi zs sp hsp, ← hm, List.map_map]
      cases hzz : zs with
      | nil => simp [powerSum]
      | cons z l =>
        have hK : ctx.zeroChunks ≠ 0 := by rw [← hzs, hzz]; simp
        obtain ⟨h3, h4⟩ := ceilLog2_spec (htv hK)
        obtain ⟨h5, h6⟩ := htv' hK
        have : tv = tv' := by
          rcases lt_trichotomy tv tv' with hlt | heq | hlt
          · have := Nat.pow_le_pow_right (n := 2) (by omega) (Nat.succ_le_of_lt hlt); rw [Nat.succ_eq_add_one, pow_succ] at this; omega
          · exact heq
          · have := Nat.pow_le_pow_right (n := 2) (by omega) (Nat.succ_le_of_lt hlt); rw [Nat.succ_eq_add_one, pow_succ] at this; omega
        rw [this]
        rfl
    have hv2' : verify T (-m) proof.mask 3 n ts2 = some (sub2, ts3) := by rw [show n = sp.length from hsp.symm]; exact hv2
    rcases (accepted_sound T 3 n (fun k h1 h2 => hchar k h1 (by omega)) _ _ _ _ _ _ hv2' hex).2 with hsc' | hlucky
    · left
      rw [cubeSum_maskSum n columns e (by omega) sp hsp, hmm] at hsc'
      rw [← hsc', neg_neg]
    · exact Or.inr hlucky

theorem verifySoftmax_intro (T : Transcript F) (p : ℕ) (ctx : SoftmaxCtx) (shape : List ℕ) (chals : List (F × F)) (last : Claim F) (proof : SoftmaxProof F C) (ts ts1 ts2 : T.State)
    (exp range error : List (Claim F)) (zero : List (List (Claim F))) (hl : verifyLogups T (proof.logupProofs.zip (chals.zip (softmaxInstances ctx.zeroChunks))) ts = some (exp :: range :: error :: zero, ts1))
    (exp0 range0 error0 : Claim F) (he0 : exp[0]? = some exp0)
    (hr0 : range[0]? = some range0) (hq0 : error[0]? = some error0) (e : ℕ) (he : checkedSub exp0.point.length error0.point.length = some e) (alpha : F) (tsb : T.State)
    (hb : T.labelled ts1 "batching_challenge" = (alpha, tsb)) (sp : List F) (got lb eb rb fb zb : F)
    (hz : (ctx.zeroChunks = 0 ∧ zero = []) ∨ (ctx.zeroChunks ≠ 0 ∧ ∃ z z0, zero = [z] ∧ z[0]? = some z0 ∧ eqXYEval z0.point sp = some zb))
    (hv : verify T (alphaFold alpha ((exp ++ range ++ zero.flatten ++ error).map Claim.eval ++ [last.eval])) proof.accumulation (ctx.zeroChunks + 2) exp0.point.length tsb = some (⟨sp, got⟩, ts2))
    (h1 : eqXYEval last.point sp = some lb) (h2 : eqXYEval exp0.point sp = some eb) (h3 : eqXYEval range0.point sp = some rb)
    (h4 : eqXYEval (List.replicate e (2 : F)⁻¹ ++ error0.point) sp = some fb)
    (hc : softmaxCalc ctx.zeroChunks alpha eb rb zb fb lb ((2 ^ e : ℕ) : F) proof.evaluations = some got) (hlen : proof.evaluations.length = 5 + 2 * ctx.zeroChunks) :
    verifySoftmax T p ctx shape chals last proof ts = verifySoftmaxMask T p ctx shape e proof sp ts2 := by
  suffices hf : verifySoftmaxFirst T ctx chals last proof ts = some (e, sp, ts2) by
    unfold verifySoftmax
    rw [hf]
    rfl
  unfold verifySoftmaxFirst
  rw [hl, Option.bind_eq_bind, Option.bind_some]
  dsimp only
  rw [List.getElem?_cons_zero, Option.bind_eq_bind, Option.bind_some, List.getElem?_cons_succ, List.getElem?_cons_zero, Option.bind_eq_bind, Option.bind_some,
    List.getElem?_cons_succ, List.getElem?_cons_succ, List.getElem?_cons_zero, Option.bind_eq_bind, Option.bind_some, hb]
  dsimp only
  simp only [Option.bind_eq_bind]
  rw [he0, Option.bind_some, hr0, Option.bind_some, hq0, Option.bind_some, he, Option.bind_some]
  rcases hz with ⟨hK, rfl⟩ | ⟨hK, z, z0, rfl, hz0, hzb⟩
  · rw [hK] at hv hc hlen ⊢
    rw [List.flatten_nil] at hv
    rw [if_neg (by simp), if_neg (by simp), hv, Option.bind_some]
    dsimp only
    rw [h1, Option.bind_some, h2, Option.bind_some, h3, Option.bind_some, h4, Option.bind_some,
      show softmaxZeroBeta 0 [exp, range, error] sp = some (0 : F) from rfl, Option.bind_some, show softmaxCalc 0 alpha eb rb 0 fb lb ((2 ^ e : ℕ) : F) proof.evaluations = some got from hc,
      Option.bind_some, if_pos ⟨hlen, rfl⟩]
  · rw [List.flatten_singleton] at hv
    rw [if_pos (by simp), if_pos (by simp), show [exp, range, error, z].getD 3 [] = z from rfl, hv, Option.bind_some]
    dsimp only
    rw [h1, Option.bind_some, h2, Option.bind_some, h3, Option.bind_some, h4, Option.bind_some,
      show softmaxZeroBeta ctx.zeroChunks [exp, range, error, z] sp = some zb by unfold softmaxZeroBeta; rw [if_pos hK]; simp [hz0, hzb], Option.bind_some, hc,
      Option.bind_some, if_pos ⟨hlen, rfl⟩]

theorem verifySoftmaxMask_intro (T : Transcript F) (p : ℕ) (ctx : SoftmaxCtx) (k tv : ℕ) (htv : softmaxTableVars ctx = some tv) (pre : List ℕ) (e : ℕ) (proof : SoftmaxProof F C) (sp : List F) (ts ts' : T.State) (m : F)
    (hm : softmaxRecombine ctx.zeroChunks ctx.zeroVars tv proof.evaluations = some m) (mp : List F) (expected eq shift input : F) (hv : verify T (-m) proof.mask 3 sp.length ts = some (⟨mp, expected⟩, ts'))
    (heq : eqXYEval mp sp = some eq) (hs : proof.evaluations[4]? = some shift) (hi : softmaxInputEval p ctx eq (evalZeroifier (mp.take k) ((mp.drop k).take k)) expected shift = some input)
    (wit : List (C × Claim F)) (hw : softmaxWitness ctx.zeroChunks proof.commitments proof.evaluations sp (mp.drop e) = some wit) :
    verifySoftmaxMask T p ctx (pre ++ [2 ^ k, 2 ^ k]) e proof sp ts = some (⟨mp, input⟩, wit, ts') := by
  have hc : (pre ++ [2 ^ k, 2 ^ k]).getLast?.bind ceilLog2 = some k := by
    simp only [List.getLast?_append, List.getLast?_cons_cons, List.getLast?_singleton, Option.some_or, Option.bind_some]
    exact ceilLog2_pow k
  have hr : (pre ++ [2 ^ k, 2 ^ k]).dropLast.getLast?.bind ceilLog2 = some k := by
    rw [show pre ++ [2 ^ k, 2 ^ k] = (pre ++ [2 ^ k]) ++ [2 ^ k] by simp, List.dropLast_concat]
    simp only [List.getLast?_append, List.getLast?_singleton, Option.some_or, Option.bind_some]
    exact ceilLog2_pow k
  unfold verifySoftmaxMask
  rw [htv, hr, hc]
  simp only [Option.bind_eq_bind]
  rw [Option.bind_some, hm, Option.bind_some, hv, Option.bind_some]
  dsimp only
  rw [heq, Option.bind_some, Option.bind_some, Option.bind_some, hs, Option.bind_some, hi, Option.bind_some, hw, Option.bind_some]

theorem softmaxTableVars_chunks (scalar bkm : ℤ) (zv tv : ℕ) (zs : List (List F × List F)) (htv : zs ≠ [] → ceilLog2 (bkm / 2 ^ 16).toNat = some tv) :
    ∃ tv', softmaxTableVars ⟨scalar, bkm, zs.length, zv⟩ = some tv' ∧ (zs ≠ [] → tv' = tv) := by
  cases zs with
  | nil => exact ⟨0, by unfold softmaxTableVars; rw [if_neg (by simp)], fun h => absurd rfl h⟩
  | cons z l =>
    refine ⟨tv, ?_, fun _ => rfl⟩
    unfold softmaxTableVars
    rw [if_pos (by simp)]
    exact htv (by simp)

theorem softmaxWitness_eq (zs : List (List F × List F)) (cs : List C) (hcs : cs.length = 5 + 2 * zs.length) (e0 e1 e2 e3 e4 : F) (sp q : List F) :
    softmaxWitness zs.length cs ([e0, e1, e2, e3, e4] ++ (zs.flatMap fun z => [mle z.1 sp, mle z.2 sp])) sp q
      = some (cs.zip ([⟨sp, e0⟩, ⟨sp, e1⟩, ⟨sp, e2⟩, ⟨sp, e3⟩, ⟨q, e4⟩] ++ zs.flatMap fun z => [⟨sp, mle z.1 sp⟩, ⟨sp, mle z.2 sp⟩])) := by
  obtain ⟨c0, c1, c2, c3, c4, cs', rfl⟩ : ∃ c0 c1 c2 c3 c4 cs', cs = c0 :: c1 :: c2 :: c3 :: c4 :: cs' := by
    match cs, hcs with
    | c0 :: c1 :: c2 :: c3 :: c4 :: cs', _ => exact ⟨c0, c1, c2, c3, c4, cs', rfl⟩
    | [], h => simp only [List.length_nil] at h; omega
    | [_], h => simp only [List.length_cons, List.length_nil] at h; omega
    | [_, _], h => simp only [List.length_cons, List.length_nil] at h; omega
    | [_, _, _], h => simp only [List.length_cons, List.length_nil] at h; omega
    | [_, _, _, _], h => simp only [List.length_cons, List.length_nil] at h; omega
  have hzl' : (zs.flatMap fun z => [mle z.1 sp, mle z.2 sp]).map (fun e => (⟨sp, e⟩ : Claim F)) = zs.flatMap fun z => [⟨sp, mle z.1 sp⟩, ⟨sp, mle z.2 sp⟩] := by
    rw [List.map_flatMap]; rfl
  unfold softmaxWitness
  simp only [List.cons_append, List.nil_append, List.getElem?_cons_succ, List.getElem?_cons_zero, Option.bind_eq_bind, Option.bind_some, List.map_cons, List.zip_cons_cons, List.take_succ_cons,
    List.take_zero, List.drop_succ_cons, List.drop_zero, hzl', Option.some.injEq]
  cases zs with
  | nil => simp
  | cons z l => rw [if_pos (by simp)]

theorem softmax_zero_claims (zs : List (List F × List F)) (n : ℕ) (hn : 0 < n) (zp sp : List F) (hzp : zs ≠ [] → zp.length = n) (hsp : sp.length = n) :
    let zero : List (List (Claim F)) := if zs.isEmpty then [] else [zs.flatMap fun z => [⟨zp, mle z.1 zp⟩, ⟨zp, mle z.2 zp⟩]]
    zero.flatten = (zs.flatMap fun z => [⟨zp, mle z.1 zp⟩, ⟨zp, mle z.2 zp⟩]) ∧
      ((zs.length = 0 ∧ zero = []) ∨ (zs.length ≠ 0 ∧ ∃ z z0, zero = [z] ∧ z[0]? = some z0 ∧ eqXYEval z0.point sp = some (eqPoly zp sp))) := by
  cases zs with
  | nil => exact ⟨rfl, Or.inl ⟨rfl, rfl⟩⟩
  | cons z l =>
    have h := hzp (by simp)
    refine ⟨by simp, Or.inr ⟨by simp, _, ⟨zp, mle z.1 zp⟩, rfl, by simp, eqXYEval_eq _ _ ?_ (by rw [h, hsp])⟩⟩
    intro h0
    rw [show zp = [] from h0] at h
    simp at h
    omega

/-- C80, the honest prover after the lookup proofs, and the verifier if it accepts those and their claims are true, part: for at most three zero chunks. The blocks summed by the error check have any size `2^e`: nothing ties it to the length `2^k` of a row. -/
theorem C80_after_lookups_partial (T : Transcript F) (threads : ℕ) (ht : 0 < threads) (p : ℕ) [CharP F p] (zs : List (List F × List F)) (hK : zs.length ≤ 3)
    (hchar : ∀ k : ℕ, 0 < k → k ≤ zs.length + 3 → (k : F) ≠ 0) (scalar bkm : ℤ) (hs : scalar.natAbs ≤ p)
    (hb : (-(bkm / 2 ^ 16 + 1) * 2 ^ 16).natAbs ≤ p) (zv tv k a e n : ℕ) (htv : zs ≠ [] → ceilLog2 (bkm / 2 ^ 16).toNat = some tv) (hn : n = k + k + a) (he : e < n)
    (ein eout lo hi shift X : List F) (h1 : ein.length = 2 ^ n) (h2 : eout.length = 2 ^ n)
    (h3 : lo.length = 2 ^ n) (h4 : hi.length = 2 ^ n) (hzl : ∀ z ∈ zs, z.1.length = 2 ^ n ∧ z.2.length = 2 ^ n) (h5 : shift.length = 2 ^ (n - e)) (ninf : F)
    (hninf : ninf = ((-(bkm / 2 ^ 16 + 1) * 2 ^ 16 : ℤ) : F))
    (hrel : ∀ w < 2 ^ n, (recombined n tv zv ein lo hi zs).getD w 0
      = -(if w % 2 ^ k ≤ w / 2 ^ k % 2 ^ k then (scalar : F) * X.getD w 0 + shift.getD (w / 2 ^ e) 0 else ninf))
    (ep rp ap zp lp : List F) (hep : ep.length = n) (hrp : rp.length = n) (hap : ap.length = n - e) (hzp : zs ≠ [] → zp.length = n) (hlp : lp.length = n) (ts1 : T.State) :
    let shifted := (List.range (2 ^ n)).map fun w => (scalar : F) * X.getD w 0 + shift.getD (w / 2 ^ e) 0
    let bias := (List.range (2 ^ n)).map fun w => if w % 2 ^ k ≤ w / 2 ^ k % 2 ^ k then 0 else ninf
    let last : Claim F := ⟨lp, mle (softmaxOut n eout zs) lp⟩
    ∃ acc mask evals pt ts', proveSoftmax threads T n ein eout lo hi zs shift shifted (causal n k) bias (n - e) ep rp ap zp last ts1 = some (acc, mask, evals, ⟨pt, scalar * mle X pt⟩, ts') ∧
      mask.point = pt ∧ pt.length = n ∧
      ∀ (pre : List ℕ) (logups : List (LogUpProof F)) (cs : List C) (chals : List (F × F)) (ts : T.State), cs.length = 5 + 2 * zs.length →
      verifyLogups T (logups.zip (chals.zip (softmaxInstances zs.length))) ts
        = some ([[⟨ep, mle ein ep⟩, ⟨ep, mle eout ep⟩], [⟨rp, mle lo rp⟩, ⟨rp, mle hi rp⟩], [⟨ap, mle (blockSums (n - e) e (softmaxOut n eout zs)) ap⟩]]
          ++ (if zs.isEmpty then [] else [zs.flatMap fun z => [⟨zp, mle z.1 zp⟩, ⟨zp, mle z.2 zp⟩]]), ts1) →
      ((∀ r ∈ acc.point ++ pt, ∀ j : ℕ, j ≤ zs.length + 3 → r ≠ (j : F)) → eqPoly pt acc.point ≠ 0 → mle (causal n k) pt ≠ 0 → (scalar : F) ≠ 0 →
        verifySoftmax T p ⟨scalar, bkm, zs.length, zv⟩ (pre ++ [2 ^ k, 2 ^ k]) chals last ⟨logups, cs, acc, mask, evals⟩ ts
          = some (⟨pt, mle X pt⟩, cs.zip ([⟨acc.point, mle ein acc.point⟩, ⟨acc.point, mle eout acc.point⟩, ⟨acc.point, mle lo acc.point⟩, ⟨acc.point, mle hi acc.point⟩,
            ⟨pt.drop e, mle shift (pt.drop e)⟩] ++ zs.flatMap fun z => [⟨acc.point, mle z.1 acc.point⟩, ⟨acc.point, mle z.2 acc.point⟩]), ts')) := by
  intro shifted bias last
  have hsl : shifted.length = 2 ^ n := by simp [shifted]
  have hbl : bias.length = 2 ^ n := by simp [bias]
  have hcl : (causal (F := F) n k).length = 2 ^ n := by simp [causal]
  have hsub : checkedSub ep.length ap.length = some e := by unfold checkedSub; rw [if_pos (by omega)]; congr 1; omega
  rcases hb' : T.labelled ts1 "batching_challenge" with ⟨alpha, tsb⟩
  have hfull : (List.replicate e (2 : F)⁻¹ ++ ap).length = n := by rw [List.length_append, List.length_replicate]; omega
  obtain ⟨heap, hheap⟩ : ∃ heap : ℕ → Mle F, heap = fun a => ⟨n, (softmaxTables ein eout lo hi zs ep rp zp (List.replicate e (2 : F)⁻¹ ++ ap) lp).getD a eout⟩ := ⟨_, rfl⟩
  have htab : ∀ a, (heap a).numVars = n ∧ (heap a).evals.length = 2 ^ n := by
    intro a
    rw [hheap]
    exact ⟨rfl, softmaxTables_length n ein eout lo hi zs ep rp zp _ lp h1 h2 h3 h4 hzl hep hrp hzp hfull hlp a⟩
  obtain ⟨vp, hvp, hvp'⟩ := Option.map_eq_some_iff.mp (buildVP_softmaxTerms heap n zs.length hK (fun a => (htab a).1) alpha ((2 ^ e : ℕ) : F))
  have hdeg : vp.maxDegree = zs.length + 2 := congrArg Prod.fst hvp'
  have hflat : vp.flattened = if zs.length = 0 then [0, 1, 2, 3, 4, 5, 6, 7, 9, 8] else List.range (10 + 3 * zs.length) := congrArg Prod.snd hvp'
  obtain ⟨acc, ts2, hprove, hapl, hver⟩ := proveTerms_spec T threads ht heap n htab (softmaxTerms alpha ((2 ^ e : ℕ) : F) zs.length) (by simp [softmaxTerms]) (softmaxTerms_short _ _ _ hK) vp hvp
    (fun k h1 h2 => hchar k h1 (by omega)) tsb
  obtain ⟨v0, v2, v3, v5, vz⟩ := softmaxTables_evals ein eout lo hi zs hK ep rp zp (List.replicate e (2 : F)⁻¹ ++ ap) lp acc.point
  have hevs : vp.flattened.map (fun a => mle (heap a).evals acc.point)
      = (if zs.length = 0 then [0, 1, 2, 3, 4, 5, 6, 7, 9, 8] else List.range (10 + 3 * zs.length)).map fun a => mle ((softmaxTables ein eout lo hi zs ep rp zp (List.replicate e (2 : F)⁻¹ ++ ap) lp).getD a eout) acc.point := by
    rw [hflat, hheap]
  rw [hevs] at hprove
  obtain ⟨heap2, hheap2⟩ : ∃ heap2 : ℕ → Mle F, heap2 = fun a => ⟨n, [shifted, causal n k, bias].getD a (computeBetas acc.point)⟩ := ⟨_, rfl⟩
  have htab2 : ∀ a, (heap2 a).numVars = n ∧ (heap2 a).evals.length = 2 ^ n := by
    intro a
    rw [hheap2]
    refine ⟨rfl, ?_⟩
    match a with
    | 0 => simpa using hsl
    | 1 => simpa using hcl
    | 2 => simpa using hbl
    | a + 3 => simp [computeBetas_length, hapl]
  obtain ⟨mask, ts3, hprove2, hmpl, hver2⟩ := proveTerms_spec T threads ht heap2 n htab2 [(1, [0, 1, 3]), (1, [2, 3])] (by simp) (by simp) _
    (buildVP_mask heap2 n (fun a => (htab2 a).1)) (fun k h1 h2 => hchar k h1 (by dsimp only at h2; omega)) ts2
  have hshift : (⟨n - e, shift⟩ : Mle F).evaluate (mask.point.drop e) = some (mle shift (mask.point.drop e)) :=
    evaluate_eq ⟨n - e, shift⟩ h5 _ (by rw [List.length_drop, hmpl])
  have hshifted' : ∀ pt : List F, pt.length = n → mle shifted pt = scalar * mle X pt + mle shift (pt.drop e) := by
    intro pt hpt
    rw [← mle_drop e shift pt (by omega), hpt]
    unfold mle
    rw [hpt, Finset.mul_sum, ← Finset.sum_add_distrib]
    apply Finset.sum_congr rfl
    intro w hw
    have hw' := Finset.mem_range.mp hw
    rw [getD_range_map' _ _ _ _ hw', getD_range_map' _ _ _ _ hw']
    ring
  have hshifted := hshifted' mask.point hmpl
  have hbias : ∀ pt : List F, pt.length = n → mle bias pt = ninf * (1 - mle (causal n k) pt) := by
    intro pt hpt
    have hc := sum_chi (F := F) pt
    unfold mle
    rw [← hc, ← Finset.sum_sub_distrib, Finset.mul_sum, hpt]
    apply Finset.sum_congr rfl
    intro w hw
    have hw' := Finset.mem_range.mp hw
    rw [causal, getD_range_map' _ _ _ _ hw', getD_range_map' _ _ _ _ hw']
    split <;> ring
  refine ⟨acc, mask, [mle ein acc.point, mle eout acc.point, mle lo acc.point, mle hi acc.point, mle shift (mask.point.drop e)] ++ (zs.flatMap fun z => [mle z.1 acc.point, mle z.2 acc.point]),
    mask.point, ts3, ?_, rfl, hmpl, ?_⟩
  · unfold proveSoftmax
    rw [hsub, hb']
    simp only [Option.bind_eq_bind, Option.bind_some, last]
    rw [← hheap, hprove]
    simp only [Option.bind_some]
    rw [v0, v2, v3, v5, vz]
    simp only [Option.bind_some]
    rw [← hheap2, hprove2]
    simp only [Option.bind_some, List.map_cons, List.getElem?_cons_zero]
    rw [show (heap2 0).evals = shifted by rw [hheap2]; rfl, hmpl, show checkedSub n (n - e) = some e by unfold checkedSub; rw [if_pos (by omega)]; congr 1; omega]
    simp only [Option.bind_some, hshift, hshifted]
    rw [add_sub_cancel_right]
  · intro pre logups cs chals ts hcs hl hsmall heq0 htril0 hs0
    have hterms : ∀ pt : List F, pt.length = n → termsVal heap (softmaxTerms alpha ((2 ^ e : ℕ) : F) zs.length) pt
        = softmaxSum alpha ep rp zp (List.replicate e (2 : F)⁻¹ ++ ap) lp (2 ^ e) ein eout lo hi zs pt := by
      intro pt hpt
      rw [hheap, termsVal_softmax alpha _ n ein eout lo hi zs hK ep rp zp _ lp hep hrp hzp hfull hlp pt hpt]
      push_cast
      rfl
    have hv := hver (fun r hr j hj => hsmall r (List.mem_append_left _ hr) j (by omega))
    rw [cubeSum_congr n _ _ fun pt hpt => hterms pt hpt, hterms _ hapl, hdeg,
      cubeSum_softmaxSum (by have := hchar 2 (by omega) (by omega); exact_mod_cast this) alpha n e ep rp zp ap lp hep hrp (by omega) hlp ein eout lo hi zs hzp, hap] at hv
    have hterms2 : ∀ pt : List F, pt.length = n → termsVal heap2 [(1, [0, 1, 3]), (1, [2, 3])] pt = maskSum n k e acc.point (scalar : F) ninf X shift pt := by
      intro pt hpt
      have b1 := mle_computeBetas acc.point pt (by omega)
      rw [hheap2]
      simp only [termsVal, maskSum, List.map_cons, List.map_nil, List.getD_cons_zero, List.getD_cons_succ, List.getD_nil, List.prod_cons, List.prod_nil, List.sum_cons, List.sum_nil, b1,
        hshifted' pt hpt, hbias pt hpt]
      ring
    have hv2 := hver2 (fun r hr j hj => hsmall r (List.mem_append_right _ hr) j (by dsimp only at hj; omega))
    dsimp only at hv2
    rw [cubeSum_congr n _ _ fun pt hpt => hterms2 pt hpt, hterms2 _ hmpl, cubeSum_maskSum n k e he.le acc.point hapl] at hv2
    have hrec : mle (maskedScores n k e (scalar : F) ninf X shift) acc.point = -mle (recombined n tv zv ein lo hi zs) acc.point := by
      unfold mle
      rw [hapl, ← Finset.sum_neg_distrib]
      apply Finset.sum_congr rfl
      intro w hw
      have hw' := Finset.mem_range.mp hw
      rw [maskedScores, getD_range_map' _ _ _ _ hw', hrel w hw']
      ring
    rw [hrec, mle_recombined n tv zv ein lo hi zs acc.point hapl] at hv2
    have hzsp : ∀ sp : List F, (zs.flatMap fun z => [mle z.1 sp, mle z.2 sp]) = (zs.map fun z => (mle z.1 sp, mle z.2 sp)).flatMap fun z => [z.1, z.2] := by
      intro sp
      rw [List.flatMap_map]
    have hcalc := softmaxCalc_eq alpha (eqPoly ep acc.point) (eqPoly rp acc.point) (eqPoly zp acc.point) (eqPoly (List.replicate e (2 : F)⁻¹ ++ ap) acc.point) (eqPoly lp acc.point) ((2 ^ e : ℕ) : F)
      (mle ein acc.point) (mle eout acc.point) (mle lo acc.point) (mle hi acc.point) (mle shift (mask.point.drop e)) (zs.map fun z => (mle z.1 acc.point, mle z.2 acc.point))
    have hrecm := softmaxRecombine_eq zv tv (mle ein acc.point) (mle eout acc.point) (mle lo acc.point) (mle hi acc.point) (mle shift (mask.point.drop e))
      (zs.map fun z => (mle z.1 acc.point, mle z.2 acc.point))
    rw [← hzsp, List.length_map] at hcalc hrecm
    rw [List.map_map] at hrecm
    have hne : ∀ x : List F, x.length = n → x ≠ [] := by
      intro x hx h0
      rw [h0] at hx
      simp at hx
      omega
    have hlen : ([mle ein acc.point, mle eout acc.point, mle lo acc.point, mle hi acc.point, mle shift (mask.point.drop e)] ++ (zs.flatMap fun z => [mle z.1 acc.point, mle z.2 acc.point])).length
        = 5 + 2 * zs.length := by
      simp [List.length_flatMap]
      ring
    have hout : softmaxSum alpha ep rp zp (List.replicate e (2 : F)⁻¹ ++ ap) lp (2 ^ e) ein eout lo hi zs acc.point
        = powerSum alpha ([eqPoly ep acc.point * mle ein acc.point, eqPoly ep acc.point * mle eout acc.point, eqPoly rp acc.point * mle lo acc.point, eqPoly rp acc.point * mle hi acc.point]
          ++ ((zs.map fun z => (mle z.1 acc.point, mle z.2 acc.point)).flatMap fun z => [eqPoly zp acc.point * z.1, eqPoly zp acc.point * z.2])
          ++ [((2 ^ e : ℕ) : F) * (eqPoly (List.replicate e (2 : F)⁻¹ ++ ap) acc.point * (mle eout acc.point * ((zs.map fun z => (mle z.1 acc.point, mle z.2 acc.point)).map Prod.snd).prod)),
            eqPoly lp acc.point * (mle eout acc.point * ((zs.map fun z => (mle z.1 acc.point, mle z.2 acc.point)).map Prod.snd).prod)]) := by
      unfold softmaxSum
      rw [List.flatMap_map, List.map_map]
      push_cast
      rfl
    have hl' : verifyLogups T (logups.zip (chals.zip (softmaxInstances zs.length))) ts
        = some ([⟨ep, mle ein ep⟩, ⟨ep, mle eout ep⟩] :: [⟨rp, mle lo rp⟩, ⟨rp, mle hi rp⟩] :: [⟨ap, mle (blockSums (n - e) e (softmaxOut n eout zs)) ap⟩]
          :: (if zs.isEmpty then [] else [zs.flatMap fun z => [⟨zp, mle z.1 zp⟩, ⟨zp, mle z.2 zp⟩]]), ts1) := hl
    obtain ⟨hzflat, hzero2⟩ := softmax_zero_claims zs n (by omega) zp acc.point hzp hapl
    rw [verifySoftmax_intro T p ⟨scalar, bkm, zs.length, zv⟩ _ chals last ⟨logups, cs, acc, mask,
        [mle ein acc.point, mle eout acc.point, mle lo acc.point, mle hi acc.point, mle shift (mask.point.drop e)] ++ (zs.flatMap fun z => [mle z.1 acc.point, mle z.2 acc.point])⟩ ts ts1 ts2 _ _ _ _ hl'
        _ _ _ rfl rfl rfl e hsub alpha tsb hb' acc.point _ _ _ _ _ (eqPoly zp acc.point) ?_ ?_
        (eqXYEval_eq _ _ (hne _ hlp) (by rw [hapl, hlp])) (eqXYEval_eq _ _ (hne _ hep) (by rw [hapl, hep])) (eqXYEval_eq _ _ (hne _ hrp) (by rw [hapl, hrp]))
        (eqXYEval_eq _ _ (hne _ hfull) (by rw [hapl, hfull])) hcalc hlen]
    · have hinput : softmaxInputEval p ⟨scalar, bkm, zs.length, zv⟩ (eqPoly mask.point acc.point) (evalZeroifier (mask.point.take k) ((mask.point.drop k).take k))
          (maskSum n k e acc.point (scalar : F) ninf X shift mask.point) (mle shift (mask.point.drop e)) = some (mle X mask.point) := by
        have hz := mle_causal k a mask.point (by omega)
        rw [← hn] at hz
        rw [← hz]
        unfold softmaxInputEval checkedInv
        dsimp only
        rw [toField_eq_cast p _ hs, toField_eq_cast p _ hb, ← hninf, if_neg (mul_ne_zero heq0 htril0), if_neg hs0]
        simp only [Option.bind_eq_bind, Option.bind_some, Option.some.injEq]
        unfold maskSum
        rw [eqPoly_comm' acc.point]
        field_simp
        ring
      obtain ⟨tv', htv1, htv2⟩ := softmaxTableVars_chunks (F := F) scalar bkm zv tv zs htv
      have hrecm' : softmaxRecombine zs.length zv tv' ([mle ein acc.point, mle eout acc.point, mle lo acc.point, mle hi acc.point, mle shift (mask.point.drop e)] ++ (zs.flatMap fun z => [mle z.1 acc.point, mle z.2 acc.point]))
          = some (mle lo acc.point + 2 ^ 8 * mle hi acc.point + 2 ^ 16 * mle ein acc.point + 2 ^ (16 + tv) * powerSum (2 ^ zv) (zs.map fun z => mle z.1 acc.point)) := by
        by_cases h0 : zs = []
        · rw [h0] at hrecm ⊢
          exact hrecm
        · rw [htv2 h0]
          exact hrecm
      refine verifySoftmaxMask_intro T p ⟨scalar, bkm, zs.length, zv⟩ k tv' htv1 pre e ⟨logups, cs, acc, mask, _⟩ acc.point ts2 ts3 _ hrecm' mask.point _ _ _ _ (by rw [hapl]; exact hv2)
        (eqXYEval_eq _ _ (hne _ hmpl) (by rw [hapl, hmpl])) rfl hinput _ ?_
      exact softmaxWitness_eq zs cs hcs _ _ _ _ _ _ _
    · exact hzero2
    · rw [alphaFold_eq]
      rw [hout] at hv
      rw [show ep.length = n from hep, hzflat]
      simp only [List.map_append, List.map_cons, List.map_nil, List.map_flatMap] at hv ⊢
      simpa only [List.append_assoc, List.cons_append, List.nil_append] using hv

/-- C80 is false of the lookups: lookup proofs beyond those the verifier checks are ignored by it, but their fractions are added to the sum tested at the end. Whatever softmax proof is accepted and whatever the
other fractions of the model are (with nonzero denominators), an additional lookup proof leaves the result unchanged and makes the final test succeed. -/
theorem C80_extra_lookup_false (T : Transcript F) (p : ℕ) (ctx : SoftmaxCtx) (shape : List ℕ) (chals : List (F × F)) (last : Claim F) (proof : SoftmaxProof F C) (ts : T.State)
    (r : Claim F × List (C × Claim F) × T.State) (h : verifySoftmax T p ctx shape chals last proof ts = some r) (hn : 4 ≤ proof.logupProofs.length ∨ chals.length ≤ proof.logupProofs.length)
    (fr other : List (F × F)) (hfr : softmaxFractions proof = some fr) (hne : ∀ x ∈ fr ++ other, x.2 ≠ 0) :
    ∃ extra : LogUpProof F, let proof' := { proof with logupProofs := proof.logupProofs ++ [extra] }
      verifySoftmax T p ctx shape chals last proof' ts = some r ∧ ∃ fr', softmaxFractions proof' = some fr' ∧ finalCheck (fr' ++ other) = true := by
  refine ⟨⟨[], [], [], [[-fracSum (fr ++ other), 0, 1, 1]], false⟩, ?_, ?_⟩
  · have hz : (proof.logupProofs ++ [(⟨[], [], [], [[-fracSum (fr ++ other), 0, 1, 1]], false⟩ : LogUpProof F)]).zip (chals.zip (softmaxInstances ctx.zeroChunks))
        = proof.logupProofs.zip (chals.zip (softmaxInstances ctx.zeroChunks)) := by
      have hle : (chals.zip (softmaxInstances ctx.zeroChunks)).length ≤ proof.logupProofs.length := by
        rw [List.length_zip]
        have : (softmaxInstances ctx.zeroChunks).length ≤ 4 := by unfold softmaxInstances; split <;> simp
        omega
      generalize chals.zip (softmaxInstances ctx.zeroChunks) = l at hle
      generalize proof.logupProofs = q at hle
      induction q generalizing l with
      | nil => cases l with
        | nil => rfl
        | cons x l => simp at hle
      | cons y q ih => cases l with
        | nil => simp
        | cons x l => rw [List.cons_append, List.zip_cons_cons, List.zip_cons_cons, ih l (by simpa using hle)]
    rw [← h]
    unfold verifySoftmax verifySoftmaxFirst
    dsimp only
    rw [hz]
    rfl
  · unfold softmaxFractions at hfr ⊢
    simp only [Option.bind_eq_bind, Option.bind_eq_some_iff, Option.some.injEq] at hfr
    obtain ⟨l, hl, rfl⟩ := hfr
    refine ⟨l.flatten ++ [(-fracSum (l.flatten ++ other), 1)], ?_, ?_⟩
    · rw [mapM_append', hl]
      have : [(⟨[], [], [], [[-fracSum (l.flatten ++ other), 0, 1, 1]], false⟩ : LogUpProof F)].mapM (fun q => fractionalOutputs q.circuitOutputs)
          = some [[(-fracSum (l.flatten ++ other), 1)]] := by
        simp [fractionalOutputs, quad]
      rw [this]
      simp
    · rw [finalCheck_iff]
      refine ⟨?_, ?_⟩
      · intro x hx
        rcases List.mem_append.mp hx with hx | hx
        · rcases List.mem_append.mp hx with hx | hx
          · exact hne x (List.mem_append_left _ hx)
          · rw [List.mem_singleton] at hx; rw [hx]; exact one_ne_zero
        · exact hne x (List.mem_append_right _ hx)
      · rw [fracSum_append, fracSum_append, fracSum_append]
        simp [fracSum]

/-- C80 is false of the commitments: the number of commitments in the proof is never compared. Dropping all commitments beyond the fifth, those of the columns of the zero table, from an accepted proof leaves
the returned claim unchanged, and no opening of these columns is requested. -/
theorem C80_unopened_false (T : Transcript F) (p : ℕ) (ctx : SoftmaxCtx) (shape : List ℕ) (chals : List (F × F)) (last : Claim F) (proof : SoftmaxProof F C) (ts ts' : T.State) (claim : Claim F)
    (wit : List (C × Claim F)) (h : verifySoftmax T p ctx shape chals last proof ts = some (claim, wit, ts')) :
    verifySoftmax T p ctx shape chals last { proof with commitments := proof.commitments.take 5 } ts = some (claim, wit.take 5, ts') := by
  have hw : ∀ (sp q : List F) (w : List (C × Claim F)), softmaxWitness ctx.zeroChunks proof.commitments proof.evaluations sp q = some w → proof.evaluations.length = 5 + 2 * ctx.zeroChunks →
      softmaxWitness ctx.zeroChunks (proof.commitments.take 5) proof.evaluations sp q = some (w.take 5) := by
    intro sp q w hw hlen
    unfold softmaxWitness at hw ⊢
    simp only [Option.bind_eq_bind, Option.bind_eq_some_iff, Option.some.injEq] at hw
    obtain ⟨c4, hc4, e4, he4, rfl⟩ := hw
    have hlen5 : 5 ≤ proof.commitments.length := by
      rcases lt_or_ge 4 proof.commitments.length with h | h
      · omega
      · rw [List.getElem?_eq_none h] at hc4; simp at hc4
    have e1 : (proof.commitments.take 5)[4]? = some c4 := by rw [List.getElem?_take_of_lt (by omega), hc4]
    have e2 : ((proof.commitments.take 5).zip (proof.evaluations.map fun e => (⟨sp, e⟩ : Claim F))).take 4 = (proof.commitments.zip (proof.evaluations.map fun e => (⟨sp, e⟩ : Claim F))).take 4 := by
      simp only [List.zip, List.take_zipWith, List.take_take]
      rfl
    have e3 : ((proof.commitments.take 5).zip (proof.evaluations.map fun e => (⟨sp, e⟩ : Claim F))).drop 5 = [] := by
      rw [List.drop_eq_nil_iff, List.length_zip, List.length_take]; omega
    have e4' : ((proof.commitments.zip (proof.evaluations.map fun e => (⟨sp, e⟩ : Claim F))).take 4 ++ [(c4, (⟨q, e4⟩ : Claim F))]).length = 5 := by
      simp only [List.length_append, List.length_take, List.length_zip, List.length_map, List.length_singleton, hlen]
      omega
    rw [e1, he4]
    simp only [Option.bind_eq_bind, Option.bind_some, Option.some.injEq]
    rw [e2, e3]
    generalize (proof.commitments.zip (proof.evaluations.map fun e => (⟨sp, e⟩ : Claim F))).take 4 ++ [(c4, (⟨q, e4⟩ : Claim F))] = A at e4'
    rw [List.take_append_of_le_length (by rw [e4']), List.take_of_length_le (by rw [e4']), ite_self, List.append_nil]
  have hev : ∀ e sp ts2, verifySoftmaxFirst T ctx chals last proof ts = some (e, sp, ts2) → proof.evaluations.length = 5 + 2 * ctx.zeroChunks := by
    intro e sp ts2 h
    unfold verifySoftmaxFirst at h
    rw [Option.bind_eq_bind, Option.bind_eq_some_iff] at h
    obtain ⟨⟨claims, ts1⟩, -, h⟩ := h
    dsimp only at h
    iterate 14 ((first | rw [Option.bind_eq_some_iff] at h | rw [Option.bind_eq_bind, Option.bind_eq_some_iff] at h); obtain ⟨_, -, h⟩ := h)
    by_contra hne
    rw [if_neg (fun hc => hne hc.1)] at h
    simp at h
  unfold verifySoftmax at h ⊢
  rw [show verifySoftmaxFirst T ctx chals last { proof with commitments := proof.commitments.take 5 } ts = verifySoftmaxFirst T ctx chals last proof ts from rfl]
  simp only [Option.bind_eq_bind, Option.bind_eq_some_iff] at h ⊢
  obtain ⟨⟨e, sp, ts2⟩, h1, h16⟩ := h
  refine ⟨⟨e, sp, ts2⟩, h1, ?_⟩
  have hc := hev e sp ts2 h1
  unfold verifySoftmaxMask at h16 ⊢
  simp only [Option.bind_eq_bind, Option.bind_eq_some_iff, Option.some.injEq, Prod.mk.injEq] at h16 ⊢
  obtain ⟨tv, g1, m, g2, ⟨sub2, ts3⟩, g3, eq, g4, rows, g5, cols, g6, shift, g7, input, g8, w, g9, g10, g11, g12⟩ := h16
  exact ⟨tv, g1, m, g2, ⟨sub2, ts3⟩, g3, eq, g4, rows, g5, cols, g6, shift, g7, input, g8, w.take 5, hw _ _ _ g9 hc, g10, by rw [g11], g12⟩

instance fact_prime_524287 : Fact (Nat.Prime 524287) := ⟨by norm_num⟩

/-- Two heads with two rows of two scores: scores `-7 0 / 4 -5` and `-300 9 / 1 -6000`, scalar 3, shifts `-30 -12 / -90000 -40`, `bkm = 3 · 2^16`. The integers below are modulo `2^19 - 1`. -/
def exSoftmax : SoftmaxProof (ZMod 524287) String :=
  ⟨[⟨[⟨[11], [[241671, -2278, 148391, 169391]]⟩, ⟨[13, 8], [[-192693, -164465, -212500, 15561], [164466, -59982, 180892, -63310]]⟩], [[-175405, 105946, -51040, 147318], [-55234, 248508]], [⟨[13, 8, 10], 476⟩, ⟨[13, 8, 10], -111780⟩], [[-142602, 118494, -163949, 207604]], false⟩,
    ⟨[⟨[5], [[-193398, -118201, -113522, 261958]]⟩, ⟨[9, 4], [[77554, -77278, 82792, -12537], [10779, -146861, -236372, 91237]]⟩], [[244, 28340, -627, -9360, 356, 7400, -390, -7520], [3636, 2216, 4916, 20]], [⟨[9, 4, 13], 20656⟩, ⟨[9, 4, 13], 63648⟩], [[179067, 186287, 91878, 10565], [-150800, -116000, -96574, 195713]], false⟩,
    ⟨[⟨[18], [[74399, 217728, -259863, 123834]]⟩], [[7602, 4865]], [⟨[18, 2], 10319⟩], [[-389, -1060, 31350, -243387]], false⟩],
    ["in", "out", "lo", "hi", "shift"], ⟨[6, 9, 4], [[35578, 85475, -231244], [-44655, 123245, -178631], [153184, 129935, -67721]]⟩,
    ⟨[13, 8, 10], [[148816, -222233, -216288, -5937], [-226218, 238250, -19561, 80048], [-17427, 230464, 155079, -243582]]⟩,
    [-32, -13265, 11966, 30960, 4330]⟩

/-- Indices and values looked up in the table of the exponential, and the digits. -/
def exEin : List (ZMod 524287) := [0, 4, 0, 0, 1, 4, 0, 0]
def exEout : List (ZMod 524287) := [255, 0, 255, 255, 94, 0, 255, 255]
def exLo : List (ZMod 524287) := [51, 0, 0, 27, 20, 0, 37, 120]
def exHi : List (ZMod 524287) := [0, 0, 0, 0, 99, 0, 0, 70]
def exShift : List (ZMod 524287) := [-30, -12, -90000, -40]
def exScores : List (ZMod 524287) := [-7, 0, 4, -5, -300, 9, 1, -6000]
def exTape : List (ZMod 524287) := [2, 5, 7, 11, 6, 9, 4, 13, 8, 10, 12, 17, 15, 18, 2, 5, 7, 11, 6, 9, 4, 13, 8, 10, 12, 17, 15, 18, 2, 5, 7, 11, 6, 9, 4, 13, 8, 10]

example : verifyLogups (tape (ZMod 524287)) (exSoftmax.logupProofs.zip ([(20, 100), (20, 1), (20, 1)].zip [1, 2, 1])) exTape
      = some ([[⟨[13, 8, 10], mle exEin [13, 8, 10]⟩, ⟨[13, 8, 10], mle exEout [13, 8, 10]⟩], [⟨[9, 4, 13], mle exLo [9, 4, 13]⟩, ⟨[9, 4, 13], mle exHi [9, 4, 13]⟩],
          [⟨[18, 2], mle (blockSums 2 1 exEout) [18, 2]⟩]], [11, 6, 9, 4, 13, 8, 10]) ∧
    verifySoftmax (tape (ZMod 524287)) 524287 ⟨3, 3 * 2 ^ 16, 0, 0⟩ [2, 2, 2] [(20, 100), (20, 1), (20, 1)] ⟨[21, 22, 23], mle exEout [21, 22, 23]⟩ exSoftmax exTape
      = some (⟨[13, 8, 10], mle exScores [13, 8, 10]⟩, [("in", ⟨[6, 9, 4], mle exEin [6, 9, 4]⟩), ("out", ⟨[6, 9, 4], mle exEout [6, 9, 4]⟩), ("lo", ⟨[6, 9, 4], mle exLo [6, 9, 4]⟩),
          ("hi", ⟨[6, 9, 4], mle exHi [6, 9, 4]⟩), ("shift", ⟨[8, 10], mle exShift [8, 10]⟩)], []) := by
  refine ⟨?_, ?_⟩ <;> decide +kernel

/-- The hypotheses on the columns in `C80_complete_partial`. -/
example : ∀ w < 2 ^ 3, exLo.getD w 0 + 2 ^ 8 * exHi.getD w 0 + 2 ^ 16 * exEin.getD w 0
    = -(if w % 2 ^ 1 ≤ w / 2 ^ 1 % 2 ^ 1 then ((3 : ℤ) : ZMod 524287) * exScores.getD w 0 + exShift.getD (w / 2 ^ 1) 0 else ((-(3 * 2 ^ 16 / 2 ^ 16 + 1) * 2 ^ 16 : ℤ) : ZMod 524287)) := by
  decide +kernel

/-- The condition on the evaluations in `C80_softmax_partial`. -/
example : exSoftmax.evaluations = [mle exEin [6, 9, 4], mle exEout [6, 9, 4], mle exLo [6, 9, 4], mle exHi [6, 9, 4], mle exShift [8, 10]] := by
  decide +kernel

/-- The same heads with `bkm = 2^17` and one chunk of two bits in the zero table: minus infinity is `-3 · 2^16`. -/
def exSoftmaxZero : SoftmaxProof (ZMod 524287) String :=
  ⟨[⟨[⟨[11], [[241671, 32060, -204206, 57160]]⟩, ⟨[13, 8], [[-192693, -184928, 61416, 22052], [227351, -59982, -43837, 170331]]⟩], [[142148, 105946, -51040, 226239], [138213, -82332]], [⟨[13, 8, 10], 749⟩, ⟨[13, 8, 10], -120334⟩], [[-142602, -29718, -163949, -218159]], false⟩,
    ⟨[⟨[5], [[-193398, -118201, -113522, 261958]]⟩, ⟨[9, 4], [[77554, -77278, 82792, -12537], [10779, -146861, -236372, 91237]]⟩], [[244, 28340, -627, -9360, 356, 7400, -390, -7520], [3636, 2216, 4916, 20]], [⟨[9, 4, 13], 20656⟩, ⟨[9, 4, 13], 63648⟩], [[179067, 186287, 91878, 10565], [-150800, -116000, -96574, 195713]], false⟩,
    ⟨[⟨[18], [[74399, 217728, -259863, 123834]]⟩], [[7602, 4865]], [⟨[18, 2], 10319⟩], [[-389, -1060, 31350, -243387]], false⟩,
    ⟨[⟨[4], [[234382, -181714, 16882, -218404]]⟩, ⟨[12, 17], [[251340, 152359, -255915, 159530], [-11851, -140124, -242170, 12449]]⟩], [[5952, -8174, -2040, 26286], [192828, 192828]], [⟨[12, 17, 15], -192⟩, ⟨[12, 17, 15], 193⟩], [[-204448, -32045, 229827, 65275]], false⟩],
    ["in", "out", "lo", "hi", "shift", "chunk", "zero"], ⟨[7, 11, 6], [[199309, -13122, 185492, 10572], [-194948, 1826, -61988, 176166], [-248519, -32713, 61059, 32797]]⟩,
    ⟨[9, 4, 13], [[-188254, 195605, -223032, 190860], [-94255, 139845, 8850, 157547], [251605, -69456, -62414, -251556]]⟩,
    [290, -46435, 22293, 67980, -162593, -70, 71]⟩

def exTapeZero : List (ZMod 524287) := [2, 5, 7, 11, 6, 9, 4, 13, 8, 10, 12, 17, 15, 18, 2, 5, 7, 11, 6, 9, 4, 13, 8, 10, 12, 17, 15, 18, 2, 5, 7, 11, 6, 9, 4, 13, 8, 10, 12, 17, 15, 18, 2, 5, 7, 11, 6, 9, 4, 13]

/-- It is accepted. Without the commitments to the columns of the zero table it is accepted as well. -/
example : verifySoftmax (tape (ZMod 524287)) 524287 ⟨3, 2 ^ 17, 1, 2⟩ [2, 2, 2] [(20, 100), (20, 1), (20, 1), (20, 1000)] ⟨[21, 22, 23], mle [255, 0, 255, 255, 94, 0, 255, 255] [21, 22, 23]⟩ exSoftmaxZero exTapeZero
      = some (⟨[9, 4, 13], mle exScores [9, 4, 13]⟩, [("in", ⟨[7, 11, 6], mle [0, 1, 0, 0, 1, 1, 0, 0] [7, 11, 6]⟩), ("out", ⟨[7, 11, 6], mle [255, 94, 255, 255, 94, 94, 255, 255] [7, 11, 6]⟩), ("lo", ⟨[7, 11, 6], mle [51, 0, 0, 27, 20, 0, 37, 120] [7, 11, 6]⟩),
          ("hi", ⟨[7, 11, 6], mle [0, 0, 0, 0, 99, 0, 0, 70] [7, 11, 6]⟩), ("shift", ⟨[4, 13], mle exShift [4, 13]⟩), ("chunk", ⟨[7, 11, 6], mle [0, 1, 0, 0, 0, 1, 0, 0] [7, 11, 6]⟩), ("zero", ⟨[7, 11, 6], mle [1, 0, 1, 1, 1, 0, 1, 1] [7, 11, 6]⟩)], []) ∧
    verifySoftmax (tape (ZMod 524287)) 524287 ⟨3, 2 ^ 17, 1, 2⟩ [2, 2, 2] [(20, 100), (20, 1), (20, 1), (20, 1000)] ⟨[21, 22, 23], mle [255, 0, 255, 255, 94, 0, 255, 255] [21, 22, 23]⟩
        { exSoftmaxZero with commitments := ["in", "out", "lo", "hi", "shift"] } exTapeZero
      = some (⟨[9, 4, 13], mle exScores [9, 4, 13]⟩, [("in", ⟨[7, 11, 6], mle [0, 1, 0, 0, 1, 1, 0, 0] [7, 11, 6]⟩), ("out", ⟨[7, 11, 6], mle [255, 94, 255, 255, 94, 94, 255, 255] [7, 11, 6]⟩), ("lo", ⟨[7, 11, 6], mle [51, 0, 0, 27, 20, 0, 37, 120] [7, 11, 6]⟩),
          ("hi", ⟨[7, 11, 6], mle [0, 0, 0, 0, 99, 0, 0, 70] [7, 11, 6]⟩), ("shift", ⟨[4, 13], mle exShift [4, 13]⟩)], []) := by
  refine ⟨?_, ?_⟩ <;> decide +kernel

/-- For `C80_extra_lookup_false`: it holds as many lookup proofs as there are tables, and its fractions have nonzero denominators. -/
example : exSoftmaxZero.logupProofs.length = 4 ∧ (softmaxFractions exSoftmaxZero).map (fun fr => fr.map fun x => decide (x.2 ≠ 0)) = some [true, true, true, true, true] := by
  refine ⟨rfl, ?_⟩
  decide +kernel

end Props
