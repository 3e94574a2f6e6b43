import Verif.Props.ConcatMatMul
import Verif.Props.SoftmaxStep
import Verif.Lemmas.Mha

/-!
C82: the proof of multi-head attention.
-/

namespace Props
open Spec Model Lemmas

variable {F : Type} [Field F] [DecidableEq F] {C : Type}

/-- C82, part. `2^n` positions, `2^H` heads of dimension `2^d`. If the verifier accepts a claim on the output and the claims it hands on are true of `Q`, `K` and `V`, and if the evaluations in the softmax proof are those of columns
`ein`, `eout`, `lo`, `hi`, `zs` and `shift` as in `C80_softmax_partial`, then one of the following happened:

* the claim is true of the sum of the values of `V` weighted by the table `softmaxOut` of looked up weights, at every position, head and column; the columns have the values of the lookup proofs at their points, the block sums of the weights
  those of the third; and the digits recombine, at the point `sp`, to minus the masked scores of `Q` and `K`;
* the batching challenge combined differences that are not all zero to zero;
* the prover was lucky in one of the four sumchecks.

Missing: three individual claims in each product are assumed (`C76_extra_factor_false`), and what is missing in `C80_softmax_partial`. -/
theorem C82_mha_partial (T : Transcript F) (p : ℕ) [CharP F p] (ctx : SoftmaxCtx) (hchar : ∀ k : ℕ, 0 < k → k ≤ ctx.zeroChunks + 3 → (k : F) ≠ 0) (n H d : ℕ) (Q K V : List F)
    (chals : List (F × F)) (last : Claim F) (hP : last.point.length = H + n + d) (proof : MhaProof F C) (hlen1 : proof.finalMul.individualClaims.length = 3) (hlen2 : proof.qk.individualClaims.length = 3)
    (ts ts' : T.State) (cq ck cv : Claim F) (wit : List (C × Claim F))
    (h : verifyMha T p ctx [2 ^ n, 2 ^ H, 2 ^ d] [2 ^ n, 2 ^ H, 2 ^ d] [2 ^ n, 2 ^ H, 2 ^ d] [2 ^ H, 2 ^ n, 2 ^ n] [2 ^ n, 2 ^ H, 2 ^ d] (d + H) (n + H) chals last proof ts
      = some ((cq, ck, cv), wit, ts'))
    (hcq : cq.eval = mle Q cq.point) (hck : ck.eval = mle K ck.point) (hcv : cv.eval = mle V cv.point) :
    ∃ (soft score : Claim F) (ts1 ts2 : T.State) (sp : List F),
      verifyConcatMatMul T finalLeft finalRight (some finalPerm) [2 ^ H, 2 ^ n, 2 ^ n] [2 ^ n, 2 ^ H, 2 ^ d] [2 ^ n, 2 ^ H, 2 ^ d] (n + H) last proof.finalMul ts = some (soft, cv, ts1) ∧
      verifySoftmax T p ctx [2 ^ H, 2 ^ n, 2 ^ n] chals soft proof.softmax ts1 = some (score, wit, ts2) ∧
      verifyConcatMatMul T qkDims qkDims none [2 ^ n, 2 ^ H, 2 ^ d] [2 ^ n, 2 ^ H, 2 ^ d] [2 ^ H, 2 ^ n, 2 ^ n] (d + H) score proof.qk ts2 = some (cq, ck, ts') ∧
      ∀ (tsl : T.State) (exp range error : List (Claim F)) (zero : List (List (Claim F)))
        (ein eout lo hi shift : List F) (zs : List (List F × List F)) (x0 x1 r0 r1 b : F) (ez ep rp ap zp : List F) (tv : ℕ) (out : List F),
      verifyLogups T (proof.softmax.logupProofs.zip (chals.zip (if ctx.zeroChunks ≠ 0 then [1, 2, 1, ctx.zeroChunks] else [1, 2, 1]))) ts1 = some (exp :: range :: error :: zero, tsl) →
      exp.map Claim.eval = [x0, x1] → (exp.map Claim.point).head? = some ep → range.map Claim.eval = [r0, r1] → (range.map Claim.point).head? = some rp →
      error.map Claim.eval = [b] → (error.map Claim.point).head? = some ap → zero.flatten.map Claim.eval = ez → ez.length = 2 * zs.length →
      (zs ≠ [] → (zero.flatten.map Claim.point).head? = some zp) → zs.length = ctx.zeroChunks →
      proof.softmax.evaluations = [mle ein sp, mle eout sp, mle lo sp, mle hi sp, mle shift (score.point.drop (ep.length - ap.length))] ++ (zs.flatMap fun z => [mle z.1 sp, mle z.2 sp]) →
      ep.length = n + n + H → ctx.scalar.natAbs ≤ p → (-(ctx.bkm / 2 ^ 16 + 1) * 2 ^ 16).natAbs ≤ p →
      (ctx.zeroChunks ≠ 0 → (ctx.bkm / 2 ^ 16).toNat ≤ 2 ^ tv ∧ 2 ^ tv < 2 * (ctx.bkm / 2 ^ 16).toNat) →
      out.length = 2 ^ n * (2 ^ H * 2 ^ d) →
      (∀ i h c, i < 2 ^ n → h < 2 ^ H → c < 2 ^ d → headEntry (2 ^ H) (2 ^ d) out i h c
        = ∑ j ∈ Finset.range (2 ^ n), (softmaxOut ep.length eout zs).getD ((h * 2 ^ n + i) * 2 ^ n + j) 0 * headEntry (2 ^ H) (2 ^ d) V j h c) →
      let e := ep.length - ap.length
      let ninf : F := ((-(ctx.bkm / 2 ^ 16 + 1) * 2 ^ 16 : ℤ) : F)
      let alpha := (T.labelled tsl "batching_challenge").1
      let X := scores (2 ^ H) (2 ^ d) (2 ^ n) Q K
      let diffs := [mle ein ep - x0, mle eout ep - x1, mle lo rp - r0, mle hi rp - r1] ++ List.zipWith (· - ·) (zs.flatMap fun z => [mle z.1 zp, mle z.2 zp]) ez
          ++ [mle (blockSums ap.length e (softmaxOut ep.length eout zs)) ap - b, mle (softmaxOut ep.length eout zs) soft.point - soft.eval]
      (last.eval = mle out last.point ∧ (∀ x ∈ diffs, x = 0) ∧
          mle (recombined ep.length tv ctx.zeroVars ein lo hi zs) sp = -mle (maskedScores ep.length n e (ctx.scalar : F) ninf X shift) sp)
      ∨ ((∃ x ∈ diffs, x ≠ 0) ∧ powerSum alpha diffs = 0)
      ∨ LuckyRound (ctx.zeroChunks + 2) ep.length (softmaxSum alpha ep rp zp (List.replicate e (2 : F)⁻¹ ++ ap) soft.point (2 ^ e) ein eout lo hi zs) proof.softmax.accumulation.proofs sp
      ∨ LuckyRound 3 ep.length (maskSum ep.length n e sp (ctx.scalar : F) ninf X shift) proof.softmax.mask.proofs score.point
      ∨ (∃ pc row col sub, splitOutputPoint [2 ^ n, 2 ^ H, 2 ^ d] (some finalPerm) last.point = some (pc, row, col) ∧ verify T last.eval proof.finalMul.sumcheck 3 (n + H) ts = some (sub, ts1) ∧
        LuckyRound 3 (n + H) (fun pt => eqPoly (pt.drop n) pc * mle (softmaxOut ep.length eout zs) (finalLeft.buildPoint (pt.drop n) (pt.take n) row)
          * mle V (finalRight.buildPoint (pt.drop n) (pt.take n) col)) proof.finalMul.sumcheck.proofs sub.point)
      ∨ (∃ pc row col sub, splitOutputPoint [2 ^ H, 2 ^ n, 2 ^ n] none score.point = some (pc, row, col) ∧ verify T score.eval proof.qk.sumcheck 3 (d + H) ts2 = some (sub, ts') ∧
        LuckyRound 3 (d + H) (fun pt => eqPoly (pt.drop d) pc * mle Q (qkDims.buildPoint (pt.drop d) (pt.take d) row) * mle K (qkDims.buildPoint (pt.drop d) (pt.take d) col))
          proof.qk.sumcheck.proofs sub.point) := by
  unfold verifyMha at h
  simp only [Option.bind_eq_bind, Option.bind_eq_some_iff, Option.some.injEq, Prod.mk.injEq, Prod.exists] at h
  obtain ⟨soft, cv', ts1, h1, score, wit', ts2, h2, cq', ck', ts3, h3, ⟨rfl, rfl, rfl⟩, rfl, rfl⟩ := h
  by_cases hl : ∃ exp range error zero tsl, verifyLogups T (proof.softmax.logupProofs.zip (chals.zip (if ctx.zeroChunks ≠ 0 then [1, 2, 1, ctx.zeroChunks] else [1, 2, 1]))) ts1 = some (exp :: range :: error :: zero, tsl)
  swap
  · refine ⟨soft, score, ts1, ts2, [], h1, h2, h3, ?_⟩
    intro tsl exp range error zero ein eout lo hi shift zs x0 x1 r0 r1 b ez ep rp ap zp tv out hv
    exact absurd ⟨_, _, _, _, _, hv⟩ hl
  obtain ⟨exp, range, error, zero, tsl, hl⟩ := hl
  obtain ⟨sp, hsp, hC⟩ := C80_softmax_partial T p ctx hchar _ chals soft proof.softmax ts1 tsl ts2 score wit' exp range error zero hl h2
  refine ⟨soft, score, ts1, ts2, sp, h1, h2, h3, ?_⟩
  intro tsl' exp' range' error' zero' ein eout lo hi shift zs x0 x1 r0 r1 b ez ep rp ap zp tv out hl' a1 a2 a3 a4 a5 a6 a7 a8 a9 a10 a11 hep hs hb htv hol hout
  rw [hl] at hl'
  simp only [Option.some.injEq, Prod.mk.injEq, List.cons.injEq] at hl'
  obtain ⟨⟨rfl, rfl, rfl, rfl⟩, rfl⟩ := hl'
  obtain ⟨c1, c2, c3, c4⟩ := hC ein eout lo hi shift zs x0 x1 r0 r1 b ez ep rp ap zp a1 a2 a3 a4 a5 a6 a7 a8 a9 a10 a11
  intro e ninf alpha X diffs
  have hc3 : ∀ k : ℕ, 0 < k → k ≤ 3 → (k : F) ≠ 0 := fun k h1 h2 => hchar k h1 (by omega)
  rcases c3 with c3 | c3
  swap
  · exact Or.inr (Or.inr (Or.inl c3))
  by_cases hd : ∀ x ∈ diffs, x = 0
  swap
  · push Not at hd
    exact Or.inr (Or.inl ⟨hd, c3⟩)
  have hsoft : soft.eval = mle (softmaxOut ep.length eout zs) soft.point := by
    have := hd _ (List.mem_append_right _ (List.mem_cons_of_mem _ (List.mem_singleton_self _)))
    exact (sub_eq_zero.mp this).symm
  have hscl : score.point.length = H + n + n := by rw [← hsp, c1, hep]; ring
  obtain ⟨pc, row, col, s1, s2⟩ := C76_sound_partial T hc3 qkDims qkDims (by decide) (by decide) none (by decide) ⟨[2 ^ n, 2 ^ H, 2 ^ d], Q⟩ ⟨[2 ^ n, 2 ^ H, 2 ^ d], K⟩ H n d n rfl rfl ⟨rfl, rfl, rfl⟩ ⟨rfl, rfl, rfl⟩
    [2 ^ H, 2 ^ n, 2 ^ n] X (scores_product _ _ _ Q K) score hscl proof.qk hlen2 ts2 ts3 cq' ck' h3 hcq hck
  rcases s2 with s2 | ⟨sub, s3, s4⟩
  swap
  · exact Or.inr (Or.inr (Or.inr (Or.inr (Or.inr ⟨pc, row, col, sub, s1, s3, s4⟩))))
  rcases c4 n H tv [2 ^ H] X rfl hep hs hb htv s2 with c4 | c4
  swap
  · exact Or.inr (Or.inr (Or.inr (Or.inl c4)))
  obtain ⟨pc', row', col', u1, u2⟩ := C76_sound_partial T hc3 finalLeft finalRight (by decide) (by decide) (some finalPerm) (by decide) ⟨[2 ^ H, 2 ^ n, 2 ^ n], softmaxOut ep.length eout zs⟩ ⟨[2 ^ n, 2 ^ H, 2 ^ d], V⟩
    H n n d rfl rfl ⟨rfl, rfl, rfl⟩ ⟨rfl, rfl, rfl⟩
    [2 ^ n, 2 ^ H, 2 ^ d] out (attended_product _ _ _ _ V out hol hout) last hP proof.finalMul hlen1 ts ts1 soft cv' h1 hsoft hcv
  rcases u2 with u2 | ⟨sub, u3, u4⟩
  swap
  · exact Or.inr (Or.inr (Or.inr (Or.inr (Or.inl ⟨pc', row', col', sub, u1, u3, u4⟩))))
  exact Or.inl ⟨u2, hd, c4⟩

/-- C82, the honest prover, part. `2^n` positions, `2^H` heads of dimension `2^d`, at least four rows in all heads together, at most three zero chunks; the digits recombine to minus the masked scores of `Q` and `K`, with one shift for
every row, and `weights` are the products of the looked up exponentials and indicators. Then the prover makes a proof of the true claim on the output, lookup proofs included, and hands on true claims on `Q`, `K` and `V`. The verifier
accepts it and hands on the same claims and true claims about the committed columns, unless a challenge of the sumchecks is small or the verifier divides by zero. Missing: more chunks and fewer rows, for which it is false, see
`C82_many_chunks_false` and `C82_few_rows_false`. -/
theorem C82_complete_partial (T : Transcript F) (threads : ℕ) (ht : 0 < threads) (p : ℕ) [CharP F p] (zs : List (List F × List F)) (hZ : zs.length ≤ 3) (hchar : ∀ k : ℕ, 0 < k → k ≤ zs.length + 3 → (k : F) ≠ 0)
    (scalar bkm : ℤ) (hs : scalar.natAbs ≤ p) (hb : (-(bkm / 2 ^ 16 + 1) * 2 ^ 16).natAbs ≤ p) (zv tv n H d : ℕ) (htv : zs ≠ [] → (bkm / 2 ^ 16).toNat ≤ 2 ^ tv ∧ 2 ^ tv < 2 * (bkm / 2 ^ 16).toNat) (hnH : 2 ≤ n + H)
    (Q K V : List F) (hQ : Q.length = 2 ^ n * (2 ^ H * 2 ^ d)) (hK : K.length = 2 ^ n * (2 ^ H * 2 ^ d)) (hV : V.length = 2 ^ n * (2 ^ H * 2 ^ d))
    (ein eout weights lo hi shift : List F) (h1 : ein.length = 2 ^ (n + n + H)) (h2 : eout.length = 2 ^ (n + n + H)) (hwl : weights.length = 2 ^ (n + n + H))
    (h3 : lo.length = 2 ^ (n + n + H)) (h4 : hi.length = 2 ^ (n + n + H)) (hzl : ∀ z ∈ zs, z.1.length = 2 ^ (n + n + H) ∧ z.2.length = 2 ^ (n + n + H)) (h5 : shift.length = 2 ^ (n + H))
    (ninf : F) (hninf : ninf = ((-(bkm / 2 ^ 16 + 1) * 2 ^ 16 : ℤ) : F))
    (hrel : ∀ h i j, h < 2 ^ H → i < 2 ^ n → j < 2 ^ n → let w := (h * 2 ^ n + i) * 2 ^ n + j
      lo.getD w 0 + 2 ^ 8 * hi.getD w 0 + 2 ^ 16 * ein.getD w 0 + 2 ^ (16 + tv) * powerSum (2 ^ zv) (zs.map fun z => z.1.getD w 0)
        = -(if j ≤ i then (scalar : F) * (∑ c ∈ Finset.range (2 ^ d), headEntry (2 ^ H) (2 ^ d) Q i h c * headEntry (2 ^ H) (2 ^ d) K j h c) + shift.getD (h * 2 ^ n + i) 0 else ninf))
    (hweights : ∀ w < 2 ^ (n + n + H), weights.getD w 0 = eout.getD w 0 * (zs.map fun z => z.2.getD w 0).prod)
    (chals : List (F × F)) (hch : (if zs = [] then 3 else 4) ≤ chals.length) (cs : List C) (hcs : cs.length = 5 + 2 * zs.length) (out : List F) (hol : out.length = 2 ^ n * (2 ^ H * 2 ^ d))
    (hout : ∀ i h c, i < 2 ^ n → h < 2 ^ H → c < 2 ^ d → headEntry (2 ^ H) (2 ^ d) out i h c
        = ∑ j ∈ Finset.range (2 ^ n), weights.getD ((h * 2 ^ n + i) * 2 ^ n + j) 0 * headEntry (2 ^ H) (2 ^ d) V j h c)
    (P : List F) (hP : P.length = H + n + d) (ts : T.State) :
    let X := scores (2 ^ H) (2 ^ d) (2 ^ n) Q K
    let shifted := (List.range (2 ^ (n + n + H))).map fun w => (scalar : F) * X.getD w 0 + shift.getD (w / 2 ^ n) 0
    let bias := (List.range (2 ^ (n + n + H))).map fun w => if w % 2 ^ n ≤ w / 2 ^ n % 2 ^ n then 0 else ninf
    let shape := [2 ^ n, 2 ^ H, 2 ^ d]
    ∃ proof cq ck cv ts', proveMha threads T ⟨shape, Q⟩ ⟨shape, K⟩ ⟨shape, V⟩ ⟨[2 ^ H, 2 ^ n, 2 ^ n], weights⟩ shape (n + n + H) ein eout lo hi zs shift shifted (causal (n + n + H) n) bias (n + H) cs chals
        ⟨P, mle out P⟩ ts = some (proof, (⟨cq, mle Q cq⟩, ⟨ck, mle K ck⟩, ⟨cv, mle V cv⟩), ts') ∧
      ((∀ l ∈ proof.softmax.logupProofs, ∀ sp ∈ l.sumcheckProofs, ∀ y ∈ sp.point, ∀ j : ℕ, j ≤ 3 → y ≠ (j : F)) →
        (∀ r ∈ proof.finalMul.sumcheck.point ++ proof.softmax.accumulation.point ++ proof.softmax.mask.point ++ proof.qk.sumcheck.point, ∀ j : ℕ, j ≤ zs.length + 3 → r ≠ (j : F)) →
        eqPoly proof.softmax.mask.point proof.softmax.accumulation.point ≠ 0 → mle (causal (n + n + H) n) proof.softmax.mask.point ≠ 0 → (scalar : F) ≠ 0 →
        verifyMha T p ⟨scalar, bkm, zs.length, zv⟩ shape shape shape [2 ^ H, 2 ^ n, 2 ^ n] shape (d + H) (n + H) chals ⟨P, mle out P⟩ proof ts
          = some ((⟨cq, mle Q cq⟩, ⟨ck, mle K ck⟩, ⟨cv, mle V cv⟩), (let sp := proof.softmax.accumulation.point
            cs.zip ([⟨sp, mle ein sp⟩, ⟨sp, mle eout sp⟩, ⟨sp, mle lo sp⟩, ⟨sp, mle hi sp⟩, ⟨proof.softmax.mask.point.drop n, mle shift (proof.softmax.mask.point.drop n)⟩]
              ++ zs.flatMap fun z => [⟨sp, mle z.1 sp⟩, ⟨sp, mle z.2 sp⟩])), ts')) := by
  intro X shifted bias shape
  have hc3 : ∀ k : ℕ, 0 < k → k ≤ 3 → (k : F) ≠ 0 := fun k h1 h2 => hchar k h1 (by omega)
  have hsq : 2 ^ (n + n + H) = 2 ^ H * 2 ^ n * 2 ^ n := by rw [pow_add, pow_add]; ring
  obtain ⟨fin, pl, pr, ts1, f1, f2, f3, f4, f5⟩ := C76_complete T threads ht hc3 finalLeft finalRight (by decide) (by decide) (some finalPerm) (by decide) ⟨[2 ^ H, 2 ^ n, 2 ^ n], weights⟩ ⟨shape, V⟩ H n n d
    (by simp [hwl, hsq]; ring) (by simp [hV, shape]) rfl rfl ⟨rfl, rfl, rfl⟩ ⟨rfl, rfl, rfl⟩ shape out (attended_product _ _ _ _ V out hol hout) P hP ts
  obtain ⟨soft, pt, ts3, g1, g2, g3, g4, g5⟩ := C80_complete_partial T threads ht p zs hZ hchar scalar bkm hs hb zv tv n H (n + n + H) htv rfl hnH ein eout lo hi shift X h1 h2 h3 h4 hzl
    (by rw [h5]; congr 1; omega) ninf hninf (by
      intro w hw
      have e1 : w / 2 ^ n / 2 ^ n < 2 ^ H := by
        rw [Nat.div_div_eq_div_mul, ← pow_add]
        apply Nat.div_lt_of_lt_mul
        rw [← pow_add]; exact hw
      have e2 : w / 2 ^ n % 2 ^ n < 2 ^ n := Nat.mod_lt _ (Nat.two_pow_pos n)
      have e3 : w % 2 ^ n < 2 ^ n := Nat.mod_lt _ (Nat.two_pow_pos n)
      have := hrel _ _ _ e1 e2 e3
      simp only [Nat.div_add_mod'] at this
      rw [this]
      have hx := scores_getD (2 ^ H) (2 ^ d) (2 ^ n) Q K e1 e2 e3
      simp only [Nat.div_add_mod'] at hx
      rw [hx]
      rfl) weights hwl hweights pl (by rw [f2]; ring) [2 ^ H] cs hcs chals hch ts1
  obtain ⟨qk, ql, qr, ts4, k1, k2, k3, k4, k5⟩ := C76_complete T threads ht hc3 qkDims qkDims (by decide) (by decide) none (by decide) ⟨shape, Q⟩ ⟨shape, K⟩ H n d n
    (by simp [hQ, shape]) (by simp [hK, shape]) rfl rfl ⟨rfl, rfl, rfl⟩ ⟨rfl, rfl, rfl⟩ [2 ^ H, 2 ^ n, 2 ^ n] X (scores_product _ _ _ Q K) pt (by rw [g2]; ring) ts3
  refine ⟨⟨fin, soft, qk⟩, ql, qr, pr, ts4, ?_, ?_⟩
  · unfold proveMha
    rw [f1]
    simp only [Option.bind_eq_bind, Option.bind_some]
    rw [show n + n + H - n = n + H by omega] at g1
    rw [show ([2 ^ H, 2 ^ n, 2 ^ n] : List ℕ).getLast? = some (2 ^ n) from rfl]
    simp only [Option.bind_some]
    have g1' : proveSoftmaxStep threads T (n + n + H) ein eout lo hi zs weights (2 ^ n) shift shifted (causal (n + n + H) n) bias (n + H) cs chals ⟨pl, mle weights pl⟩ ts1
      = some (soft, ⟨pt, scalar * mle X pt⟩, ts3) := g1
    rw [g1']
    simp only [Option.bind_some]
    have k1' : proveConcatMatMul threads T qkDims qkDims none ⟨shape, Q⟩ ⟨shape, K⟩ [2 ^ H, 2 ^ n, 2 ^ n] ⟨pt, scalar * mle X pt⟩ ts3 = some (qk, ⟨ql, mle Q ql⟩, ⟨qr, mle K qr⟩, ts4) := k1
    rw [k1']
    rfl
  · intro hlu hr hne hc hsc
    dsimp only at hlu hr hne hc ⊢
    rw [g3] at hr hne hc ⊢
    have hr' : ∀ (m : ℕ) (l : List F), m ≤ zs.length + 3 → (∀ x ∈ l, x ∈ fin.sumcheck.point ++ soft.accumulation.point ++ pt ++ qk.sumcheck.point) → ∀ x ∈ l, ∀ j : ℕ, j ≤ m → x ≠ (j : F) :=
      fun m l hm hl x hx j hj => hr x (hl x hx) j (by omega)
    have v1 := f5 (hr' _ _ (by omega) fun x hx => by simp [hx])
    have v2 := g5 hlu (hr' _ _ (by omega) fun x hx => by rcases List.mem_append.1 hx with hx | hx <;> simp [hx]) hne hc hsc
    have v3 := k5 (hr' _ _ (by omega) fun x hx => by simp [hx])
    unfold verifyMha
    dsimp only at v1 v2 v3 ⊢
    rw [v1]
    simp only [Option.bind_eq_bind, Option.bind_some]
    rw [show ([2 ^ H, 2 ^ n, 2 ^ n] : List ℕ) = [2 ^ H] ++ [2 ^ n, 2 ^ n] from rfl, v2]
    simp only [Option.bind_some]
    rw [show ([2 ^ H] ++ [2 ^ n, 2 ^ n] : List ℕ) = [2 ^ H, 2 ^ n, 2 ^ n] from rfl, v3]
    rfl

omit [DecidableEq F] in
theorem mha_softmax_none [DecidableEq F] (T : Transcript F) (threads : ℕ) (q k v weights : Tensor F) (out : List ℕ) (n : ℕ) (ein eout lo hi : List F) (zs : List (List F × List F)) (shift shifted tril bias : List F) (sv : ℕ)
    (cs : List C) (chals : List (F × F)) (last : Claim F) (ts : T.State)
    (h : ∀ (rowLen : ℕ), weights.shape.getLast? = some rowLen → ∀ (soft : Claim F) (ts : T.State), proveSoftmaxStep threads T n ein eout lo hi zs weights.data rowLen shift shifted tril bias sv cs chals soft ts = none) :
    proveMha threads T q k v weights out n ein eout lo hi zs shift shifted tril bias sv cs chals last ts = none := by
  unfold proveMha
  cases proveConcatMatMul threads T finalLeft finalRight (some finalPerm) weights v out last ts with
  | none => rfl
  | some r =>
    cases hl : weights.shape.getLast? with
    | none => rfl
    | some rowLen =>
      simp only [Option.bind_eq_bind, Option.bind_some]
      rw [h rowLen hl]
      rfl

/-- C82 is false for more than three zero chunks: the prover makes no proof, whatever the tensors and challenges are. -/
theorem C82_many_chunks_false (T : Transcript F) (threads : ℕ) (q k v weights : Tensor F) (out : List ℕ) (n : ℕ) (hn : 0 < n) (ein eout lo hi : List F) (zs : List (List F × List F)) (hZ : 4 ≤ zs.length)
    (shift shifted tril bias : List F) (sv : ℕ) (cs : List C) (chals : List (F × F)) (last : Claim F) (ts : T.State) :
    proveMha threads T q k v weights out n ein eout lo hi zs shift shifted tril bias sv cs chals last ts = none :=
  mha_softmax_none T threads q k v weights out n ein eout lo hi zs shift shifted tril bias sv cs chals last ts fun rowLen _ soft ts =>
    C80_many_chunks_false T threads zs hZ n hn ein eout lo hi weights.data shift shifted tril bias rowLen sv cs chals soft ts

/-- C82 is false for fewer than four rows in all heads together, one position and at most two heads or two positions and one head: the prover makes no proof, whatever the tensors and challenges are. -/
theorem C82_few_rows_false (T : Transcript F) (threads : ℕ) (q k v : Tensor F) (out : List ℕ) (n H : ℕ) (hnH : n + H ≤ 1) (ein eout weights lo hi : List F) (hwl : weights.length = 2 ^ (n + n + H)) (zs : List (List F × List F))
    (shift shifted tril bias : List F) (sv : ℕ) (cs : List C) (chals : List (F × F)) (last : Claim F) (ts : T.State) :
    proveMha threads T q k v ⟨[2 ^ H, 2 ^ n, 2 ^ n], weights⟩ out (n + n + H) ein eout lo hi zs shift shifted tril bias sv cs chals last ts = none :=
  mha_softmax_none T threads q k v _ out _ ein eout lo hi zs shift shifted tril bias sv cs chals last ts fun rowLen hl soft ts => by
    obtain rfl : 2 ^ n = rowLen := Option.some.inj hl
    exact C80_few_rows_false T threads zs n (n + H) hnH ein eout lo hi weights shift shifted tril bias (by rw [hwl]; congr 1; omega) _ sv cs chals soft ts

/-- Queries, keys and values of two positions and two heads of dimension two whose scores are `exScores` (see `exSoftmax`). -/
def exQ : List (ZMod 524287) := [-7, 0, -300, 9, 4, -5, 1, -6000]
def exK : List (ZMod 524287) := [1, 0, 1, 0, 0, 1, 0, 1]
def exV : List (ZMod 524287) := [3, 1, 4, 1, 5, 9, 2, 6]
def exOut : List (ZMod 524287) := [765, 255, 376, 94, 2040, 2550, 1530, 1785]

/-- The honest proof of the claim on the output at the point `19, 21, 22` is accepted, and one entry changed in the output makes it fail. -/
example : scores 2 2 2 exQ exK = exScores ∧
    (∀ i < 2, ∀ h < 2, ∀ c < 2, headEntry 2 2 exOut i h c = ∑ j ∈ Finset.range 2, exEout.getD ((h * 2 + i) * 2 + j) 0 * headEntry 2 2 exV j h c) ∧
    ((proveMha 1 (tape (ZMod 524287)) ⟨[2, 2, 2], exQ⟩ ⟨[2, 2, 2], exK⟩ ⟨[2, 2, 2], exV⟩ ⟨[2, 2, 2], exEout⟩ [2, 2, 2] 3 exEin exEout exLo exHi [] exShift
        ((List.range 8).map fun w => 3 * exScores.getD w 0 + exShift.getD (w / 2) 0) (causal 3 1) ((List.range 8).map fun w => if w % 2 ≤ w / 2 % 2 then 0 else -(2 ^ 18)) 2
        ["in", "out", "lo", "hi", "shift"] [(20, 100), (20, 1), (20, 1)] ⟨[19, 21, 22], mle exOut [19, 21, 22]⟩ ([24, 25] ++ exTape ++ [26, 27])).bind fun r =>
      (verifyMha (tape (ZMod 524287)) 524287 ⟨3, 3 * 2 ^ 16, 0, 0⟩ [2, 2, 2] [2, 2, 2] [2, 2, 2] [2, 2, 2] [2, 2, 2] 2 2 [(20, 100), (20, 1), (20, 1)] ⟨[19, 21, 22], mle exOut [19, 21, 22]⟩ r.1 ([24, 25] ++ exTape ++ [26, 27])).map fun c =>
        (decide (c.1.1.eval = mle exQ c.1.1.point), decide (c.1.2.1.eval = mle exK c.1.2.1.point), decide (c.1.2.2.eval = mle exV c.1.2.2.point), r.1.finalMul.individualClaims.length, r.1.qk.individualClaims.length,
          (verifyMha (tape (ZMod 524287)) 524287 ⟨3, 3 * 2 ^ 16, 0, 0⟩ [2, 2, 2] [2, 2, 2] [2, 2, 2] [2, 2, 2] [2, 2, 2] 2 2 [(20, 100), (20, 1), (20, 1)]
            ⟨[19, 21, 22], mle (exOut.set 0 766) [19, 21, 22]⟩ r.1 ([24, 25] ++ exTape ++ [26, 27])).isNone))
      = some (true, true, true, 3, 3, true) := by
  refine ⟨?_, ?_, ?_⟩
  · decide +kernel
  · decide +kernel
  · decide +kernel

end Props
