import Verif.Model.ConvVerify
import Verif.Lemmas.Fft
import Verif.Lemmas.SamePoly
import Verif.Lemmas.LookupLayers
import Verif.Props.SamePoly
import Verif.Props.Mle
import Mathlib.Algebra.Field.ZMod

/-!
Property C37: what an accepted convolution proof says.
-/

namespace Lemmas

open Model Spec

variable {F : Type} [Field F] [DecidableEq F]

theorem mapM_isSome {α β : Type} (f f' : α → Option β) (l : List α) (h : ∀ a ∈ l, (f a).isSome → (f' a).isSome)
    (hs : (l.mapM f).isSome) : (l.mapM f').isSome := by
  induction l with
  | nil => simp
  | cons a l ih =>
    obtain ⟨ys, hys⟩ := Option.isSome_iff_exists.mp hs
    simp only [List.mapM_cons, Option.bind_eq_bind, Option.bind_eq_some_iff, Option.pure_def, Option.some.injEq] at hys
    obtain ⟨y, hy, ys', hys', -⟩ := hys
    obtain ⟨z, hz⟩ := Option.isSome_iff_exists.mp (h a (by simp) (by simp [hy]))
    obtain ⟨zs, hzs⟩ := Option.isSome_iff_exists.mp (ih (fun b hb => h b (by simp [hb])) (by simp [hys']))
    simp [List.mapM_cons, hz, hzs]

omit [DecidableEq F] in
theorem yWeights_isSome (ctx : ConvVerifyCtx) (logNw : ℕ) (wp pe pe' : List F) (hl : pe.length = pe'.length)
    (h : (yWeights ctx logNw wp pe).isSome) : (yWeights ctx logNw wp pe').isSome := by
  unfold yWeights at h ⊢
  simp only [Option.bind_eq_bind, Option.isSome_bind, Option.isSome_some, Option.any_true] at h ⊢
  refine mapM_isSome _ _ _ ?_ h
  intro a _ ha
  simp only [Option.isSome_map, isSome_getElem?] at ha ⊢
  omega

end Lemmas

namespace Props

open Model Spec Lemmas

variable {F : Type} [Field F] [DecidableEq F]

/-- C37 is false: the output claim is not tied to the input or the filter. From any accepted proof one gets, for every input tensor `X` and every
filter `K`, a proof of the same output claim that is accepted and whose claims about `X` and `K` are true. The results of all
sumchecks are discarded, and the first entries of `fft_claims` and `fft_weight_claims` are compared with nothing but
`partial_evals`, which is the prover's as well. -/
theorem C37_input_and_filter_unbound_false (T : Transcript F) (adicity : ℕ) (g : F) (ctx : ConvVerifyCtx)
    (unpaddedInput paddedInput : List ℕ) (last : Claim F) (proof : ConvProof F) (ts ts' : T.State) (input filter bias : Claim F)
    (h : verifyConv T adicity g ctx unpaddedInput paddedInput last proof ts = some (input, filter, bias, ts')) (X K : List F) :
    ∃ proof' : ConvProof F, verifyConv T adicity g ctx unpaddedInput paddedInput last proof' ts
      = some (⟨input.point, mle X input.point⟩, ⟨filter.point, mle K filter.point⟩, bias, ts') := by
  unfold verifyConv at h
  simp only [Option.bind_eq_bind, Option.bind_eq_some_iff] at h
  obtain ⟨⟨last', ts1⟩, hclear, fft1, hf1, w1, hw1, ts2, hmid, ⟨wp, v⟩, hpop, logNw, hnw, y, hy, w0, hw0, h⟩ := h
  dsimp only at *
  by_cases hc : w0 * v = y
  swap
  · rw [if_neg hc] at h; simp at h
  rw [if_pos hc] at h
  unfold convClaims at h
  simp only [Option.bind_eq_bind, Option.bind_eq_some_iff, Option.some.injEq, Prod.mk.injEq] at h
  obtain ⟨logReal, hlr, logFs, hfs, tail, htail, bp, hbp, log2nw, hl2, ft, hft, m, hm, fe, hfe, ⟨ip, v'⟩, hpop', log2fs, hl2f, it, hit,
    fft0, hf0, hin, hfil, hbias, hts⟩ := h
  have hv : ∀ (p q : List F) (v : F), popInverse p = some (q, v) → v ≠ 0 := by
    intro p q v hp
    unfold popInverse at hp
    simp only [Option.bind_eq_bind, Option.bind_eq_some_iff] at hp
    obtain ⟨x, -, hp⟩ := hp
    by_cases hx : 1 - x = 0
    · rw [if_pos hx] at hp; simp at hp
    · rw [if_neg hx] at hp
      simp only [Option.some.injEq, Prod.mk.injEq] at hp
      rw [← hp.2]
      exact inv_ne_zero hx
  have hv1 := hv _ _ _ hpop
  have hv2 := hv _ _ _ hpop'
  -- the filter
  obtain ⟨t, ht⟩ : ∃ t, t = mle K filter.point := ⟨_, rfl⟩
  have hpe : (List.replicate proof.partialEvals.length t).length = proof.partialEvals.length := List.length_replicate ..
  obtain ⟨y', hy'⟩ := Option.isSome_iff_exists.mp
    (yWeights_isSome ctx logNw wp proof.partialEvals (List.replicate proof.partialEvals.length t) hpe.symm (by simp [hy]))
  have hm' : m = ⟨Nat.log2 proof.partialEvals.length, proof.partialEvals⟩ ∧
      proof.partialEvals.length = 2 ^ Nat.log2 proof.partialEvals.length := by
    unfold Mle.ofEvals at hm
    by_cases hp : proof.partialEvals.length = 2 ^ Nat.log2 proof.partialEvals.length
    · rw [if_pos hp] at hm; exact ⟨(Option.some.inj hm).symm, hp⟩
    · rw [if_neg hp] at hm; simp at hm
  have hrl : Nat.log2 proof.partialEvals.length = (T.sampleN logReal ts2).1.length := by
    by_contra hne
    rw [C01_evaluate_wrong_length m _ (by rw [hm'.1]; exact hne)] at hfe
    simp at hfe
  have hofe : Mle.ofEvals (Nat.log2 proof.partialEvals.length) (List.replicate proof.partialEvals.length t)
      = some ⟨Nat.log2 proof.partialEvals.length, List.replicate proof.partialEvals.length t⟩ := by
    unfold Mle.ofEvals; rw [if_pos (by rw [hpe]; exact hm'.2)]
  have heval : (⟨Nat.log2 proof.partialEvals.length, List.replicate proof.partialEvals.length t⟩ : Mle F).evaluate (T.sampleN logReal ts2).1
      = some t := by
    rw [evaluate_eq ⟨Nat.log2 proof.partialEvals.length, List.replicate proof.partialEvals.length t⟩ (by simpa using hm'.2) _ hrl.symm]
    refine congrArg some ?_
    dsimp only
    rw [show List.replicate proof.partialEvals.length t = List.replicate (2 ^ Nat.log2 proof.partialEvals.length) t by rw [← hm'.2]]
    exact mle_replicate _ t _ hrl.symm
  refine ⟨{ proof with
    fftClaims := [mle X input.point / v', fft1]
    fftWeightClaims := [y' / v, w1]
    partialEvals := List.replicate proof.partialEvals.length t }, ?_⟩
  have hmid' : convMiddle T adicity g ctx last' { proof with
    fftClaims := [mle X input.point / v', fft1]
    fftWeightClaims := [y' / v, w1]
    partialEvals := List.replicate proof.partialEvals.length t } fft1 w1 ts1 = some ts2 := hmid
  unfold verifyConv convClaims
  simp only [hclear, Option.bind_eq_bind, Option.bind_some, List.getElem?_cons_succ, List.getElem?_cons_zero, hmid', hpop, hnw, hy',
    div_mul_cancel₀ _ hv1, if_true, hlr, hfs, htail, hbp, hl2, hft, hpe, hofe, heval, hpop', hl2f, hit, div_mul_cancel₀ _ hv2]
  rw [← hin, ← hfil, ← hbias, ← hts, ht, ← hfil]

/-- C37, part: what the verifier does establish is the clearing of the garbage entries. If the verifier accepts there is a claim
about the output before clearing, with the verifier's own final check; when it is true of a table `Y`, the output claim is true of `Y`
times the clearing tensor, unless the prover was lucky in that sumcheck. Missing: everything after it, see
`C37_input_and_filter_unbound_false`; and that the point is the verifier's, see `C62_prover_point_false`. -/
theorem C37_clearing_partial (T : Transcript F) (hchar : ∀ k : ℕ, 0 < k → k ≤ 3 → (k : F) ≠ 0) (adicity : ℕ) (g : F) (ctx : ConvVerifyCtx)
    (unpaddedInput paddedInput : List ℕ) (last : Claim F) (proof : ConvProof F) (ts ts' : T.State) (input filter bias : Claim F)
    (h : verifyConv T adicity g ctx unpaddedInput paddedInput last proof ts = some (input, filter, bias, ts'))
    (o r c og1 og2 og3 : ℕ) (hog : conv2dShape unpaddedInput ctx.unpaddedFilter = some [og1, og2, og3])
    (hreal : conv2dShape paddedInput ctx.paddedFilter = some [o, r, c])
    (hsize : nextPow2 o * nextPow2 r * nextPow2 c = 2 ^ last.point.length)
    (hpt : ∀ sc ts'', verify T last.eval proof.clearing.sumcheck 3 last.point.length ts = some (sc, ts'') →
      proof.clearing.sumcheck.point = sc.point) :
    ∃ uncleared : Claim F, uncleared.point.length = last.point.length ∧
      ∀ Y : List F, Y.length = 2 ^ last.point.length → uncleared.eval = mle Y uncleared.point →
        last.eval = mle ((List.range (2 ^ last.point.length)).map fun idx =>
            if idx / (nextPow2 r * nextPow2 c) < og1 ∧ idx / nextPow2 c % nextPow2 r < og2 ∧ idx % nextPow2 c < og3
            then Y.getD idx 0 else 0) last.point ∨
        LuckyRound 3 last.point.length (fun pt => eqPoly last.point pt * mle Y pt *
            mle ((List.range (2 ^ last.point.length)).map fun idx =>
              if idx / (nextPow2 r * nextPow2 c) < og1 ∧ idx / nextPow2 c % nextPow2 r < og2 ∧ idx % nextPow2 c < og3 then 1 else 0) pt)
          proof.clearing.sumcheck.proofs uncleared.point := by
  unfold verifyConv at h
  simp only [Option.bind_eq_bind, Option.bind_eq_some_iff] at h
  obtain ⟨⟨u, ts1⟩, hclear, -⟩ := h
  unfold verifyClearing at hclear
  simp only [hog, hreal, Option.bind_eq_bind, Option.bind_some, List.map_cons, List.map_nil, clearingTensor, hsize, List.length_map,
    List.length_range, Nat.log2_two_pow] at hclear
  obtain ⟨tensor, htensor⟩ : ∃ t : List F, t = (List.range (2 ^ last.point.length)).map fun idx =>
              if idx / (nextPow2 r * nextPow2 c) < og1 ∧ idx / nextPow2 c % nextPow2 r < og2 ∧ idx % nextPow2 c < og3 then 1 else 0 :=
    ⟨_, rfl⟩
  rw [← htensor] at hclear ⊢
  have htl : tensor.length = 2 ^ last.point.length := by rw [htensor]; simp
  simp only [Option.bind_eq_some_iff] at hclear
  obtain ⟨m, hm, e, he, hh⟩ := hclear
  have hm' : m = ⟨last.point.length, tensor⟩ := by
    unfold Mle.ofEvals at hm; rw [if_pos htl] at hm; exact (Option.some.inj hm).symm
  subst hm'
  have hn2 : nextPow2 (2 ^ last.point.length) = 2 ^ last.point.length := nextPow2_pow _
  rw [hn2, Nat.log2_two_pow] at hh
  have hpl : last.point.length = proof.clearing.sumcheck.point.length := by
    by_contra hne
    rw [C01_evaluate_wrong_length _ _ hne] at he
    simp at he
  rw [evaluate_eq _ (by simpa using htl) _ hpl.symm, Option.some.injEq] at he
  have hup : u.point = proof.clearing.sumcheck.point := by
    have hh' := hh
    unfold verifyHadamard at hh'
    simp only [Option.bind_eq_bind, Option.bind_eq_some_iff] at hh'
    obtain ⟨_, _, _, _, e1, _, hh'⟩ := hh'
    by_cases h1 : e = e1
    · rw [if_pos h1] at hh'
      simp only [Option.bind_eq_some_iff] at hh'
      obtain ⟨e0, _, hh'⟩ := hh'
      split at hh'
      · simp only [Option.some.injEq, Prod.mk.injEq] at hh'
        rw [← hh'.1]
      · simp at hh'
    · rw [if_neg h1] at hh'; simp at hh'
  refine ⟨u, by rw [hup, hpl], fun Y hY hu => ?_⟩
  rcases C62_hadamard_sound_partial T hchar Y tensor last hY htl e proof.clearing ts ts1 u hh hu (by rw [hup, ← he]) hpt with h1 | h1
  · left
    rw [h1]
    congr 1
    apply List.ext_getElem
    · simp [hY, htl]
    · intro i hi1 hi2
      have hi : i < 2 ^ last.point.length := by simpa using hi2
      rw [List.getElem_zipWith, List.getElem_map, List.getElem_range]
      rw [List.getD_eq_getElem _ _ (by omega)]
      simp only [htensor, List.getElem_map, List.getElem_range]
      split <;> simp
  · exact Or.inr h1

/-- The proof of the example below: a 1 × 1 filter on a 2 × 2 input over the field with 97 elements. -/
private def exampleConv : ConvProof (ZMod 97) :=
  ⟨⟨[58, 79, 23], [[70, 70, 70], [35, 35, 35], [66, 66, 66]]⟩, ⟨[62, 45, 33], [[69, 69, 69], [83, 83, 83], [90, 90, 90]]⟩, [⟨[83,
    41], [[52, 52, 52, 52], [26, 26, 26, 26]]⟩, ⟨[37], [[49, 49, 49, 49]]⟩], [⟨[59, 30], [[53, 53, 53, 53], [75, 75, 75, 75]]⟩,
    ⟨[27], [[53, 53, 53, 53]]⟩], ⟨[13, 69, 41], [[23, 23, 23], [60, 60, 60], [30, 30, 30]]⟩, [⟨[93, 16], [[60, 60, 60, 60], [30,
    30, 30, 30]]⟩, ⟨[24], [[10, 10, 10, 10]]⟩], ⟨[57, 70, 41], [[64, 64, 64, 64], [32, 32, 32, 32], [16, 16, 16, 16]]⟩, [29, 7],
    [23, 9], [31, 23], [[95, 5, 1], [9, 37, 71]], [[29, 59, 9], [94, 36, 18]], [[53, 46, 20], [80, 72, 85]], [13], [41, 43, 75],
    11, ⟨⟨[93, 77], [[33, 54, 25, 43], [53, 75, 25, 0]]⟩, [57, 1]⟩⟩

instance fact97Conv : Fact (Nat.Prime 97) := ⟨by decide +kernel⟩

/-- The hypotheses of both theorems are met: an accepted proof, whose clearing sumcheck ran at the verifier's point. -/
example : verifyConv (tape (ZMod 97)) 5 28 ⟨1, 2, 1, 4, [1, 1, 1, 1], [1, 1, 1, 1]⟩ [1, 2, 2] [1, 2, 2] ⟨[89, 42], 87⟩ exampleConv
    [93, 77, 13, 69, 41, 93, 16, 24, 57, 70, 41, 58, 79, 23, 83, 41, 37, 62, 45, 33, 59, 30, 27]
    = some (⟨[40, 19], 56⟩, ⟨[], 13⟩, ⟨[], 11⟩, []) := by
  decide +kernel

example : (verify (tape (ZMod 97)) 87 exampleConv.clearing.sumcheck 3 2 [93, 77]).map (fun r => r.1.point)
      = some exampleConv.clearing.sumcheck.point ∧
    conv2dShape [1, 2, 2] [1, 1, 1, 1] = some [1, 2, 2] ∧ nextPow2 1 * nextPow2 2 * nextPow2 2 = 2 ^ 2 := by
  decide +kernel

end Props
