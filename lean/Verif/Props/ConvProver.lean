import Verif.Lemmas.ConvAssemble
import Verif.Props.ConvVerify

/-!
Property C98: honest convolution proofs are accepted.
-/

namespace Props

open Spec Model Lemmas

variable {F : Type} [Field F] [DecidableEq F]

/-- C98. For every convolution layer whose dimensions are powers of two (2^a filters over 2^e channels, kernels of 2^k×2^k entries,
frames of 2^m×2^m entries, at least 2×2, and the kernel 1×1 or smaller than the frame), every input of the frame's size on which the
layer evaluates, and every point `r`: from the data of the evaluation and the true claim about the output the prover produces a proof, a
true claim about the filter and a true claim about the bias. Unless the last challenge of the sumcheck for the input's transform is 1, which
makes the prover divide by zero, it also computes a true claim about the input. Unless a challenge in the points of the proof's sumchecks is
one of 0 to 3, the verifier accepts the proof, returns the same three claims and ends in the prover's transcript state. The roots of unity of the field have to suffice for the transforms, and the conversion of field elements
to integers has to invert that of integers (see C18). -/
theorem C98_complete (T : Transcript F) (threads : ℕ) (ht : 0 < threads) (hchar : ∀ k : ℕ, 0 < k → k ≤ 3 → (k : F) ≠ 0)
    (A : ℕ) (g : F) (hg : IsPrimitiveRoot g (2 ^ A)) (toE : F → ℤ) (hE : ∀ z : ℤ, ((toE (z : F) : ℤ) : F) = z)
    (a e k m : ℕ) (hm1 : 1 ≤ m) (hm : 2 * m + 1 ≤ A) (hk : k = 0 ∨ k < m) (layer : Conv)
    (hshape : layer.filter.shape = [2 ^ a, 2 ^ e, 2 ^ m, 2 ^ m]) (hkernel : layer.filter.ogShape = [2 ^ a, 2 ^ e, 2 ^ k, 2 ^ k])
    (hfilter : layer.filter.data.length = 2 ^ a * 2 ^ e * 2 ^ k * 2 ^ k) (hbias : layer.bias.length = 2 ^ a)
    (x : Tensor ℤ) (hxs : x.shape = [2 ^ e, 2 ^ m, 2 ^ m]) (hxl : x.data.length = 2 ^ e * (2 ^ m * 2 ^ m))
    (unpadded og : List ℕ) (y : Tensor ℤ) (hy : layer.op A g Int.cast toE x unpadded = some y)
    (hog : conv2dShape unpadded layer.unpadded = some og) (r : List F) (hr : r.length = 2 * m + a) (ts : T.State) :
    ∃ d ctx proof fpt bpt ts', layer.provingData A g Int.cast toE x = some d ∧ layer.verifyCtx = some ctx ∧
      proveConv threads T A g Int.cast layer d og y.shape ⟨r, mle (y.data.map Int.cast) r⟩ ts
        = some (proof, ⟨fpt, mle (layer.filter.data.map Int.cast) fpt⟩, ⟨bpt, mle (layer.bias.map Int.cast) bpt⟩, ts') ∧
      fpt.length = 2 * k + e + a ∧ bpt.length = a ∧ ∃ ipt : List F, ipt.length = 2 * m + e ∧
      (proof.fftProof.point.getLast? ≠ some 1 → convInputClaim ctx.filterSize proof = some ⟨ipt, mle (x.data.map Int.cast) ipt⟩) ∧
      ((∀ s ∈ [proof.clearing.sumcheck, proof.fftProof, proof.fftProofWeights, proof.ifftProof, proof.hadamardProof]
          ++ proof.fftDelegation ++ proof.fftDelegationWeights ++ proof.ifftDelegation, ∀ v ∈ s.point, ∀ n : ℕ, n ≤ 3 → v ≠ (n : F)) →
          verifyConv T A g ctx unpadded x.shape ⟨r, mle (y.data.map Int.cast) r⟩ proof ts
            = some (⟨ipt, mle (x.data.map Int.cast) ipt⟩, ⟨fpt, mle (layer.filter.data.map Int.cast) fpt⟩,
                ⟨bpt, mle (layer.bias.map Int.cast) bpt⟩, ts')) := by
  obtain ⟨w, hw, _⟩ := primitive_of_square A g hg (2 * m + 1) hm
  have hkm : 2 ^ k ≤ 2 ^ m := Nat.pow_le_pow_right (by omega) (by omega)
  obtain ⟨d, d1, d2, d3, d4, d5⟩ := conv_data Int.cast (fun v => ⟨v, rfl⟩) A g hg toE hE m hm w hw layer x (2 ^ a) (2 ^ e) (2 ^ k) hxs hxl hshape hkernel hfilter hkm hbias
    (fun _ _ _ => Int.cast_add _ _)
  obtain ⟨og', ho, hcl⟩ := d5 unpadded y hy
  rw [hog] at ho
  obtain rfl := Option.some.inj ho
  obtain ⟨hys, t, t1, t2, t3⟩ := clear_data (Int.cast : ℤ → F) Int.cast_zero (2 ^ a) (2 ^ m) (2 ^ m) d.outputAsElement og y d3 hcl
  obtain ⟨proof, fpt, bpt, ts', q1, q2, q3, ipt, q4, q5, q6⟩ := conv_run Int.cast T threads ht hchar A g hg m hm1 hm w hw layer x a e k hxl hshape hkernel hfilter hk hbias d d2 d3 d4
    unpadded og hog t t2 t1 r hr ts
  refine ⟨d, ⟨2 ^ e, 2 ^ m, 2 ^ k, 2 ^ m * 2 ^ m, layer.unpadded, layer.filter.ogShape⟩, proof, fpt, bpt, ts', d1, ?_, ?_, q2, q3, ipt, q4, q5, fun hgen => ?_⟩
  · unfold Conv.verifyCtx
    rw [hshape, hkernel]
    rfl
  · rw [hys, t3]; exact q1
  · rw [t3, hxs]
    exact q6 hgen

/-- C98, for the layers that are built from a model: for a filter of o×c×k×k entries, a bias of o entries and inputs of c×h×h entries,
k ≤ h and h ≥ 2, with the padded kernel 1×1 or smaller than the padded input. The layer is prepared for the FFT, it evaluates on every
padded input (any entries, also in the padding), and the honest proof of this evaluation is accepted. -/
theorem C98_layer_complete (T : Transcript F) (threads : ℕ) (ht : 0 < threads) (hchar : ∀ k : ℕ, 0 < k → k ≤ 3 → (k : F) ≠ 0)
    (A : ℕ) (g : F) (hg : IsPrimitiveRoot g (2 ^ A)) (toE : F → ℤ) (hE : ∀ z : ℤ, ((toE (z : F) : ℤ) : F) = z)
    (filter bias : Tensor ℤ) (c h o k : ℕ) (hfs : filter.shape = [o, c, k, k]) (hfl : filter.data.length = o * (c * (k * k)))
    (hbs : bias.shape = [o]) (hbl : bias.data.length = o) (hc : 0 < c) (ho : 0 < o) (hk : 0 < k) (hh : 2 ≤ h) (hkh : k ≤ h)
    (hfit : nextPow2 k = 1 ∨ nextPow2 k < nextPow2 h) (hA : 2 * (nextPow2 h * nextPow2 h) ≤ 2 ^ A)
    (xp : Tensor ℤ) (hxps : xp.shape = [nextPow2 c, nextPow2 h, nextPow2 h]) (hxpl : xp.data.length = nextPow2 c * (nextPow2 h * nextPow2 h)) :
    ∃ layer y og d ctx, intoPaddedAndFfted filter bias [c, h, h] = some layer ∧ layer.op A g Int.cast toE xp [c, h, h] = some y ∧
      conv2dShape [c, h, h] layer.unpadded = some og ∧ layer.provingData A g Int.cast toE xp = some d ∧ layer.verifyCtx = some ctx ∧
      y.shape = [nextPow2 o, nextPow2 h, nextPow2 h] ∧
      ∀ (r : List F) (ts : T.State), 2 ^ r.length = nextPow2 o * (nextPow2 h * nextPow2 h) →
      ∃ proof fpt bpt ts', proveConv threads T A g Int.cast layer d og y.shape ⟨r, mle (y.data.map Int.cast) r⟩ ts
          = some (proof, ⟨fpt, mle (layer.filter.data.map Int.cast) fpt⟩, ⟨bpt, mle (layer.bias.map Int.cast) bpt⟩, ts') ∧
        2 ^ fpt.length = layer.filter.data.length ∧ 2 ^ bpt.length = layer.bias.length ∧ ∃ ipt : List F, 2 ^ ipt.length = xp.data.length ∧
        (proof.fftProof.point.getLast? ≠ some 1 → convInputClaim ctx.filterSize proof = some ⟨ipt, mle (xp.data.map Int.cast) ipt⟩) ∧
        ((∀ s ∈ [proof.clearing.sumcheck, proof.fftProof, proof.fftProofWeights, proof.ifftProof, proof.hadamardProof]
            ++ proof.fftDelegation ++ proof.fftDelegationWeights ++ proof.ifftDelegation, ∀ v ∈ s.point, ∀ n : ℕ, n ≤ 3 → v ≠ (n : F)) →
            verifyConv T A g ctx [c, h, h] xp.shape ⟨r, mle (y.data.map Int.cast) r⟩ proof ts
              = some (⟨ipt, mle (xp.data.map Int.cast) ipt⟩, ⟨fpt, mle (layer.filter.data.map Int.cast) fpt⟩,
                  ⟨bpt, mle (layer.bias.map Int.cast) bpt⟩, ts')) := by
  obtain ⟨m, hm⟩ : ∃ m, nextPow2 h = 2 ^ m := ⟨_, rfl⟩
  obtain ⟨e, he⟩ : ∃ e, nextPow2 c = 2 ^ e := ⟨_, rfl⟩
  obtain ⟨a, ha⟩ : ∃ a, nextPow2 o = 2 ^ a := ⟨_, rfl⟩
  obtain ⟨b, hb⟩ : ∃ b, nextPow2 k = 2 ^ b := ⟨_, rfl⟩
  have hnh := le_nextPow2 h
  have hm1 : 1 ≤ m := by
    rcases Nat.eq_zero_or_pos m with h0 | h0
    · rw [hm, h0] at hnh; omega
    · exact h0
  have hmA : 2 * m + 1 ≤ A := by
    rw [hm] at hA
    have : 2 ^ (2 * m + 1) ≤ 2 ^ A := by
      calc 2 ^ (2 * m + 1) = 2 * (2 ^ m * 2 ^ m) := by rw [pow_succ, two_mul m, pow_add]; ring
        _ ≤ 2 ^ A := hA
    exact (Nat.pow_le_pow_iff_right (by omega)).1 this
  have hbm : b = 0 ∨ b < m := by
    rw [hb, hm] at hfit
    rcases hfit with h1 | h1
    · left
      rcases Nat.eq_zero_or_pos b with h0 | h0
      · exact h0
      · have := Nat.one_lt_two_pow (by omega : b ≠ 0); omega
    · right; exact (Nat.pow_lt_pow_iff_right (by omega)).1 h1
  have hKn : nextPow2 k ≤ nextPow2 h := by
    rw [hb, hm]; exact Nat.pow_le_pow_right (by omega) (by omega)
  obtain ⟨fd, f1, f2, -⟩ := padNextPow2_spec filter 0 (by rw [hfs]; simp) (by rw [hfs]; simp; omega) (by rw [hfl, hfs]; simp)
  obtain ⟨bd, b1, b2, -⟩ := padNextPow2_spec bias 0 (by rw [hbs]; simp) (by rw [hbs]; simp; omega) (by rw [hbl, hbs]; simp)
  have hmapf : filter.shape.map nextPow2 = [nextPow2 o, nextPow2 c, nextPow2 k, nextPow2 k] := by rw [hfs]; rfl
  have hmapb : bias.shape.map nextPow2 = [nextPow2 o] := by rw [hbs]; rfl
  rw [hmapf] at f1 f2
  rw [hmapb] at b1 b2
  have hlayer : intoPaddedAndFfted filter bias [c, h, h]
      = some ⟨⟨[nextPow2 o, nextPow2 c, nextPow2 h, nextPow2 h], [nextPow2 o, nextPow2 c, nextPow2 k, nextPow2 k], fd⟩, bd, filter.shape⟩ := by
    unfold intoPaddedAndFfted
    simp only [f1, b1, Option.bind_eq_bind, Option.bind_some, intoFftConv]
    rw [if_pos ⟨by rw [f2], by rw [hb]; exact nextPow2_pow b⟩]
    simp only [List.map_cons, List.getElem?_cons_succ, List.getElem?_cons_zero, Option.bind_some]
    rw [checkedSub, if_pos hKn]
    simp only [Option.bind_some]
    have := frame_size m b (by rw [← hb, ← hm]; exact hfit)
    rw [← hm, ← hb] at this
    rw [this]
  have hf2 : fd.length = 2 ^ a * 2 ^ e * 2 ^ b * 2 ^ b := by rw [f2, ha, he, hb]; simp; ring
  have hb2 : bd.length = 2 ^ a := by rw [b2, ha]; simp
  rw [ha, he, hb, hm] at hlayer
  rw [he, hm] at hxps hxpl
  rw [ha, hm]
  obtain ⟨w, hw, _⟩ := primitive_of_square A g hg (2 * m + 1) hmA
  have hkm : 2 ^ b ≤ 2 ^ m := Nat.pow_le_pow_right (by omega) (by omega)
  obtain ⟨layer, hl⟩ : ∃ layer : Conv, layer = ⟨⟨[2 ^ a, 2 ^ e, 2 ^ m, 2 ^ m], [2 ^ a, 2 ^ e, 2 ^ b, 2 ^ b], fd⟩, bd, filter.shape⟩ := ⟨_, rfl⟩
  obtain ⟨od, o1, o2, -⟩ := fftConv_spec A g hg (Int.cast : ℤ → F) toE m hmA layer.filter xp (2 ^ e) (2 ^ a) (2 ^ e) (2 ^ b)
    hxps hxpl (by rw [hl]) (by rw [hl]) (by rw [hl]; exact hf2) (le_refl _) hkm
  obtain ⟨ad, a1, a2, -⟩ := addBias_spec layer.bias (2 ^ a) (2 ^ m) od o2 (by rw [hl]; exact hb2.ge)
  obtain ⟨cd, c1, c2, -⟩ := clearGarbage_spec (2 ^ a) (2 ^ m) (2 ^ m) o (h - k + 1) (h - k + 1) ad a2
  have hshape : conv2dShape [c, h, h] layer.unpadded = some [o, h - k + 1, h - k + 1] := by
    rw [hl]
    dsimp only
    rw [hfs]
    simp only [conv2dShape, List.length_cons, List.length_nil, if_true, List.getElem?_cons_succ, List.getElem?_cons_zero, Option.bind_eq_bind,
      Option.bind_some, checkedSub]
    rw [if_pos (by omega), Option.bind_some, if_pos (by omega), Option.bind_some, if_pos (by omega)]
    simp only [Option.bind_some]
    rw [show h - (k - 1) - 1 + 1 = h - k + 1 by omega]
  have hop : layer.op A g (Int.cast : ℤ → F) toE xp [c, h, h] = some ⟨[2 ^ a, 2 ^ m, 2 ^ m], cd⟩ := by
    unfold Conv.op
    simp only [o1, Option.bind_eq_bind, Option.bind_some, a1, hshape, c1]
  rw [← hl] at hlayer
  have main := C98_complete T threads ht hchar A g hg toE hE a e b m hm1 hmA hbm layer (by rw [hl]) (by rw [hl]) (by rw [hl]; exact hf2)
    (by rw [hl]; exact hb2) xp hxps hxpl [c, h, h] [o, h - k + 1, h - k + 1] _ hop hshape
  obtain ⟨d, d1, -⟩ := conv_data Int.cast (fun v => ⟨v, rfl⟩) A g hg toE hE m hmA w hw layer xp (2 ^ a) (2 ^ e) (2 ^ b) hxps hxpl (by rw [hl]) (by rw [hl])
    (by rw [hl]; exact hf2) hkm (by rw [hl]; exact hb2) (fun _ _ _ => Int.cast_add _ _)
  have hctx : layer.verifyCtx = some ⟨2 ^ e, 2 ^ m, 2 ^ b, 2 ^ m * 2 ^ m, layer.unpadded, layer.filter.ogShape⟩ := by rw [hl]; rfl
  refine ⟨layer, _, _, d, _, hlayer, hop, hshape, d1, hctx, rfl, fun r ts hr => ?_⟩
  have hr' : r.length = 2 * m + a := by
    rw [← pow_add, ← pow_add] at hr
    have := Nat.pow_right_injective (le_refl 2) hr
    omega
  obtain ⟨d', ctx, proof, fpt, bpt, ts', m1, m2, m3, m4, m5, ipt, i1, i2, i3⟩ := main r hr' ts
  rw [d1] at m1
  rw [hctx] at m2
  obtain rfl := Option.some.inj m1
  obtain rfl := Option.some.inj m2
  refine ⟨proof, fpt, bpt, ts', m3, ?_, ?_, ipt, ?_, i2, i3⟩
  · rw [m4, hl]
    dsimp only
    rw [hf2, ← pow_add, ← pow_add, ← pow_add]
    congr 1; omega
  · rw [m5, hl]
    exact hb2.symm
  · rw [i1, hxpl, ← pow_add, ← pow_add]
    congr 1; omega

/-- C98 is false of frames of one entry: the verifier panics on every proof of a convolution of 1×1 inputs, because the list of the powers of
the root of unity that it computes would be empty. -/
theorem C98_unit_frame_false (T : Transcript F) (A : ℕ) (g : F) (layer : Conv) (a e : ℕ) (hshape : layer.filter.shape = [a, e, 1, 1])
    (ctx : ConvVerifyCtx) (hctx : layer.verifyCtx = some ctx) (unpadded padded : List ℕ) (last : Claim F) (proof : ConvProof F) (ts : T.State) :
    verifyConv T A g ctx unpadded padded last proof ts = none := by
  have hfs : ctx.filterSize = 1 := by
    have s1 : layer.filter.shape[1]? = some e := by rw [hshape]; rfl
    have s2 : layer.filter.shape[2]? = some 1 := by rw [hshape]; rfl
    unfold Conv.verifyCtx at hctx
    rw [s1, s2] at hctx
    obtain ⟨r, -, h⟩ := Option.bind_eq_some_iff.1 (show Option.bind layer.filter.ogShape[2]? _ = some ctx from hctx)
    rw [← Option.some.inj h]
  have hmid : ∀ (last : Claim F) (f w : F) (ts : T.State), convMiddle T A g ctx last proof f w ts = none := by
    intro last f w ts
    unfold convMiddle
    rw [hfs]
    simp only [Option.bind_eq_bind]
    have : ilog2 1 = some 0 := by decide
    rw [this, Option.bind_some]
    cases ilog2 (ctx.kx * 1) with
    | none => rfl
    | some lh =>
      rw [Option.bind_some]
      cases verify T (last.eval - proof.biasClaim) proof.ifftProof 2 (0 + 1) ts with
      | none => rfl
      | some v =>
        rw [Option.bind_some]
        by_cases hz : 0 = proof.ifftDelegation.length
        · refine Eq.trans (if_pos hz) ?_
          cases proof.ifftClaims[1]? with
          | none => rfl
          | some c1 =>
            rw [Option.bind_some, ← hz]
            have : powTwoOmegas A g (0 + 1) true = none := by
              unfold powTwoOmegas
              cases rootOfUnity A g (0 + 1) with
              | none => rfl
              | some w => simp
            rw [this, Option.bind_none]
        · exact if_neg hz
  unfold verifyConv
  simp only [Option.bind_eq_bind]
  cases verifyClearing T ctx unpadded padded last proof.clearing ts with
  | none => rfl
  | some lt =>
    rw [Option.bind_some]
    cases proof.fftClaims[1]? with
    | none => rfl
    | some f =>
      rw [Option.bind_some]
      cases proof.fftWeightClaims[1]? with
      | none => rfl
      | some w =>
        rw [Option.bind_some, hmid, Option.bind_none]

/-- The conversion of the code meets the hypothesis of the theorems above in every prime field. -/
theorem C98_conversion (p : ℕ) [NeZero p] (z : ℤ) : ((toElement ((z : ℤ) : ZMod p) : ℤ) : ZMod p) = z := by
  have hv : ∀ x : ZMod p, ((toElement x : ℤ) : ZMod p) = x := by
    intro x
    have hx := ZMod.natCast_zmod_val x
    have hlt := ZMod.val_lt x
    unfold toElement
    dsimp only
    split
    · rename_i h
      rw [h] at hx
      simpa using hx
    · split
      · rw [Int.cast_natCast, hx]
      · rw [Int.cast_neg, Int.cast_natCast, Nat.cast_sub hlt.le, hx]
        simp
  exact hv _

/-- An honest run of prover and verifier on a layer with two filters and inputs of 2×2 entries, modulo 97: the output, and whether the proof is
accepted with the right claims and the same transcript. -/
private def exampleRun (r st : List (ZMod 97)) : Option (List ℤ × Bool) := do
  let l ← intoPaddedAndFfted ⟨[2, 1, 1, 1], [3, -2]⟩ ⟨[2], [1, 5]⟩ [1, 2, 2]
  let y ← l.op 5 (28 : ZMod 97) Int.cast toElement ⟨[1, 2, 2], [2, -3, 4, 1]⟩ [1, 2, 2]
  let d ← l.provingData 5 (28 : ZMod 97) Int.cast toElement ⟨[1, 2, 2], [2, -3, 4, 1]⟩
  let ctx ← l.verifyCtx
  let og ← conv2dShape [1, 2, 2] l.unpadded
  let res ← proveConv 1 (tape (ZMod 97)) 5 (28 : ZMod 97) Int.cast l d og y.shape ⟨r, mle (y.data.map Int.cast) r⟩ st
  let v ← verifyConv (tape (ZMod 97)) 5 28 ctx [1, 2, 2] [1, 2, 2] ⟨r, mle (y.data.map Int.cast) r⟩ res.1 st
  some (y.data, v.1.eval = mle (([2, -3, 4, 1] : List ℤ).map Int.cast) v.1.point ∧ v.2.2.2 = res.2.2.2 ∧ v.2.1.eval = res.2.1.eval)

/-- The hypotheses are met by this layer, and the run is accepted. -/
example : nextPow2 1 = 1 ∧ 2 * (nextPow2 2 * nextPow2 2) ≤ 2 ^ 5 := by decide

set_option maxRecDepth 100000 in
example : exampleRun [7, 9, 11] ((List.range 40).map fun i => ((i + 5 : ℕ) : ZMod 97)) = some ([7, -8, 13, 4, 1, 11, -3, 3], true) := by decide +kernel

/-- A layer on 1×1 inputs: padding and evaluation succeed. -/
example : (padConv ⟨[1, 1, 1, 1], [3]⟩ ⟨[1], [1]⟩ [1, 1, 1] [1, 1, 1]).map (fun l =>
      (l.1.filter.shape, l.1.op 5 (28 : ZMod 97) Int.cast toElement ⟨[1, 1, 1], [2]⟩ [1, 1, 1])) = some ([1, 1, 1, 1], some ⟨[1, 1, 1], [7]⟩) := by
  decide +kernel

end Props
