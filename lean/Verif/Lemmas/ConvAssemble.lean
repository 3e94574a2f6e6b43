import Verif.Lemmas.ConvEnds
import Verif.Props.Conv
import Verif.Props.SamePoly

/-!
The data of a convolution layer, its cleared output, and the clearing proof.
-/

namespace Lemmas

open Spec Model

variable {F : Type} [Field F]

theorem clear_data (toF : ℤ → F) (h0 : toF 0 = 0) (a b c : ℕ) (O : List ℤ) (og : List ℕ) (y : Tensor ℤ) (hO : O.length = a * b * c) (h : clearGarbage ⟨[a, b, c], O⟩ og = some y) :
    y.shape = [a, b, c] ∧ ∃ t : List F, clearingTensor og [a, b, c] = some t ∧ t.length = a * b * c ∧
      y.data.map toF = List.zipWith (· * ·) (O.map toF) t := by
  unfold clearGarbage at h
  match og, h with
  | [a', b', c'], h =>
    simp only at h
    rw [mapM_some' _ (fun idx => if idx / (b * c) < a' ∧ idx / c % b < b' ∧ idx % c < c' then O.getD idx 0 else 0)] at h
    · simp only [Option.bind_eq_bind, Option.bind_some, Option.some.injEq] at h
      subst h
      refine ⟨rfl, _, rfl, by simp, ?_⟩
      apply List.ext_getElem
      · simp [hO]
      · intro i h1 h2
        have hi : i < O.length := by simp at h2; omega
        simp only [List.getElem_map, List.getElem_range, List.getElem_zipWith]
        rw [List.getD_eq_getElem _ _ hi]
        split <;> simp [h0]
    · intro idx hidx
      have := List.mem_range.mp hidx
      rw [getElem?_of_lt O idx 0 (by omega)]
      rfl
  | [], h => simp at h
  | [_], h => simp at h
  | [_, _], h => simp at h
  | _ :: _ :: _ :: _ :: _, h => simp at h

theorem conv_data (toF : ℤ → F) (hC : ∀ v, ∃ z : ℤ, toF v = (z : F)) (A : ℕ) (g : F) (hg : IsPrimitiveRoot g (2 ^ A)) (toE : F → ℤ) (hE : ∀ z : ℤ, ((toE (z : F) : ℤ) : F) = z) (m : ℕ) (hm : 2 * m + 1 ≤ A)
    (w : F) (hw : rootOfUnity A g (2 * m + 1) = some w) (c : Conv) (x : Tensor ℤ) (kw kx K : ℕ) (hxs : x.shape = [kx, 2 ^ m, 2 ^ m])
    (hxl : x.data.length = kx * (2 ^ m * 2 ^ m)) (hfs : c.filter.shape = [kw, kx, 2 ^ m, 2 ^ m]) (hfo : c.filter.ogShape = [kw, kx, K, K])
    (hfl : c.filter.data.length = kw * kx * K * K) (hK : K ≤ 2 ^ m) (hb : c.bias.length = kw)
    (hT : ∀ f, ∀ v ∈ c.bias, toF (toE f + v) = ((toE f : ℤ) : F) + toF v) :
    ∃ d, c.provingData A g toF toE x = some d ∧ ConvFacts A g toF w c.filter.data x.data (2 ^ m) (2 * m) K kw kx d ∧
      d.outputAsElement.length = kw * 2 ^ m * 2 ^ m ∧
      (∀ i < kw, ∀ y < 2 ^ (2 * m), (d.outputAsElement.map toF).getD (i * 2 ^ (2 * m) + y) 0
        = (d.output.getD i []).getD (2 ^ (2 * m) - 1 - y) 0 + (c.bias.map toF).getD i 0) ∧
      ∀ ui y, c.op A g toF toE x ui = some y → ∃ og, conv2dShape ui c.unpadded = some og ∧
        clearGarbage ⟨[kw, 2 ^ m, 2 ^ m], d.outputAsElement⟩ og = some y := by
  have hnn : 2 ^ (2 * m) = 2 ^ m * 2 ^ m := by rw [two_mul, pow_add]
  obtain ⟨d, us, h1, h2, h3, h4, h5⟩ := fftConvData_spec A g hg toF toE m hm w hw c.filter x kw kx K hxs hxl hfs hfo hfl
  obtain ⟨out, e1, e2, e3, e4⟩ := fftConvField_spec A g hg toF m hm c.filter x kx kw kx K hxs hxl hfs hfo hfl le_rfl hK
  have ho : d.output = out := by
    rw [h5] at e1
    exact (Prod.mk.inj (Option.some.inj e1)).2
  subst ho
  have hus : us = d.output.map fun u => (indexU u (2 ^ m)).getD [] := by
    have hU : (d.output.mapM fun u => indexU u (2 ^ m)) = some (d.output.map fun u => (indexU u (2 ^ m)).getD []) := by
      apply mapM_some'
      intro u hu
      obtain ⟨o, e1, _⟩ := indexU_spec u (2 ^ m) (e3 u hu)
      rw [e1]; rfl
    rw [hU] at h3
    exact (Option.some.inj h3).symm
  have husl : ∀ u ∈ us, u.length = 2 ^ m * 2 ^ m := by
    intro u hu
    rw [hus] at hu
    obtain ⟨v, hv, rfl⟩ := List.mem_map.1 hu
    obtain ⟨o, e1, e2, _⟩ := indexU_spec v (2 ^ m) (e3 v hv)
    rw [e1]; exact e2
  have hul : us.length = kw := by rw [hus, List.length_map, e2]
  have hfl' : us.flatten.length = kw * (2 ^ m * 2 ^ m) := by rw [length_flatten' (2 ^ m * 2 ^ m) us husl, hul]
  have hOl : d.outputAsElement.length = kw * (2 ^ m * 2 ^ m) := by rw [h4, List.length_map, hfl']
  have hnew : Tensor.new [kw, 2 ^ m, 2 ^ m] d.outputAsElement = some ⟨[kw, 2 ^ m, 2 ^ m], d.outputAsElement⟩ := by
    unfold Tensor.new
    rw [if_pos (by simp [hOl, mul_assoc])]
  obtain ⟨o, b1, b2, b3⟩ := addBias_spec c.bias kw (2 ^ m) d.outputAsElement hOl (le_of_eq hb.symm)
  have hx1 : x.shape[1]? = some (2 ^ m) := by rw [hxs]; rfl
  have hf0 : c.filter.shape[0]? = some kw := by rw [hfs]; rfl
  refine ⟨{ d with outputAsElement := o }, ?_, ⟨h2.inLen, h2.inEach, h2.fftLen, h2.fftEach, h2.prodLen, h2.prodEach, h2.outLen, h2.outEach⟩,
    by simp only [b2]; ring, ?_, ?_⟩
  · unfold Conv.provingData
    simp only [Option.bind_eq_bind, Option.bind_some, h1, hx1, hf0, nextPow2_pow, hnew, b1]
  · intro i hi y hy
    rw [hnn] at hy ⊢
    have hlt : i * (2 ^ m * 2 ^ m) + y < kw * (2 ^ m * 2 ^ m) := mul_add_lt hi hy
    have hbm : c.bias.getD i 0 ∈ c.bias := by rw [List.getD_eq_getElem _ _ (by omega)]; exact List.getElem_mem _
    rw [getD_map_cast _ o _ 0 0 (by rw [b2]; exact hlt), b3 i y hi hy, getD_map_cast _ c.bias _ 0 0 (by omega)]
    rw [h4, getD_map_cast toE us.flatten _ 0 0 (by rw [hfl']; exact hlt), hT _ _ hbm]
    congr 1
    have hz : ∃ z : ℤ, (d.output.getD i []).getD (2 ^ m * 2 ^ m - 1 - y) 0 = (z : F) := by
      choose ζ hζ using hC
      refine ⟨∑ j ∈ Finset.range kx, ∑ r ∈ Finset.range K, ∑ s ∈ Finset.range K, ζ (c.filter.data.getD (((i * kx + j) * K + r) * K + s) 0)
        * (if y + (r * 2 ^ m + s) < 2 ^ m * 2 ^ m then ζ (x.data.getD (j * (2 ^ m * 2 ^ m) + (y + (r * 2 ^ m + s))) 0) else 0), ?_⟩
      rw [e4 i y hi hy]
      simp only [hζ]
      push_cast
      rfl
    obtain ⟨z, hz⟩ := hz
    rw [getD_flatten (2 ^ m * 2 ^ m) us husl i y 0 (by rw [hul]; exact hi) hy]
    have hrow : (us.getD i []).getD y 0 = (d.output.getD i []).getD (2 ^ m * 2 ^ m - 1 - y) 0 := by
      have hi' : i < d.output.length := by rw [e2]; exact hi
      rw [hus, getD_map_cast _ d.output i [] [] hi']
      obtain ⟨o', q1, _, q3⟩ := indexU_spec (d.output.getD i []) (2 ^ m) (e3 _ (by rw [List.getD_eq_getElem _ _ hi']; exact List.getElem_mem _))
      rw [q1]
      exact q3 y hy
    rw [List.getD_eq_getElem us [] (by rw [hul]; exact hi)] at hrow
    dsimp only
    rw [hrow, hz, hE]
  · intro ui y hop
    unfold Conv.op at hop
    have hfc : fftConv A g toF toE c.filter x = some ⟨[kw, 2 ^ m, 2 ^ m], d.outputAsElement⟩ := by
      unfold fftConv
      simp only [Option.bind_eq_bind, Option.bind_some, h5, h3, hf0]
      rw [← h4, hnew]
    simp only [Option.bind_eq_bind, Option.bind_some, hfc, b1, Option.bind_eq_some_iff] at hop
    exact hop

/-- The clearing proof: the prover's claims are those of the tables. -/
theorem hadamard_run [DecidableEq F] (T : Transcript F) (threads : ℕ) (ht : 0 < threads)
    (hchar : ∀ k : ℕ, 0 < k → k ≤ 3 → (k : F) ≠ 0) (v1 v2 r : List F) (h1 : v1.length = 2 ^ r.length)
    (h2 : v2.length = 2 ^ r.length) (ts : T.State) :
    ∃ proof ts', proveHadamard threads T r.length ⟨r, mle (List.zipWith (· * ·) v1 v2) r⟩ v1 v2 ts
        = some (⟨proof, [mle v1 proof.point, mle v2 proof.point]⟩, ts') ∧ proof.point.length = r.length ∧
      (Generic proof →
        verifyHadamard T r.length ⟨proof, [mle v1 proof.point, mle v2 proof.point]⟩ ⟨r, mle (List.zipWith (· * ·) v1 v2) r⟩ (mle v2 proof.point) ts
          = some (⟨proof.point, mle v1 proof.point⟩, ts')) := by
  obtain ⟨p, ts', hp, hl, hv⟩ := prove_three T threads ht r.length hchar v1 v2 (computeBetas r) h1 h2 (computeBetas_length r) ts
  have hP : proveHadamard threads T r.length ⟨r, mle (List.zipWith (· * ·) v1 v2) r⟩ v1 v2 ts = some (⟨p, [mle v1 p.point, mle v2 p.point]⟩, ts') := by
    unfold proveHadamard
    rw [if_pos ⟨rfl, h1, h2⟩, hp]
    rfl
  obtain ⟨p', ts'', hP', hl', hv'⟩ := Props.C62_hadamard_complete T threads ht hchar v1 v2 r h1 h2 ts
  rw [hP] at hP'
  obtain ⟨rfl, rfl⟩ := Prod.mk.inj (Option.some.inj hP')
  exact ⟨p, ts', hP, hl, hv'⟩

theorem biasEval_eq (toF : ℤ → F) (bias : List ℤ) (a : ℕ) (hb : bias.length = 2 ^ a) (q : List F) (hq : q.length = a) :
    convBiasEval toF bias q = some (mle (bias.map toF) q) := by
  unfold convBiasEval
  by_cases h : q = []
  · subst h
    rw [if_neg (by simp)]
    have ha : a = 0 := by simpa using hq.symm
    subst ha
    rw [if_pos (by simpa using hb), mle_nil, getD_map_cast _ bias 0 0 0 (by rw [hb]; norm_num)]
  · rw [if_pos h, hb, Nat.log2_two_pow, Mle.ofEvals, if_pos (by rw [List.length_map, hb])]
    simp only [Option.bind_eq_bind, Option.bind_some]
    rw [evaluate_eq ⟨a, bias.map toF⟩ (by simp [hb]) q hq]

theorem paddedFrame (e m a k : ℕ) (hK : k = 0 ∨ k < m) :
    (conv2dShape [2 ^ e, 2 ^ m, 2 ^ m] [2 ^ a, 2 ^ e, 2 ^ k, 2 ^ k]).map (List.map nextPow2) = some [2 ^ a, 2 ^ m, 2 ^ m] := by
  have h1 : 2 ^ k ≤ 2 ^ m := Nat.pow_le_pow_right (by omega) (by omega)
  have h0 := Nat.two_pow_pos k
  have hf : nextPow2 (2 ^ m - 2 ^ k + 1) = 2 ^ m := by
    apply Props.frame_size
    rcases hK with rfl | h
    · left; rfl
    · right; exact Nat.pow_lt_pow_right (by omega) h
  unfold conv2dShape checkedSub
  simp only [List.length_cons, List.length_nil, Option.bind_eq_bind]
  simp only [if_pos (show 0 + 1 + 1 + 1 = 3 from rfl), List.getElem?_cons_succ, List.getElem?_cons_zero, Option.bind_some]
  rw [if_pos (show 1 ≤ 2 ^ k by omega)]
  simp only [Option.bind_some]
  rw [if_pos (show 2 ^ k - 1 ≤ 2 ^ m by omega)]
  simp only [Option.bind_some]
  rw [if_pos (show 1 ≤ 2 ^ m - (2 ^ k - 1) by omega)]
  simp only [Option.bind_some, show 2 ^ m - (2 ^ k - 1) - 1 + 1 = 2 ^ m - 2 ^ k + 1 by omega, ite_self, Option.map_some, List.map_cons, List.map_nil, nextPow2_pow, hf]

theorem popInverse_eq [DecidableEq F] (p : List F) (z : F) (hz : 1 - z ≠ 0) : popInverse (p ++ [z]) = some (p, (1 - z)⁻¹) := by
  unfold popInverse
  simp [hz]

theorem dropChecked_left {α : Type} (p q : List α) (n : ℕ) (h : p.length = n) : dropChecked n (p ++ q) = some q := by
  unfold dropChecked
  rw [if_pos (by simp; omega), List.drop_left' h]

theorem bind_step {α β : Type} {x : Option α} {f : α → Option β} {a : α} {b : Option β} (h : x = some a) (h2 : f a = b) : (x >>= f) = b := by
  subst h; exact h2

/-- What an honest convolution proof gives: the prover's run. -/
theorem conv_run [DecidableEq F] (toF : ℤ → F) (T : Transcript F) (threads : ℕ) (ht : 0 < threads) (hchar : ∀ k : ℕ, 0 < k → k ≤ 3 → (k : F) ≠ 0)
    (A : ℕ) (g : F) (hg : IsPrimitiveRoot g (2 ^ A)) (m : ℕ) (hm1 : 1 ≤ m) (hm : 2 * m + 1 ≤ A)
    (w : F) (hw : rootOfUnity A g (2 * m + 1) = some w) (c : Conv) (x : Tensor ℤ) (a e k : ℕ)
    (hxl : x.data.length = 2 ^ e * (2 ^ m * 2 ^ m)) (hfs : c.filter.shape = [2 ^ a, 2 ^ e, 2 ^ m, 2 ^ m]) (hfo : c.filter.ogShape = [2 ^ a, 2 ^ e, 2 ^ k, 2 ^ k])
    (hfl : c.filter.data.length = 2 ^ a * 2 ^ e * 2 ^ k * 2 ^ k) (hK : k = 0 ∨ k < m) (hb : c.bias.length = 2 ^ a)
    (d : ConvData F) (hd : ConvFacts A g toF w c.filter.data x.data (2 ^ m) (2 * m) (2 ^ k) (2 ^ a) (2 ^ e) d)
    (hdl : d.outputAsElement.length = 2 ^ a * 2 ^ m * 2 ^ m)
    (hdo : ∀ i < 2 ^ a, ∀ y < 2 ^ (2 * m), (d.outputAsElement.map toF).getD (i * 2 ^ (2 * m) + y) 0
        = (d.output.getD i []).getD (2 ^ (2 * m) - 1 - y) 0 + (c.bias.map toF).getD i 0)
    (ui og : List ℕ) (hog : conv2dShape ui c.unpadded = some og) (t : List F) (htl : t.length = 2 ^ a * 2 ^ m * 2 ^ m)
    (hct : clearingTensor og [2 ^ a, 2 ^ m, 2 ^ m] = some t) (r : List F) (hr : r.length = 2 * m + a) (ts : T.State) :
    ∃ (proof : ConvProof F) (fpt bpt : List F) (ts' : T.State),
      proveConv threads T A g toF c d og [2 ^ a, 2 ^ m, 2 ^ m] ⟨r, mle (List.zipWith (· * ·) (d.outputAsElement.map toF) t) r⟩ ts
        = some (proof, ⟨fpt, mle (c.filter.data.map toF) fpt⟩, ⟨bpt, mle (c.bias.map toF) bpt⟩, ts') ∧
      fpt.length = 2 * k + e + a ∧ bpt.length = a ∧ ∃ ipt : List F, ipt.length = 2 * m + e ∧
      (proof.fftProof.point.getLast? ≠ some 1 → convInputClaim (2 ^ m * 2 ^ m) proof = some ⟨ipt, mle (x.data.map toF) ipt⟩) ∧
      ((∀ s ∈ [proof.clearing.sumcheck, proof.fftProof, proof.fftProofWeights, proof.ifftProof, proof.hadamardProof]
          ++ proof.fftDelegation ++ proof.fftDelegationWeights ++ proof.ifftDelegation, Generic s) →
          verifyConv T A g ⟨2 ^ e, 2 ^ m, 2 ^ k, 2 ^ m * 2 ^ m, c.unpadded, c.filter.ogShape⟩ ui [2 ^ e, 2 ^ m, 2 ^ m]
            ⟨r, mle (List.zipWith (· * ·) (d.outputAsElement.map toF) t) r⟩ proof ts
          = some (⟨ipt, mle (x.data.map toF) ipt⟩, ⟨fpt, mle (c.filter.data.map toF) fpt⟩, ⟨bpt, mle (c.bias.map toF) bpt⟩, ts')) := by
  have hnn : 2 ^ m * 2 ^ m = 2 ^ (2 * m) := by rw [two_mul, pow_add]
  have hkk : 2 ^ k * 2 ^ k = 2 ^ (2 * k) := by rw [two_mul, pow_add]
  have hN : 2 * 2 ^ m * 2 ^ m = 2 ^ (2 * m + 1) := by rw [mul_assoc, hnn, pow_succ, mul_comm]
  have hkm : 2 ^ k ≤ 2 ^ m := Nat.pow_le_pow_right (by omega) (by omega)
  have hp : IsPrimitiveRoot w (2 ^ (2 * m + 1)) := by
    obtain ⟨w', hw', hp⟩ := primitive_of_square A g hg (2 * m + 1) hm
    rw [hw] at hw'
    rw [Option.some.inj hw']
    exact hp
  have hsz : 2 ^ a * 2 ^ m * 2 ^ m = 2 ^ (2 * m + a) := by rw [mul_assoc, hnn, ← pow_add, add_comm]
  have hfd : c.filter.data.length = 2 ^ a * 2 ^ e * (2 ^ k * 2 ^ k) := by rw [hfl]; ring
  -- the clearing
  obtain ⟨hp0, ts0, c1, c2, c3⟩ := hadamard_run T threads ht hchar (d.outputAsElement.map toF) t r
    (by rw [List.length_map, hdl, hsz, hr]) (by rw [htl, hsz, hr]) ts
  obtain ⟨P, Q, hP, hQ, hPQ⟩ : ∃ P Q : List F, P.length = 2 * m ∧ Q.length = a ∧ hp0.point = P ++ Q :=
    ⟨hp0.point.take (2 * m), hp0.point.drop (2 * m), by rw [List.length_take]; omega, by rw [List.length_drop]; omega, (List.take_append_drop _ _).symm⟩
  obtain ⟨R, hR⟩ : ∃ R : List F, R = P.map fun x => 1 - x := ⟨_, rfl⟩
  have hRl : R.length = 2 * m := by rw [hR, List.length_map, hP]
  -- the inverse transform
  obtain ⟨ip, ts1, ts2, ired, i1, i2, i3, i4, i5, i6⟩ := batchIfft_complete T threads ht hchar A g hg (2 * m) (by omega) hm w hw hp a d.prod d.output
    hd.prodLen (fun i hi => (hd.prodEach i hi).1) (fun i hi => (hd.outEach i hi).1) (R ++ [0]) Q (by simp [hRl]) (by simp) hQ ts0
  -- the products
  obtain ⟨agg, had, hc, ts3, p1, p2, p3, p4, p5⟩ := products_complete T threads ht hchar A g hg toF c.filter (2 ^ m) (2 ^ k) (2 * m) a e hm w hw
    hN hfd Q hQ x.data d hd ip.proof.point i3 ts2
  obtain ⟨U, V, hU, hV, hUV⟩ : ∃ U V : List F, U.length = 2 * m + 1 ∧ V.length = e ∧ had.point = U ++ V :=
    ⟨had.point.take (2 * m + 1), had.point.drop (2 * m + 1), by rw [List.length_take]; omega, by rw [List.length_drop]; omega, (List.take_append_drop _ _).symm⟩
  rw [hUV, List.take_left' hU, List.drop_left' hU] at p4
  -- the transform of the input
  obtain ⟨fp, ts4, ts5, fred, f1, f2, f3, f4, f5, f6⟩ := batchFft_complete T threads ht hchar A g hg (2 * m) (by omega) hm w hw hp e d.input d.inputFft
    hd.inLen (fun j hj => (hd.inEach j hj).1) (fun j hj => (hd.fftEach j hj).1) U V hU hV ts3
  -- the transform of the weights
  obtain ⟨wp, pe, wl, ts6, ts7, wred, w1, w2, w3, w4, w5, w6, w7, w8, w9⟩ := weights_complete T threads ht hchar A g hg toF c.filter.data
    (2 ^ m) (2 ^ k) (2 * m) a e (by omega) hm w hw hp hN hnn hkm hfd U V Q hU hV hQ agg p1.2 ts5
  have hs : (T.sampleN (2 * k) ts7).1.length = 2 * k := sampleN_length T (2 * k) ts7
  obtain ⟨s, hsd⟩ : ∃ s, s = (T.sampleN (2 * k) ts7).1 := ⟨_, rfl⟩
  rw [← hsd] at hs
  have hfe := filter_eval toF c.filter.data (2 ^ k) (2 * k) a e hkk hfd s (V ++ Q) pe hs (by simp [hV, hQ]) w2 w3
  have hme : (Mle.ofEvals (Nat.log2 pe.length) pe).bind (fun m => m.evaluate s) = some (mle (c.filter.data.map toF) (s ++ (V ++ Q))) := by
    rw [w2, hkk, Nat.log2_two_pow, Mle.ofEvals, if_pos (by rw [w2, hkk]), Option.bind_some,
      evaluate_eq ⟨2 * k, pe⟩ (by rw [w2, hkk]) s hs, hfe]
  have hbe := biasEval_eq toF c.bias a hb Q hQ
  have hout0 : d.output.head? = some (d.output.getD 0 []) := by
    have hl : 0 < d.output.length := by rw [hd.outLen]; exact Nat.two_pow_pos a
    rw [List.head?_eq_getElem?, getElem?_of_lt d.output 0 [] hl]
  have hout0l : (d.output.getD 0 []).length = 2 ^ (2 * m + 1) := (hd.outEach 0 (Nat.two_pow_pos a)).2
  have hconvP : convPoints (2 * m) a hp0.point = some (R ++ 0 :: Q, Q) := by
    rw [convPoints, if_pos (by rw [c2, hr]), hPQ, List.take_left' hP, List.drop_left' hP, hR]
  have hRQ : R ++ [0] ++ Q = R ++ 0 :: Q := by simp
  rw [hRQ] at i1
  have hq1 : dropChecked (2 * m + 1) (R ++ 0 :: Q) = some Q := by
    rw [← hRQ]; exact dropChecked_left _ _ _ (by simp [hRl])
  have hvq : dropChecked (2 * m + 1) (U ++ V ++ Q) = some (V ++ Q) := by
    rw [List.append_assoc]; exact dropChecked_left _ _ _ hU
  have hcheck : 2 ^ m * 2 ^ m * 2 ^ a * 2 = d.output.length * (d.output.getD 0 []).length ∧ Nat.log2 (2 ^ m * 2 ^ m * 2 ^ a) = hp0.point.length := by
    rw [hd.outLen, hout0l, c2, hr, hnn, ← pow_add, Nat.log2_two_pow]
    refine ⟨?_, rfl⟩
    rw [pow_add, pow_succ]; ring
  obtain ⟨FP, fz, hFP, hFPl⟩ : ∃ (FP : List F) (fz : F), fp.proof.point = FP ++ [fz] ∧ FP.length = 2 * m := by
    rcases List.eq_nil_or_concat fp.proof.point with h | ⟨l, z, h⟩
    · rw [h] at f3; simp at f3
    · refine ⟨l, z, by simpa using h, ?_⟩
      rw [h] at f3; simpa using f3
  refine ⟨⟨fp.proof, wp.proof, fp.delegation, wp.delegation, ip.proof, ip.delegation, had, fp.claims, wp.claims, ip.claims, fp.delegationClaims,
    wp.delegationClaims, ip.delegationClaims, pe, hc, mle (c.bias.map toF) Q,
    ⟨hp0, [mle (d.outputAsElement.map toF) hp0.point, mle t hp0.point]⟩⟩, s ++ (V ++ Q), Q, (T.sampleN (2 * k) ts7).2, ?_, ?_, hQ,
    (FP.map fun x => 1 - x) ++ V, by simp [hFPl, hV], ?_, ?_⟩
  · have s0 : c.filter.shape[0]? = some (2 ^ a) := by rw [hfs]; rfl
    have s1 : c.filter.shape[1]? = some (2 ^ e) := by rw [hfs]; rfl
    have s2 : c.filter.shape[2]? = some (2 ^ m) := by rw [hfs]; rfl
    have s3 : c.filter.ogShape[2]? = some (2 ^ k) := by rw [hfo]; rfl
    have hsums : proveConvSums threads T A g toF c.filter d (2 ^ a) (2 ^ e) (2 ^ m) (2 ^ k) (2 * m) (R ++ 0 :: Q) Q ts0
        = some (ip, (had, hc), fp, wp, pe, ts7) := by
      unfold proveConvSums
      rw [i1]
      simp only [Option.bind_eq_bind, Option.bind_some]
      rw [if_pos i3.symm, p2]
      simp only [Option.bind_some]
      rw [hUV, f1]
      simp only [Option.bind_some]
      rw [w1]
      rfl
    have hfc : convFilterClaim T (2 ^ m) (2 ^ k) (U ++ V ++ Q) pe ts7
        = some (⟨s ++ (V ++ Q), mle (c.filter.data.map toF) (s ++ (V ++ Q))⟩, (T.sampleN (2 * k) ts7).2) := by
      unfold convFilterClaim
      rw [hkk, ilog2_pow, hN, ilog2_pow]
      simp only [Option.bind_eq_bind, Option.bind_some]
      rw [hvq, ← hsd]
      simp only [Option.bind_some]
      cases hM : Mle.ofEvals (Nat.log2 pe.length) pe with
      | none => rw [hM] at hme; simp at hme
      | some M =>
        rw [hM, Option.bind_some] at hme
        simp only [Option.bind_some, hme]
    refine bind_step s0 (bind_step s1 (bind_step s2 (bind_step s3 (bind_step hct (bind_step c1 (bind_step rfl (bind_step hout0 ?_)))))))
    have hl1 : ilog2 (2 ^ m * 2 ^ m) = some (2 * m) := by rw [hnn, ilog2_pow]
    refine bind_step hl1 (bind_step (ilog2_pow a) (Eq.trans (if_pos hcheck) ?_))
    have hl2 : ilog2 (d.output.getD 0 []).length = some (2 * m + 1) := by rw [hout0l, ilog2_pow]
    refine bind_step hconvP (bind_step hbe (bind_step hl2 (bind_step hq1 (bind_step hsums ?_))))
    rw [← hUV] at hfc
    exact bind_step hfc rfl
  · simp [hs, hV, hQ]; omega
  · intro hlast
    have hfz : 1 - fz ≠ 0 := by
      intro h
      dsimp only at hlast
      rw [hFP, List.getLast?_append_of_ne_nil _ (by simp), List.getLast?_singleton, ← sub_eq_zero.mp h] at hlast
      exact hlast rfl
    have hin := input_eval toF x.data (2 * m) e (by rw [hxl, hnn]) d.input hd.inEach FP V fz hFPl hV hfz
    unfold convInputClaim
    have hl1 : ilog2 (2 ^ m * 2 ^ m * 2) = some (2 * m + 1) := by rw [hnn, ← pow_succ, ilog2_pow]
    simp only [Option.bind_eq_bind, hFP, popInverse_eq FP fz hfz, Option.bind_some, hl1, hUV, dropChecked_left U V _ hU, f2,
      List.getElem?_cons_zero, hin]
  · intro hgen
    have hG : ∀ s, s ∈ [hp0, fp.proof, wp.proof, ip.proof, had] ++ fp.delegation ++ wp.delegation ++ ip.delegation → Generic s := hgen
    have g0 : Generic hp0 := hG _ (by simp)
    have g1 : Generic fp.proof := hG _ (by simp)
    have g2 : Generic wp.proof := hG _ (by simp)
    have g3 : Generic ip.proof := hG _ (by simp)
    have g4 : Generic had := hG _ (by simp)
    have g5 : ∀ e ∈ fp.delegation, Generic e := fun e he => hG _ (by simp [he])
    have g6 : ∀ e ∈ wp.delegation, Generic e := fun e he => hG _ (by simp [he])
    have g7 : ∀ e ∈ ip.delegation, Generic e := fun e he => hG _ (by simp [he])
    obtain ⟨WP, wz, hWP, hWPl⟩ : ∃ (WP : List F) (wz : F), wp.proof.point = WP ++ [wz] ∧ WP.length = 2 * m := by
      rcases List.eq_nil_or_concat wp.proof.point with h | ⟨l, z, h⟩
      · rw [h] at w6; simp at w6
      · refine ⟨l, z, by simpa using h, ?_⟩
        rw [h] at w6; simpa using w6
    have hfz : 1 - fz ≠ 0 := by
      intro h
      refine g1 fz (by rw [hFP]; simp) 1 (by omega) ?_
      rw [Nat.cast_one]; exact (sub_eq_zero.mp h).symm
    have hwz : 1 - wz ≠ 0 := by
      intro h
      refine g2 wz (by rw [hWP]; simp) 1 (by omega) ?_
      rw [Nat.cast_one]; exact (sub_eq_zero.mp h).symm
    have hin := input_eval toF x.data (2 * m) e (by rw [hxl, hnn]) d.input hd.inEach FP V fz hFPl hV hfz
    have hyw := yWeights_eq ⟨2 ^ e, 2 ^ m, 2 ^ k, 2 ^ m * 2 ^ m, c.unpadded, c.filter.ogShape⟩ m rfl hkm WP pe hWPl w2
    have hwl := weights_lower m (2 ^ k) hkm WP pe wl hWPl w4.2 wz
    have hoe := output_eval (2 * m) a (d.outputAsElement.map toF) (c.bias.map toF) d.output P Q hP hQ hdo
    rw [← hR, ← hPQ] at hoe
    · obtain ⟨ctx, hctx⟩ : ∃ ctx : ConvVerifyCtx, ctx = ⟨2 ^ e, 2 ^ m, 2 ^ k, 2 ^ m * 2 ^ m, c.unpadded, c.filter.ogShape⟩ := ⟨_, rfl⟩
      rw [← hctx] at hyw
      have hl1 : ilog2 (2 ^ m * 2 ^ m) = some (2 * m) := by rw [hnn, ilog2_pow]
      have hl2 : ilog2 (2 ^ e * (2 ^ m * 2 ^ m)) = some (2 * m + e) := by rw [hnn, ← pow_add, ilog2_pow, add_comm]
      have hl3 : ilog2 (2 ^ m * 2 ^ m * 2) = some (2 * m + 1) := by rw [hnn, ← pow_succ, ilog2_pow]
      have hl4 : ilog2 (2 * 2 ^ m * 2 ^ m) = some (2 * m + 1) := by rw [hN, ilog2_pow]
      have hl5 : ilog2 (2 ^ k * 2 ^ k) = some (2 * k) := by rw [hkk, ilog2_pow]
      have hclear : verifyClearing T ctx ui [2 ^ e, 2 ^ m, 2 ^ m]
          ⟨r, mle (List.zipWith (· * ·) (d.outputAsElement.map toF) t) r⟩
          ⟨hp0, [mle (d.outputAsElement.map toF) hp0.point, mle t hp0.point]⟩ ts
          = some (⟨hp0.point, mle (d.outputAsElement.map toF) hp0.point⟩, ts0) := by
        subst hctx
        have hfr := paddedFrame e m a k hK
        rw [← hfo, Option.map_eq_some_iff] at hfr
        obtain ⟨real, hreal, hreal2⟩ := hfr
        have htl2 : Nat.log2 t.length = r.length := by rw [htl, hsz, Nat.log2_two_pow, hr]
        have hM : Mle.ofEvals (Nat.log2 t.length) t = some ⟨r.length, t⟩ := by
          rw [htl2, Mle.ofEvals, if_pos (by rw [htl, hsz, hr])]
        refine bind_step hog (bind_step hreal (bind_step (a := t) (by rw [hreal2]; exact hct) (bind_step hM
          (bind_step (evaluate_eq ⟨r.length, t⟩ (by rw [htl, hsz, hr]) hp0.point c2) ?_))))
        have hnl : Nat.log2 (nextPow2 t.length) = r.length := by rw [htl, hsz, nextPow2_pow, Nat.log2_two_pow, hr]
        rw [hnl]
        exact c3 g0
      obtain ⟨iv, i5'⟩ := i5 g3
      rw [← hoe] at i5'
      obtain ⟨p0, i6'⟩ := i6 g7 (hp0.point.map fun x => 1 - x) (by
        intro i hi
        rw [hPQ, List.map_append, ← hR, List.getElem?_append_left (by omega), List.getElem?_append_left (by omega)])
      obtain ⟨pv, p5'⟩ := p5 g4
      obtain ⟨fv, f5'⟩ := f5 g1
      obtain ⟨wv, w8'⟩ := w8 g2
      have hexp : powTwoOmegas A g (ip.delegation.length + 1) true = some (List.iterate (fun x : F => x * x) w⁻¹ (2 * m)) := by
        unfold powTwoOmegas
        rw [i4, hw]
        simp only [Option.bind_eq_bind, Option.bind_some]
        rw [if_pos (by omega)]
        simp
      obtain ⟨pr, hpr⟩ : ∃ pr : ConvProof F, pr = ⟨fp.proof, wp.proof, fp.delegation, wp.delegation, ip.proof, ip.delegation, had, fp.claims, wp.claims, ip.claims,
        fp.delegationClaims, wp.delegationClaims, ip.delegationClaims, pe, hc, mle (c.bias.map toF) Q,
        ⟨hp0, [mle (d.outputAsElement.map toF) hp0.point, mle t hp0.point]⟩⟩ := ⟨_, rfl⟩
      have hf1 : fp.claims[1]? = some fred := by rw [f2]; rfl
      have hw1 : wp.claims[1]? = some wred := by rw [w5]; rfl
      have hmid : convMiddle T A g ctx ⟨hp0.point, mle (d.outputAsElement.map toF) hp0.point⟩ pr fred wred ts0 = some ts7 := by
        subst hctx hpr
        refine bind_step hl1 (bind_step hl2 (bind_step i5' (Eq.trans (if_pos i4.symm) ?_)))
        refine bind_step (a := ired) (by rw [i2]; rfl) (bind_step hexp (bind_step i6' (bind_step (a := p0) rfl (Eq.trans (if_pos ?_) ?_))))
        · dsimp only
          rw [i4]; ring
        refine bind_step (a := ∑ i ∈ Finset.range (2 ^ a), chi Q i * mle (d.prod.getD i []) ip.proof.point) (by rw [i2]; rfl) ?_
        have hv3 : verify T (∑ i ∈ Finset.range (2 ^ a), chi Q i * mle (d.prod.getD i []) ip.proof.point) had 3 (2 * m + e + 1) ts2 = some (pv, ts3) := by
          rw [show 2 * m + e + 1 = 2 * m + 1 + e by omega]; exact p5'
        refine bind_step hv3 ?_
        refine bind_step (a := ∑ j ∈ Finset.range (2 ^ e), chi V j * mle (agg.getD j []) U) (by rw [p4]; rfl) ?_
        refine bind_step (a := ∑ j ∈ Finset.range (2 ^ e), chi V j * mle (d.inputFft.getD j []) U) (by rw [p4]; rfl) ?_
        refine bind_step (a := identityEval ip.proof.point had.point) (by rw [p4, hUV]; rfl) (Eq.trans (if_pos rfl) ?_)
        refine bind_step f5' (Eq.trans (if_pos f4.symm) ?_)
        refine bind_step (a := ts5) (by rw [hUV]; exact f6 g5) ?_
        refine bind_step w8' ?_
        dsimp only
        rw [hUV]
        exact w9 g6
      have hw0 : mle wl wp.proof.point * (1 - wz)⁻¹ = ∑ i ∈ Finset.range (2 ^ k), ∑ j ∈ Finset.range (2 ^ k), pe.getD (i * 2 ^ k + j) 0 * chi WP (i * 2 ^ m + j) := by
        rw [hWP, hwl, mul_comm, ← mul_assoc, inv_mul_cancel₀ hwz, one_mul]
      have hcl : convClaims T ctx ⟨hp0.point, mle (d.outputAsElement.map toF) hp0.point⟩ pr ts7
          = some (⟨(FP.map fun x => 1 - x) ++ V, mle (x.data.map toF) ((FP.map fun x => 1 - x) ++ V)⟩,
            ⟨s ++ (V ++ Q), mle (c.filter.data.map toF) (s ++ (V ++ Q))⟩, ⟨Q, mle (c.bias.map toF) Q⟩, (T.sampleN (2 * k) ts7).2) := by
        subst hctx hpr
        have hdq : dropChecked (2 * m) hp0.point = some Q := by rw [hPQ]; exact dropChecked_left P Q _ hP
        obtain ⟨M, hM, hme⟩ := Option.bind_eq_some_iff.1 hme
        rw [hsd] at hme
        refine bind_step hl5 (bind_step hl1 (bind_step hdq (bind_step (a := Q) (by dsimp only; rw [i4]; exact hdq) (bind_step hl4 ?_))))
        refine bind_step (a := V ++ Q) (by dsimp only; rw [hUV]; exact hvq) (bind_step hM (bind_step hme ?_))
        refine bind_step (a := (FP, (1 - fz)⁻¹)) (by dsimp only; rw [hFP]; exact popInverse_eq FP fz hfz) (bind_step hl3 ?_)
        refine bind_step (a := V) (by dsimp only; rw [hUV]; exact dropChecked_left U V _ hU) ?_
        refine bind_step (a := ∑ j ∈ Finset.range (2 ^ e), chi V j * mle (resize (2 ^ (2 * m + 1)) 0 (d.input.getD j [])) (FP ++ [fz]))
          (by rw [← hFP]; dsimp only; rw [f2]; rfl) ?_
        dsimp only
        rw [hin, ← hsd]
      rw [← hctx, ← hpr]
      have hclear' : verifyClearing T ctx ui [2 ^ e, 2 ^ m, 2 ^ m]
          ⟨r, mle (List.zipWith (· * ·) (d.outputAsElement.map toF) t) r⟩ pr.clearing ts
          = some (⟨hp0.point, mle (d.outputAsElement.map toF) hp0.point⟩, ts0) := by rw [hpr]; exact hclear
      refine bind_step hclear' (bind_step (a := fred) (by rw [hpr]; exact hf1) (bind_step (a := wred) (by rw [hpr]; exact hw1) (bind_step hmid ?_)))
      refine bind_step (a := (WP, (1 - wz)⁻¹)) (by rw [hpr]; dsimp only; rw [hWP]; exact popInverse_eq WP wz hwz) ?_
      refine bind_step (a := m) (by rw [hctx]; exact ilog2_pow m) ?_
      refine bind_step (by rw [hpr]; exact hyw) ?_
      refine bind_step (a := mle wl wp.proof.point) (by rw [hpr]; dsimp only; rw [w5]; rfl) (Eq.trans (if_pos ?_) hcl)
      rw [hctx]
      exact hw0

end Lemmas
