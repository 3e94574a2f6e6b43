import Verif.Lemmas.ConcatMatMul

/-!
C76: products of stacks of matrices.
-/

namespace Props
open Spec Model Lemmas

/-- C76, inference: for every way of laying out the axes of the two inputs and every order of the axes of the output, the layer computes the stack of the products of the matrices of the two stacks. -/
theorem C76_evaluate {α : Type} [Semiring α] (l r : InputDims) (hl : [l.concat, l.matMul, l.output].Perm [0, 1, 2]) (hr : [r.concat, r.matMul, r.output].Perm [0, 1, 2])
    (perm : Option (List ℕ)) (hperm : (perm.getD [0, 1, 2]).Perm [0, 1, 2]) (A B : Tensor α) (n m k p : ℕ) (hn : 0 < n) (hA : A.data.length = A.shape.prod)
    (hB : B.data.length = B.shape.prod) (hA3 : A.shape.length = 3) (hB3 : B.shape.length = 3)
    (hAs : A.shape.getD l.concat 0 = n ∧ A.shape.getD l.matMul 0 = k ∧ A.shape.getD l.output 0 = m)
    (hBs : B.shape.getD r.concat 0 = n ∧ B.shape.getD r.matMul 0 = k ∧ B.shape.getD r.output 0 = p) :
    ∃ out, concatMatMulEvaluate l r perm A B = some out ∧
      IsConcatProduct (perm.getD [0, 1, 2]) n m k p l.concat l.matMul A.shape A.data r.concat r.matMul B.shape B.data out.shape out.data := by
  obtain ⟨out, h1, h2⟩ := concatMatMul_spec l r hl hr perm hperm A B n m k p hn hA hB ⟨hA3, hAs⟩ ⟨hB3, hBs⟩
  exact ⟨_, h1, h2⟩

/-- Two products of a 1x2 by a 2x2 matrix: the first input holds its summed axis first, the second its summed axis last; the output is put out columns first. -/
example : concatMatMulEvaluate (α := ℤ) ⟨1, 0, 2⟩ ⟨0, 2, 1⟩ (some [2, 0, 1]) ⟨[2, 2, 1], [1, 2, 3, 4]⟩ ⟨[2, 2, 2], [1, 2, 3, 4, 5, 6, 7, 8]⟩
    = some ⟨[2, 2, 1], [1 * 1 + 3 * 2, 2 * 5 + 4 * 6, 1 * 3 + 3 * 4, 2 * 7 + 4 * 8]⟩ := by decide

variable {F : Type} [Field F] [DecidableEq F]

theorem concat_ok (l r : InputDims) (hl : l.Valid) (hr : r.Valid) (a b : List ℕ) (n k m p : ℕ) (hsl : Sizes l a n k m) (hsr : Sizes r b n k p) : concatShapesOk l r a b = true := by
  obtain ⟨a1, a2, a3, a4⟩ := hsl
  obtain ⟨b1, b2, b3, b4⟩ := hsr
  have hlt : ∀ o ∈ [l.concat, l.matMul, l.output], o < 3 := by
    intro o ho
    have := hl.mem_iff.1 ho
    simp at this; omega
  have hlt' : ∀ o ∈ [r.concat, r.matMul, r.output], o < 3 := by
    intro o ho
    have := hr.mem_iff.1 ho
    simp at this; omega
  simp only [List.mem_cons, List.not_mem_nil, or_false, forall_eq_or_imp, forall_eq] at hlt hlt'
  simp only [concatShapesOk, a1, b1, a2, a3, b2, b3, hlt, hlt']
  simp

omit [DecidableEq F] in
theorem splitSum_eq (l r : InputDims) (a b : List ℕ) (n k m p : ℕ) (hsl : Sizes l a n (2 ^ k) m) (hsr : Sizes r b n (2 ^ k) p) (pt : List F) (h : k ≤ pt.length) :
    splitSumcheckPoint l r a b pt = some (pt.drop k, pt.take k) := by
  unfold splitSumcheckPoint
  simp only [hsl.2.2.1, hsr.2.2.1, Nat.log2_two_pow, true_and]
  rw [if_pos h]

/-- C76, completeness: for sizes that are powers of two the honest prover's proof of the true claim on the output is accepted, unless a challenge of the sum-check is one of 0, 1, 2, 3; prover and verifier
hand on the same claims, and these are true of the inputs. -/
theorem C76_complete (T : Transcript F) (threads : ℕ) (ht : 0 < threads) (hchar : ∀ k : ℕ, 0 < k → k ≤ 3 → (k : F) ≠ 0) (l r : InputDims)
    (hl : [l.concat, l.matMul, l.output].Perm [0, 1, 2]) (hr : [r.concat, r.matMul, r.output].Perm [0, 1, 2])
    (perm : Option (List ℕ)) (hperm : (perm.getD [0, 1, 2]).Perm [0, 1, 2]) (A B : Tensor F) (n m k p : ℕ) (hA : A.data.length = A.shape.prod)
    (hB : B.data.length = B.shape.prod) (hA3 : A.shape.length = 3) (hB3 : B.shape.length = 3)
    (hAs : A.shape.getD l.concat 0 = 2 ^ n ∧ A.shape.getD l.matMul 0 = 2 ^ k ∧ A.shape.getD l.output 0 = 2 ^ m)
    (hBs : B.shape.getD r.concat 0 = 2 ^ n ∧ B.shape.getD r.matMul 0 = 2 ^ k ∧ B.shape.getD r.output 0 = 2 ^ p) (shape : List ℕ) (out : List F)
    (hout : IsConcatProduct (perm.getD [0, 1, 2]) (2 ^ n) (2 ^ m) (2 ^ k) (2 ^ p) l.concat l.matMul A.shape A.data r.concat r.matMul B.shape B.data shape out)
    (P : List F) (hP : P.length = n + m + p) (ts : T.State) :
    ∃ proof pl pr ts', proveConcatMatMul threads T l r perm A B shape ⟨P, mle out P⟩ ts = some (proof, ⟨pl, mle A.data pl⟩, ⟨pr, mle B.data pr⟩, ts') ∧
      pl.length = n + k + m ∧ pr.length = n + k + p ∧ proof.sumcheck.point.length = k + n ∧
      ((∀ c ∈ proof.sumcheck.point, ∀ j : ℕ, j ≤ 3 → c ≠ (j : F)) →
        verifyConcatMatMul T l r perm A.shape B.shape shape (k + n) ⟨P, mle out P⟩ proof ts = some (⟨pl, mle A.data pl⟩, ⟨pr, mle B.data pr⟩, ts')) := by
  obtain ⟨pc, row, col, hsp, hpc, hrow, hcol, hPe⟩ := splitOutputPoint_spec perm hperm n m p P shape hout.1 hP
  subst hpc hrow hcol
  have hsl : Sizes l A.shape (2 ^ pc.length) (2 ^ k) (2 ^ row.length) := ⟨hA3, hAs⟩
  have hsr : Sizes r B.shape (2 ^ pc.length) (2 ^ k) (2 ^ col.length) := ⟨hB3, hBs⟩
  have hid := concat_identity perm hperm l r hl hr A.shape B.shape A.data B.data k pc row col hsl hsr shape out hout
  rw [← hPe] at hid
  obtain ⟨u, hu1, hu2, hu3⟩ := inputMle_spec l hl A pc.length k row hsl hA
  obtain ⟨v, hv1, hv2, hv3⟩ := inputMle_spec r hr B pc.length k col hsr hB
  obtain ⟨hb1, hb2⟩ := mle_betaTable pc k
  obtain ⟨bt, hbt⟩ : ∃ bt, bt = (computeBetas pc).flatMap fun e => List.replicate (2 ^ k) e := ⟨_, rfl⟩
  rw [← hbt] at hb1 hb2
  obtain ⟨heap, hheap⟩ : ∃ heap : ℕ → Mle F, heap = fun i => if i = 0 then ⟨k + pc.length, bt⟩ else if i = 1 then ⟨k + pc.length, u⟩ else ⟨k + pc.length, v⟩ := ⟨_, rfl⟩
  have htab : ∀ a, (heap a).numVars = k + pc.length ∧ (heap a).evals.length = 2 ^ (k + pc.length) := by
    intro a
    rw [hheap]
    simp only
    split
    · exact ⟨rfl, hb1⟩
    · split
      · exact ⟨rfl, hu2⟩
      · exact ⟨rfl, hv2⟩
  obtain ⟨sc, ts', hp, hpl, hpv⟩ := proveTerms_spec T threads ht heap (k + pc.length) htab [(1, [0, 1, 2])] (by simp) (by simp) _
    (buildVP_three heap (k + pc.length) (fun a => (htab a).1)) hchar ts
  have hval : ∀ pt : List F, pt.length = k + pc.length → termsVal heap [(1, [0, 1, 2])] pt
      = eqPoly (pt.drop k) pc * mle A.data (l.buildPoint (pt.drop k) (pt.take k) row) * mle B.data (r.buildPoint (pt.drop k) (pt.take k) col) := by
    intro pt hpt
    simp only [termsVal, hheap, List.map_cons, List.map_nil, List.sum_cons, List.sum_nil, List.prod_cons, List.prod_nil]
    norm_num
    rw [hb2 pt hpt, hu3 pt hpt, hv3 pt hpt, mul_assoc]
  have hsum : cubeSum (k + pc.length) (termsVal heap [(1, [0, 1, 2])]) = mle out P := by
    rw [← hid]
    unfold cubeSum
    exact Finset.sum_congr rfl fun b _ => hval _ (bitsPoint_length _ b)
  simp only at hp hpv
  rw [hsum, hval _ hpl] at hpv
  have hbl : ∀ (d : InputDims), d.Valid → ∀ x : List F, (d.buildPoint (sc.point.drop k) (sc.point.take k) x).length = pc.length + k + x.length := by
    intro d hd x
    obtain ⟨cd, md, od⟩ := d
    have e1 : (sc.point.drop k).length = pc.length := by simp; omega
    have e2 : (sc.point.take k).length = k := by simp; omega
    have := perm3_cases hd
    simp only at this
    rcases this with ⟨rfl, rfl, rfl⟩ | ⟨rfl, rfl, rfl⟩ | ⟨rfl, rfl, rfl⟩ | ⟨rfl, rfl, rfl⟩ | ⟨rfl, rfl, rfl⟩ | ⟨rfl, rfl, rfl⟩ <;>
      simp only [InputDims.buildPoint, List.flatMap_cons, List.flatMap_nil, List.append_nil] <;> norm_num <;> omega
  have hok := concat_ok l r hl hr A.shape B.shape _ _ _ _ hsl hsr
  have hss := splitSum_eq l r A.shape B.shape _ k _ _ hsl hsr sc.point (by omega)
  refine ⟨⟨sc, [mle bt sc.point, mle u sc.point, mle v sc.point]⟩, l.buildPoint (sc.point.drop k) (sc.point.take k) row, r.buildPoint (sc.point.drop k) (sc.point.take k) col, ts', ?_, hbl l hl row, hbl r hr col, hpl, ?_⟩
  · unfold proveConcatMatMul
    rw [if_pos hok]
    simp only [hsp, hu1, hv1, Option.bind_eq_bind, Option.bind_some, hsl.2.2.1]
    rw [← hbt, intoMle_eq bt _ hb1]
    simp only [Option.bind_some, and_self, if_true]
    rw [← hheap, hp]
    simp only [Option.bind_some, List.map_cons, List.map_nil, List.getElem?_cons_succ, List.getElem?_cons_zero, hss]
    simp only [hheap]
    norm_num
    rw [hu3 _ hpl, hv3 _ hpl]
    exact ⟨rfl, rfl⟩
  · intro hch
    have hv := hpv hch
    unfold verifyConcatMatMul
    rw [if_pos hok]
    simp only [hv, hsp, hss, Option.bind_eq_bind, Option.bind_some, List.getElem?_cons_succ, List.getElem?_cons_zero]
    rw [if_pos (by rw [identityEval_eq' _ _ (by simp; omega), hb2 _ hpl]), if_pos (by simp only [List.foldl_cons, List.foldl_nil, one_mul]; rw [hb2 _ hpl, hu3 _ hpl, hv3 _ hpl]), hu3 _ hpl, hv3 _ hpl]

theorem verifyConcat_inv (T : Transcript F) (l r : InputDims) (perm : Option (List ℕ)) (a b out : List ℕ) (nv : ℕ) (last : Claim F) (proof : ConcatMatMulProof F) (ts ts' : T.State) (cl cr : Claim F)
    (h : verifyConcatMatMul T l r perm a b out nv last proof ts = some (cl, cr, ts')) :
    ∃ sub pc row col cp mp c0, verify T last.eval proof.sumcheck 3 nv ts = some (sub, ts') ∧ splitOutputPoint out perm last.point = some (pc, row, col) ∧
      splitSumcheckPoint l r a b sub.point = some (cp, mp) ∧ proof.individualClaims[0]? = some c0 ∧ proof.individualClaims[1]? = some cl.eval ∧
      proof.individualClaims[2]? = some cr.eval ∧ identityEval cp pc = c0 ∧ proof.individualClaims.foldl (· * ·) 1 = sub.expected ∧
      cl.point = l.buildPoint cp mp row ∧ cr.point = r.buildPoint cp mp col := by
  unfold verifyConcatMatMul at h
  split at h
  · simp only [Option.bind_eq_bind, Option.bind_eq_some_iff] at h
    obtain ⟨⟨sub, ts1⟩, h1, ⟨pc, row, col⟩, h2, ⟨cp, mp⟩, h3, c0, h4, h5⟩ := h
    simp only at h3 h5
    split at h5
    · rename_i hi
      simp only [Option.bind_eq_bind, Option.bind_eq_some_iff] at h5
      obtain ⟨c1, h6, c2, h7, h8⟩ := h5
      split at h8
      · rename_i he
        simp only [Option.some.injEq, Prod.mk.injEq] at h8
        obtain ⟨rfl, rfl, rfl⟩ := h8
        exact ⟨sub, pc, row, col, cp, mp, c0, h1, h2, h3, h4, h6, h7, hi, he, rfl, rfl⟩
      · simp at h8
    · simp at h5
  · simp at h

/-- C76, soundness. Partial: it needs exactly three individual claims, which the verifier does not check (`C76_extra_factor_false`). If the verifier accepts a claim on the output and the claims it hands on
are true of the two inputs, the claim is true of the stack of products, unless the prover was lucky in a round of the sum-check. -/
theorem C76_sound_partial (T : Transcript F) (hchar : ∀ k : ℕ, 0 < k → k ≤ 3 → (k : F) ≠ 0) (l r : InputDims)
    (hl : [l.concat, l.matMul, l.output].Perm [0, 1, 2]) (hr : [r.concat, r.matMul, r.output].Perm [0, 1, 2])
    (perm : Option (List ℕ)) (hperm : (perm.getD [0, 1, 2]).Perm [0, 1, 2]) (A B : Tensor F) (n m k p : ℕ) (hA3 : A.shape.length = 3) (hB3 : B.shape.length = 3)
    (hAs : A.shape.getD l.concat 0 = 2 ^ n ∧ A.shape.getD l.matMul 0 = 2 ^ k ∧ A.shape.getD l.output 0 = 2 ^ m)
    (hBs : B.shape.getD r.concat 0 = 2 ^ n ∧ B.shape.getD r.matMul 0 = 2 ^ k ∧ B.shape.getD r.output 0 = 2 ^ p) (shape : List ℕ) (out : List F)
    (hout : IsConcatProduct (perm.getD [0, 1, 2]) (2 ^ n) (2 ^ m) (2 ^ k) (2 ^ p) l.concat l.matMul A.shape A.data r.concat r.matMul B.shape B.data shape out)
    (last : Claim F) (hP : last.point.length = n + m + p) (proof : ConcatMatMulProof F) (hlen : proof.individualClaims.length = 3) (ts ts' : T.State) (cl cr : Claim F)
    (h : verifyConcatMatMul T l r perm A.shape B.shape shape (k + n) last proof ts = some (cl, cr, ts')) (hcl : cl.eval = mle A.data cl.point) (hcr : cr.eval = mle B.data cr.point) :
    ∃ pc row col, splitOutputPoint shape perm last.point = some (pc, row, col) ∧
      (last.eval = mle out last.point ∨ ∃ sub, verify T last.eval proof.sumcheck 3 (k + n) ts = some (sub, ts') ∧
        LuckyRound 3 (k + n) (fun pt => eqPoly (pt.drop k) pc * mle A.data (l.buildPoint (pt.drop k) (pt.take k) row) * mle B.data (r.buildPoint (pt.drop k) (pt.take k) col))
          proof.sumcheck.proofs sub.point) := by
  obtain ⟨pc, row, col, hsp, hpc, hrow, hcol, hPe⟩ := splitOutputPoint_spec perm hperm n m p last.point shape hout.1 hP
  refine ⟨pc, row, col, hsp, ?_⟩
  subst hpc hrow hcol
  have hsl : Sizes l A.shape (2 ^ pc.length) (2 ^ k) (2 ^ row.length) := ⟨hA3, hAs⟩
  have hsr : Sizes r B.shape (2 ^ pc.length) (2 ^ k) (2 ^ col.length) := ⟨hB3, hBs⟩
  have hid := concat_identity perm hperm l r hl hr A.shape B.shape A.data B.data k pc row col hsl hsr shape out hout
  rw [← hPe] at hid
  obtain ⟨sub, pc', row', col', cp, mp, c0, h1, h2, h3, h4, h5, h6, h7, h8, h9, h10⟩ := verifyConcat_inv T l r perm _ _ _ _ _ _ _ _ _ _ h
  rw [hsp] at h2
  simp only [Option.some.injEq, Prod.mk.injEq] at h2
  obtain ⟨rfl, rfl, rfl⟩ := h2
  have hsl0 : sub.point.length = k + pc.length := (accepted_sound T 3 (k + pc.length) hchar (fun _ => sub.expected) last.eval proof.sumcheck ts ts' sub h1 rfl).1
  rw [splitSum_eq l r A.shape B.shape _ k _ _ hsl hsr sub.point (by omega)] at h3
  simp only [Option.some.injEq, Prod.mk.injEq] at h3
  obtain ⟨rfl, rfl⟩ := h3
  obtain ⟨x, y, z, hxyz⟩ : ∃ x y z, proof.individualClaims = [x, y, z] := List.length_eq_three.mp hlen
  rw [hxyz] at h4 h5 h6 h8
  simp only [List.getElem?_cons_zero, List.getElem?_cons_succ, Option.some.injEq] at h4 h5 h6
  simp only [List.foldl_cons, List.foldl_nil, one_mul] at h8
  rw [h4, h5, h6, ← h7, hcl, hcr, h9, h10, identityEval_eq' _ _ (by simp; omega)] at h8
  obtain ⟨-, h11⟩ := accepted_sound T 3 (k + pc.length) hchar
    (fun pt => eqPoly (pt.drop k) pc * mle A.data (l.buildPoint (pt.drop k) (pt.take k) row) * mle B.data (r.buildPoint (pt.drop k) (pt.take k) col))
    last.eval proof.sumcheck ts ts' sub h1 h8.symm
  rcases h11 with h11 | h11
  · left; rw [h11, hid]
  · right; exact ⟨sub, h1, h11⟩

/-- C76 fails without the length hypothesis: for every claim on the output, true or false, there is a sum-check proof that, with a suitable fourth individual claim, is accepted and hands on true claims
on the inputs, whenever the product of the three honest values is not zero (and no challenge is 0, 1, 2 or 3). -/
theorem C76_extra_factor_false (T : Transcript F) (hchar : ∀ k : ℕ, 0 < k → k ≤ 3 → (k : F) ≠ 0) (l r : InputDims)
    (hl : [l.concat, l.matMul, l.output].Perm [0, 1, 2]) (hr : [r.concat, r.matMul, r.output].Perm [0, 1, 2])
    (perm : Option (List ℕ)) (hperm : (perm.getD [0, 1, 2]).Perm [0, 1, 2]) (A B : Tensor F) (n m k p : ℕ) (hA3 : A.shape.length = 3) (hB3 : B.shape.length = 3)
    (hAs : A.shape.getD l.concat 0 = 2 ^ n ∧ A.shape.getD l.matMul 0 = 2 ^ k ∧ A.shape.getD l.output 0 = 2 ^ m)
    (hBs : B.shape.getD r.concat 0 = 2 ^ n ∧ B.shape.getD r.matMul 0 = 2 ^ k ∧ B.shape.getD r.output 0 = 2 ^ p) (shape : List ℕ)
    (hshape : shape = (perm.getD [0, 1, 2]).map fun o => [2 ^ n, 2 ^ m, 2 ^ p].getD o 0) (last : Claim F) (hP : last.point.length = n + m + p) (ts : T.State) :
    ∃ (sumcheck : IOPProof F) (pc row col : List F), sumcheck.point.length = k + n ∧ splitOutputPoint shape perm last.point = some (pc, row, col) ∧
      let v0 := eqPoly (sumcheck.point.drop k) pc
      let pl := l.buildPoint (sumcheck.point.drop k) (sumcheck.point.take k) row
      let pr := r.buildPoint (sumcheck.point.drop k) (sumcheck.point.take k) col
      ((∀ c ∈ sumcheck.point, ∀ j : ℕ, j ≤ 3 → c ≠ (j : F)) → v0 * mle A.data pl * mle B.data pr ≠ 0 →
        ∃ fourth ts', verifyConcatMatMul T l r perm A.shape B.shape shape (k + n) last ⟨sumcheck, [v0, mle A.data pl, mle B.data pr, fourth]⟩ ts
          = some (⟨pl, mle A.data pl⟩, ⟨pr, mle B.data pr⟩, ts')) := by
  obtain ⟨pc, row, col, hsp, hpc, hrow, hcol, hPe⟩ := splitOutputPoint_spec perm hperm n m p last.point shape hshape hP
  subst hpc hrow hcol
  have hsl : Sizes l A.shape (2 ^ pc.length) (2 ^ k) (2 ^ row.length) := ⟨hA3, hAs⟩
  have hsr : Sizes r B.shape (2 ^ pc.length) (2 ^ k) (2 ^ col.length) := ⟨hB3, hBs⟩
  obtain ⟨sc, ts', hsl', hv⟩ := any_sum3 T (k + pc.length) hchar last.eval ts
  refine ⟨sc, pc, row, col, hsl', hsp, ?_⟩
  intro v0 pl pr hch hne
  refine ⟨last.eval / 2 ^ (k + pc.length) / (v0 * mle A.data pl * mle B.data pr), ts', ?_⟩
  unfold verifyConcatMatMul
  rw [if_pos (concat_ok l r hl hr A.shape B.shape _ _ _ _ hsl hsr)]
  simp only [hv hch, hsp, splitSum_eq l r A.shape B.shape _ k _ _ hsl hsr sc.point (by omega), Option.bind_eq_bind, Option.bind_some, List.getElem?_cons_succ, List.getElem?_cons_zero]
  rw [if_pos (identityEval_eq' _ _ (by simp; omega)), if_pos]
  simp only [List.foldl_cons, List.foldl_nil, one_mul]
  exact mul_div_cancel₀ _ hne

/-- Two products of 1x2 by 2x1 matrices, `(1,2)·(5,6) = 17` and `(3,4)·(7,8) = 53`, the right stack with its summed axis last. The honest proof of the claim on the output at the point `5` is accepted; the false
claim 1000 is accepted with a fourth factor. -/
example :
    (mle [17, 53] [(5 : ℚ)] = 197 ∧
    ((proveConcatMatMul (F := ℚ) 1 (tape ℚ) leftDims ⟨0, 2, 1⟩ none ⟨[2, 1, 2], [1, 2, 3, 4]⟩ ⟨[2, 1, 2], [5, 6, 7, 8]⟩ [2, 1, 1] ⟨[5], 197⟩ [7, 9]).bind fun x =>
      verifyConcatMatMul (F := ℚ) (tape ℚ) leftDims ⟨0, 2, 1⟩ none [2, 1, 2] [2, 1, 2] [2, 1, 1] 2 ⟨[5], 197⟩ x.1 [7, 9])
      = some (⟨[7, 9], 26⟩, ⟨[7, 9], 30⟩, [])) ∧
    verifyConcatMatMul (F := ℚ) (tape ℚ) leftDims ⟨0, 2, 1⟩ none [2, 1, 2] [2, 1, 2] [2, 1, 1] 2 ⟨[5], 1000⟩ ⟨⟨[], [[500, 500, 500, 500], [250, 250, 250, 250]]⟩, [77, 26, 30, 250 / (77 * 26 * 30)]⟩ [7, 9]
      = some (⟨[7, 9], 26⟩, ⟨[7, 9], 30⟩, []) := by
  decide +kernel

end Props
