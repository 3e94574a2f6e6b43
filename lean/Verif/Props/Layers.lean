import Verif.Lemmas.Product

/-!
C35, C36: the linear layers.
-/

namespace Props
open Spec Model Lemmas Polynomial

variable {F : Type} [Field F] [DecidableEq F]

/-! ### C35: dense layers -/

/-- C35, honest proofs: for every weight matrix, bias, input and true output claim the prover produces a proof
whose passed-on claims about weights, bias and input are true, and which the verifier accepts with the same
claims, unless a challenge is 0, 1 or 2 (see C07). -/
theorem C35_dense_complete (T : Transcript F) (threads : ℕ) (ht : 0 < threads)
    (hchar : ∀ k : ℕ, 0 < k → k ≤ 2 → (k : F) ≠ 0) (m n : ℕ) (W b x : List F)
    (hW : W.length = 2 ^ (n + m)) (hb : b.length = 2 ^ m) (hx : x.length = 2 ^ n)
    (r : List F) (hr : r.length = m) (ts : T.State) :
    ∃ proof pt ts',
      let claim : Claim F := ⟨pt, mle x pt⟩
      let common : List (String × Claim F) :=
        [("DenseWeight", ⟨pt ++ r, mle W (pt ++ r)⟩), ("DenseBias", ⟨r, mle b r⟩)]
      proveDense threads T m n W b ⟨r, mle (denseOut m n W x b) r⟩ x ts = some (proof, claim, common, ts') ∧
      pt = proof.sumcheck.point ∧ pt.length = n ∧
      ((∀ c ∈ pt, ∀ k : ℕ, k ≤ 2 → c ≠ (k : F)) →
        verifyDense T n ⟨r, mle (denseOut m n W x b) r⟩ proof ts = some (claim, common, ts')) := by
  obtain ⟨u, hu1, hu2, hu3⟩ := fixHigh_mle n m W r hW hr
  obtain ⟨proof, ts', h1, h2, h3⟩ := proveProduct_spec T threads ht n hchar u x hu2 hx ts
  refine ⟨⟨proof, mle b r, [mle u proof.point, mle x proof.point]⟩, proof.point, ts', ?_, rfl, h2, ?_⟩
  · unfold proveDense
    rw [if_pos ⟨hr.symm, hx⟩]
    simp only [Mle.ofEvals, hb, hW, hx, if_true, Option.bind_eq_bind, Option.bind_some,
      evaluate_eq ⟨m, b⟩ hb r hr, hu1, h1]
    simp [hu3 proof.point h2]
  · intro hch
    unfold verifyDense
    have hs : mle (denseOut m n W x b) r - mle b r = cubeSum n fun pt => mle u pt * mle x pt := by
      rw [dense_identity m n W x b r hr, add_sub_cancel_right]
      apply cubeSum_congr
      intro pt hpt
      rw [hu3 pt hpt]
    simp only [hs, h3 hch, Option.bind_eq_bind, Option.bind_some, individual_pair, if_true]
    simp [hu3 proof.point h2]

/-- C35, soundness. Partial: the theorem needs the proof to carry exactly two individual claims, which the
verifier does not check (`C35_extra_factor_false`). If the verifier accepts an output claim and the claims it
passes on about input, weights and bias are true, then the output claim is true of `W x + b`, or the prover was
lucky in some round of the sumcheck. -/
theorem C35_dense_sound_partial (T : Transcript F) (hchar : ∀ k : ℕ, 0 < k → k ≤ 2 → (k : F) ≠ 0) (m n : ℕ)
    (W b x : List F) (last : Claim F) (hr : last.point.length = m) (proof : DenseProof F)
    (hlen : proof.individualClaims.length = 2) (ts ts' : T.State) (claim : Claim F)
    (common : List (String × Claim F))
    (h : verifyDense T n last proof ts = some (claim, common, ts'))
    (hin : claim.eval = mle x claim.point)
    (hw : ∀ c, ("DenseWeight", c) ∈ common → c.eval = mle W c.point)
    (hb : ∀ c, ("DenseBias", c) ∈ common → c.eval = mle b c.point) :
    claim.point.length = n ∧
    (last.eval = mle (denseOut m n W x b) last.point ∨
      LuckyRound 2 n (fun pt => mle W (pt ++ last.point) * mle x pt) proof.sumcheck.proofs claim.point) := by
  unfold verifyDense at h
  simp only [Option.bind_eq_bind, Option.bind_eq_some_iff] at h
  obtain ⟨⟨sub, ts1⟩, hv, e0, he0, h⟩ := h
  split at h
  · rename_i hprod
    simp only [Option.bind_eq_some_iff] at h
    obtain ⟨e1, he1, h⟩ := h
    simp only [Option.some.injEq, Prod.mk.injEq] at h
    obtain ⟨rfl, rfl, rfl⟩ := h
    have hcl : proof.individualClaims = [e0, e1] := by
      obtain ⟨a, c, hac⟩ := List.length_eq_two.mp hlen
      rw [hac] at he0 he1 ⊢
      simp at he0 he1
      rw [he0, he1]
    have hw' := hw ⟨sub.point ++ last.point, e0⟩ (by simp)
    have hb' := hb ⟨last.point, proof.biasEval⟩ (by simp)
    simp only at hw' hb' hin
    rw [hcl, individual_pair, hw', hin] at hprod
    obtain ⟨g1, g2⟩ := product_sound T n hchar (fun pt => mle W (pt ++ last.point) * mle x pt) _ _ _ _ sub hv
      hprod.symm
    refine ⟨g1, g2.imp (fun g => ?_) id⟩
    rw [dense_identity m n W x b last.point hr, ← g, ← hb', sub_add_cancel]
  · simp at h

open Classical in
/-- C35, counting. Partial for the same reason. Over a finite field, for every false output claim and every
prover strategy (messages chosen from the challenges seen so far, individual claims from all of them), at most
a fraction `2n/|F|` of the challenge vectors makes the verifier accept with true passed-on claims. -/
theorem C35_dense_soundness_error_partial [Fintype F] (hchar : ∀ k : ℕ, 0 < k → k ≤ 2 → (k : F) ≠ 0) (m n : ℕ)
    (W b x : List F) (last : Claim F) (hr : last.point.length = m)
    (hfalse : last.eval ≠ mle (denseOut m n W x b) last.point)
    (σ : List F → List F) (bias : F) (τ : (Fin n → F) → F × F) :
    (Finset.univ.filter fun r : Fin n → F => ∃ claim common ts',
      verifyDense (tape F) n last
        ⟨⟨[], (List.range n).map fun i => σ ((List.ofFn r).take i)⟩, bias, [(τ r).1, (τ r).2]⟩ (List.ofFn r)
          = some (claim, common, ts') ∧
      claim.eval = mle x claim.point ∧
      (∀ c, ("DenseWeight", c) ∈ common → c.eval = mle W c.point) ∧
      (∀ c, ("DenseBias", c) ∈ common → c.eval = mle b c.point)).card * Fintype.card F
      ≤ n * 2 * Fintype.card F ^ n := by
  by_cases hbias : bias = mle b last.point
  · have hf' : last.eval - bias ≠ cubeSum n (fun pt => mle W ([] ++ pt ++ last.point) * mle x ([] ++ pt ++ [])) := by
      intro h
      apply hfalse
      rw [dense_identity m n W x b last.point hr, ← hbias]
      simp only [List.nil_append, List.append_nil] at h
      rw [← h, sub_add_cancel]
    refine le_trans (Nat.mul_le_mul_right _ (Finset.card_le_card ?_))
      (C11_soundness_error 2 n hchar _ (product_degree n W x [] last.point [] []) _ hf' σ)
    intro r hrr
    simp only [Finset.mem_filter, Finset.mem_univ, true_and] at hrr ⊢
    obtain ⟨claim, common, ts', h, hin, hw, -⟩ := hrr
    unfold verifyDense at h
    simp only [Option.bind_eq_bind, Option.bind_eq_some_iff] at h
    obtain ⟨⟨sub, ts1⟩, hv, e0, he0, h⟩ := h
    split at h
    · rename_i hprod
      simp only [Option.bind_eq_some_iff] at h
      obtain ⟨e1, he1, h⟩ := h
      simp only [Option.some.injEq, Prod.mk.injEq] at h
      obtain ⟨rfl, rfl, rfl⟩ := h
      refine ⟨sub, ?_, ?_⟩
      · unfold playSumcheck
        rw [hv]; rfl
      · have hw' := hw ⟨sub.point ++ last.point, e0⟩ (by simp)
        simp only [List.getElem?_cons_zero, List.getElem?_cons_succ, Option.some.injEq] at he0 he1
        simp only at hw' hin
        rw [← hprod, individual_pair, he0, he1, hw', hin]
        simp
    · simp at h
  · rw [Finset.card_eq_zero.mpr]
    · simp
    · rw [Finset.filter_eq_empty_iff]
      intro r _
      rintro ⟨claim, common, ts', h, -, -, hb⟩
      unfold verifyDense at h
      simp only [Option.bind_eq_bind, Option.bind_eq_some_iff] at h
      obtain ⟨⟨sub, ts1⟩, hv, e0, he0, h⟩ := h
      split at h
      · simp only [Option.bind_eq_some_iff] at h
        obtain ⟨e1, he1, h⟩ := h
        simp only [Option.some.injEq, Prod.mk.injEq] at h
        obtain ⟨rfl, rfl, rfl⟩ := h
        exact hbias (hb ⟨last.point, bias⟩ (by simp))
      · simp at h

/-- C35 fails without the length hypothesis. Against every transcript, for every layer and input and for every
output claim, true or false, there are sumcheck messages such that (if the challenges are none of 0, 1, 2 and the
honest product does not vanish at them) a proof with three individual claims is accepted, and everything it
passes on to the other layers and to the commitments is true. The verifier multiplies all entries of
`individual_claims`, so the third one can be chosen to match. -/
theorem C35_extra_factor_false (T : Transcript F) (hchar : ∀ k : ℕ, 0 < k → k ≤ 2 → (k : F) ≠ 0) (n : ℕ)
    (W b x : List F) (last : Claim F) (ts : T.State) :
    ∃ sumcheck : IOPProof F, sumcheck.point.length = n ∧
      ((∀ c ∈ sumcheck.point, ∀ k : ℕ, k ≤ 2 → c ≠ (k : F)) →
        mle W (sumcheck.point ++ last.point) * mle x sumcheck.point ≠ 0 →
        ∃ (third : F) (ts' : T.State),
          verifyDense T n last ⟨sumcheck, mle b last.point,
              [mle W (sumcheck.point ++ last.point), mle x sumcheck.point, third]⟩ ts
            = some (⟨sumcheck.point, mle x sumcheck.point⟩,
                [("DenseWeight", ⟨sumcheck.point ++ last.point, mle W (sumcheck.point ++ last.point)⟩),
                 ("DenseBias", ⟨last.point, mle b last.point⟩)], ts')) := by
  obtain ⟨sc, ts', hl, hv⟩ := any_sum T n hchar (last.eval - mle b last.point) ts
  obtain ⟨e, he⟩ : ∃ e, e = (last.eval - mle b last.point) / 2 ^ n := ⟨_, rfl⟩
  rw [← he] at hv
  refine ⟨sc, hl, fun hch hne => ⟨e / (mle W (sc.point ++ last.point) * mle x sc.point), ts', ?_⟩⟩
  unfold verifyDense
  simp only [hv hch, Option.bind_eq_bind, Option.bind_some, List.getElem?_cons_zero, List.getElem?_cons_succ]
  rw [if_pos]
  simp only [individualToVirtual, List.foldl_cons, List.foldl_nil, one_mul]
  exact mul_div_cancel₀ _ hne

/-- An instance of the attack: `W = ((1,2),(3,4))`, `x = (5,6)`, `b = (1,1)`, so `Wx + b = (18, 40)`, whose
extension at 3 is 84. The claim that it is 1000 is accepted, with true passed-on claims. -/
example : mle (denseOut 1 1 [1, 2, 3, 4] [5, 6] [1, 1]) [(3 : ℚ)] = 84 ∧
    verifyDense (tape ℚ) 1 ⟨[3], 1000⟩ ⟨⟨[], [[999, 0, 0]]⟩, mle [1, 1] [3],
      [mle [1, 2, 3, 4] [7, 3], mle [5, 6] [7], 14985 / (14 * 12)]⟩ [7]
    = some (⟨[7], mle [5, 6] [7]⟩, [("DenseWeight", ⟨[7, 3], mle [1, 2, 3, 4] [7, 3]⟩),
        ("DenseBias", ⟨[3], mle [1, 1] [3]⟩)], []) := by decide +kernel

/-- The hypotheses of `C35_dense_complete` and `C35_dense_sound_partial` are met by the same layer: the honest
proof of the true claim 84 is accepted. -/
example : ((proveDense 2 (tape ℚ) 1 1 [1, 2, 3, 4] [1, 1] ⟨[3], 84⟩ [5, 6] [7]).bind fun x =>
    verifyDense (tape ℚ) 1 ⟨[3], 84⟩ x.1 [7])
    = some (⟨[7], mle [5, 6] [7]⟩, [("DenseWeight", ⟨[7, 3], mle [1, 2, 3, 4] [7, 3]⟩),
        ("DenseBias", ⟨[3], mle [1, 1] [3]⟩)], []) := by decide +kernel

/-! ### C36: matrix multiplication layers -/

/-- The table a commitment claim of a matrix multiplication layer is about. -/
def matmulTable (ctx : MatMulCtx) (L R bias : List F) (name : String) : Option (List F) :=
  if name = "MatMulBias" then some bias
  else if name = "MatMulWeight" then some (if ctx.leftConst then L else R)
  else none

/-- All claims a matrix multiplication layer passes on are true: those for the operands that are inputs, left
first, and those for the committed tables. -/
def MatMulClaimsTrue (ctx : MatMulCtx) (L R bias : List F) (out : List (Claim F))
    (common : List (String × Claim F)) : Prop :=
  List.Forall₂ (fun c t => c.eval = mle t c.point) out
    ((if ctx.leftConst then [] else [L]) ++ (if ctx.rightConst then [] else [R])) ∧
  ∀ nc ∈ common, ∃ t, matmulTable ctx L R bias nc.1 = some t ∧ nc.2.eval = mle t nc.2.point

/-- True operand claims stay true when they are distributed. -/
theorem routeClaims_claimsTrue (ctx : MatMulCtx) (L R bias : List F) (l r : Claim F)
    (common0 : List (String × Claim F)) (hcc : (ctx.leftConst && ctx.rightConst) = false)
    (hl : l.eval = mle L l.point) (hr : r.eval = mle R r.point)
    (h0 : ∀ nc ∈ common0, ∃ t, matmulTable ctx L R bias nc.1 = some t ∧ nc.2.eval = mle t nc.2.point) :
    MatMulClaimsTrue ctx L R bias (routeClaims ctx.leftConst ctx.rightConst l r common0).1
      (routeClaims ctx.leftConst ctx.rightConst l r common0).2 := by
  obtain ⟨n, rv, cv, lc, rc, tr, wb⟩ := ctx
  refine ⟨?_, ?_⟩
  · cases lc <;> cases rc <;> simp_all [routeClaims]
  · intro nc hnc
    cases lc <;> cases rc <;> simp only [routeClaims, Bool.false_eq_true, if_false, if_true, List.append_nil,
      List.mem_append, List.mem_singleton] at hnc
    · exact h0 nc hnc
    · rcases hnc with hnc | rfl
      · exact h0 nc hnc
      · exact ⟨R, by simp [matmulTable], hr⟩
    · rcases hnc with hnc | rfl
      · exact h0 nc hnc
      · exact ⟨L, by simp [matmulTable], hl⟩
    · simp at hcc

/-- C36, honest proofs. `bias` is `none` for a layer without bias. -/
theorem C36_matmul_complete (T : Transcript F) (threads : ℕ) (ht : 0 < threads)
    (hchar : ∀ k : ℕ, 0 < k → k ≤ 2 → (k : F) ≠ 0) (ctx : MatMulCtx)
    (hconst : ¬ (ctx.leftConst ∧ ctx.rightConst)) (L R : List F) (bias : Option (List F))
    (hbias : ctx.withBias = bias.isSome)
    (hL : L.length = 2 ^ (ctx.numVars + ctx.rowVars)) (hR : R.length = 2 ^ (ctx.numVars + ctx.colVars))
    (hb : ∀ b ∈ bias, b.length = 2 ^ ctx.colVars)
    (r : List F) (hr : r.length = ctx.rowVars + ctx.colVars) (ts : T.State) :
    let last : Claim F :=
      ⟨r, mle (matmulOut ctx.rowVars ctx.numVars ctx.colVars ctx.transposed L R (bias.getD [])) r⟩
    ∃ out proof common ts', proveMatMul threads T ctx L R bias last ts = some (out, proof, common, ts') ∧
      MatMulClaimsTrue ctx L R (bias.getD []) out common ∧ proof.sumcheck.point.length = ctx.numVars ∧
      ((∀ c ∈ proof.sumcheck.point, ∀ k : ℕ, k ≤ 2 → c ≠ (k : F)) →
        verifyMatMul T ctx last proof ts = some (out, common, ts')) := by
  obtain ⟨n, rv, cv, lc, rc, tr, wb⟩ := ctx
  simp only at *
  obtain ⟨pr, hpr⟩ : ∃ pr, pr = r.take cv := ⟨_, rfl⟩
  obtain ⟨pl, hpl⟩ : ∃ pl, pl = r.drop cv := ⟨_, rfl⟩
  have hsp : pr ++ pl = r := by rw [hpr, hpl, List.take_append_drop]
  have hprl : pr.length = cv := by simp [hpr, hr]
  have hpll : pl.length = rv := by simp [hpl, hr]
  obtain ⟨u, hu1, hu2, hu3⟩ := fixHigh_mle n rv L pl hL hpll
  have hv : ∃ v : List F, fixRight tr (⟨n + cv, R⟩ : Mle F) pr = some ⟨n, v⟩ ∧ v.length = 2 ^ n ∧
      ∀ pt : List F, pt.length = n → mle v pt = mle R (if tr then pt ++ pr else pr ++ pt) := by
    cases tr
    · obtain ⟨v, a, b, c⟩ := fixLow_mle n cv R pr hR hprl
      exact ⟨v, by simpa [fixRight] using a, b, fun pt _ => by simpa using c pt⟩
    · obtain ⟨v, a, b, c⟩ := fixHigh_mle n cv R pr hR hprl
      exact ⟨v, by simpa [fixRight] using a, b, fun pt h => by simpa using c pt h⟩
  obtain ⟨v, hv1, hv2, hv3⟩ := hv
  obtain ⟨proof, ts', h1, h2, h3⟩ := proveProduct_spec T threads ht n hchar u v hu2 hv2 ts
  have hid := matmul_identity rv n cv tr L R (bias.getD []) pr pl hprl hpll
  rw [hsp] at hid
  have hsum : (cubeSum n fun pt => mle L (pt ++ pl) * mle R (if tr then pt ++ pr else pr ++ pt))
      = cubeSum n fun pt => mle u pt * mle v pt := by
    apply cubeSum_congr
    intro pt hpt
    rw [hu3 pt hpt, hv3 pt hpt]
  rw [hsum] at hid
  have hLm : (Mle.ofEvals (n + rv) L) = some ⟨n + rv, L⟩ := by simp [Mle.ofEvals, hL]
  have hRm : (Mle.ofEvals (n + cv) R) = some ⟨n + cv, R⟩ := by simp [Mle.ofEvals, hR]
  have hcv : cv ≤ r.length := by omega
  have hcc : (lc && rc) = false := by
    cases lc <;> cases rc <;> simp_all
  have hu := hu3 proof.point h2
  have hvv := hv3 proof.point h2
  -- the claims passed on
  have htrue : ∀ common0 : List (String × Claim F),
      (∀ nc ∈ common0, ∃ t, matmulTable ⟨n, rv, cv, lc, rc, tr, wb⟩ L R (bias.getD []) nc.1 = some t ∧
        nc.2.eval = mle t nc.2.point) →
      MatMulClaimsTrue ⟨n, rv, cv, lc, rc, tr, wb⟩ L R (bias.getD [])
        (routeClaims lc rc ⟨proof.point ++ pl, mle u proof.point⟩
          ⟨if tr then proof.point ++ pr else pr ++ proof.point, mle v proof.point⟩ common0).1
        (routeClaims lc rc ⟨proof.point ++ pl, mle u proof.point⟩
          ⟨if tr then proof.point ++ pr else pr ++ proof.point, mle v proof.point⟩ common0).2 := by
    intro common0 h0
    exact routeClaims_claimsTrue _ L R (bias.getD []) _ _ common0 hcc hu hvv h0
  rcases bias with _ | b
  · simp only [Option.isSome_none] at hbias
    subst hbias
    have hz : mle ([] : List F) pr = 0 := by simp [mle]
    simp only [Option.getD_none, hz, add_zero] at hid
    refine ⟨_, ⟨proof, [mle u proof.point, mle v proof.point], none⟩, _, ts', ?_, htrue [] (by simp), h2, ?_⟩
    · unfold proveMatMul
      simp only [hr, if_true, splitClaim, hcv, Option.bind_eq_bind, Option.bind_some, hLm, hRm,
        ← hpl, ← hpr, hu1, hv1, h1, hcc, fullPoints, List.getElem?_cons_zero, List.getElem?_cons_succ,
        Bool.false_eq_true, if_false]
      simp [hu1, hv1, h1]
    · intro hch
      unfold verifyMatMul peelBias
      simp only [splitClaim, hr, hcv, if_true, Option.bind_eq_bind, Option.bind_some, Bool.false_eq_true, if_false,
        Option.getD_none, hid, h3 hch, hcc, fullPoints, ← hpl, ← hpr, individual_pair, List.getElem?_cons_zero, List.getElem?_cons_succ]
      simp
  · simp only [Option.isSome_some] at hbias
    subst hbias
    have hbl : b.length = 2 ^ cv := hb b rfl
    simp only [Option.getD_some] at hid
    have hBm : (Mle.ofEvals cv b) = some ⟨cv, b⟩ := by simp [Mle.ofEvals, hbl]
    have hbe : Mle.evaluate (⟨cv, b⟩ : Mle F) pr = some (mle b pr) := evaluate_eq ⟨cv, b⟩ hbl pr hprl
    refine ⟨_, ⟨proof, [mle u proof.point, mle v proof.point], some (mle b pr)⟩, _, ts', ?_,
      htrue [("MatMulBias", ⟨pr, mle b pr⟩)] (by
        intro nc hnc
        simp only [List.mem_singleton] at hnc
        subst hnc
        exact ⟨b, by simp [matmulTable], rfl⟩), h2, ?_⟩
    · unfold proveMatMul
      simp only [hr, if_true, splitClaim, hcv, Option.bind_eq_bind, Option.bind_some, hLm, hRm, hBm,
        ← hpl, ← hpr, hu1, hv1, h1, hcc, fullPoints, List.getElem?_cons_zero, List.getElem?_cons_succ,
        Bool.false_eq_true, if_false]
      simp [hu1, hv1, h1, hbe]
    · intro hch
      unfold verifyMatMul peelBias
      simp only [splitClaim, hr, hcv, if_true, Option.bind_eq_bind, Option.bind_some, Bool.false_eq_true, if_false,
        Option.getD_some, hid, Option.map_some, add_sub_cancel_right, h3 hch, hcc, fullPoints, ← hpl, ← hpr, individual_pair, List.getElem?_cons_zero, List.getElem?_cons_succ]
      simp

theorem MatMulClaimsTrue.operands (ctx : MatMulCtx) (L R bias : List F) (l r : Claim F) (pr : List F) (be : F)
    (out : List (Claim F)) (common : List (String × Claim F)) (hc : (ctx.leftConst && ctx.rightConst) = false)
    (he : (out, common) = routeClaims ctx.leftConst ctx.rightConst l r
        (if ctx.withBias then [("MatMulBias", ⟨pr, be⟩)] else []))
    (h : MatMulClaimsTrue ctx L R bias out common) :
    l.eval = mle L l.point ∧ r.eval = mle R r.point ∧ (ctx.withBias = true → be = mle bias pr) := by
  have h1 : out = _ := congrArg Prod.fst he
  have h2 : common = _ := congrArg Prod.snd he
  obtain ⟨ho, hcm⟩ := h
  have hw : ∀ c, ("MatMulWeight", c) ∈ common → c.eval = mle (if ctx.leftConst then L else R) c.point := by
    intro c hcc
    obtain ⟨t, ht, hte⟩ := hcm _ hcc
    simp [matmulTable] at ht
    rw [hte, ← ht]
  rw [h1] at ho
  rw [h2] at hw
  obtain ⟨g1, g2⟩ := routeClaims_true ctx L R l r _ hc ho hw
  refine ⟨g1, g2, fun hwb => ?_⟩
  obtain ⟨t, ht, hte⟩ := hcm ("MatMulBias", ⟨pr, be⟩) (by rw [h2]; simp [routeClaims, hwb])
  simp [matmulTable] at ht
  simpa [← ht] using hte

/-- C36, soundness. Partial: as for dense layers, the theorem needs exactly two individual claims, which the
verifier does not check (`C36_extra_factor_false`). If an output claim is accepted and all claims passed on are
true, the output claim is true of `L R + bias`, or the prover was lucky in some round of the sumcheck, whose
challenges form the point the sumcheck verifier returned. -/
theorem C36_matmul_sound_partial (T : Transcript F) (hchar : ∀ k : ℕ, 0 < k → k ≤ 2 → (k : F) ≠ 0)
    (ctx : MatMulCtx) (L R bias : List F) (last : Claim F)
    (hr : last.point.length = ctx.rowVars + ctx.colVars) (proof : MatMulProof F)
    (hlen : proof.individualClaims.length = 2) (ts ts' : T.State) (out : List (Claim F))
    (common : List (String × Claim F))
    (h : verifyMatMul T ctx last proof ts = some (out, common, ts'))
    (htrue : MatMulClaimsTrue ctx L R bias out common) :
    last.eval = mle (matmulOut ctx.rowVars ctx.numVars ctx.colVars ctx.transposed L R
      (if ctx.withBias then bias else [])) last.point ∨
    ∃ claimed sc, verify T claimed proof.sumcheck 2 ctx.numVars ts = some (sc, ts') ∧
      LuckyRound 2 ctx.numVars (fun pt => mle L (pt ++ last.point.drop ctx.colVars) *
        mle R (if ctx.transposed then pt ++ last.point.take ctx.colVars else last.point.take ctx.colVars ++ pt))
        proof.sumcheck.proofs sc.point := by
  obtain ⟨sub, be, e0, e1, hb1, hb2, hv, he0, he1, hp, hc, he⟩ := verifyMatMul_inv T ctx last proof ts ts' out common h
  obtain ⟨g1, g2, g3⟩ := MatMulClaimsTrue.operands ctx L R bias _ _ _ _ out common hc he htrue
  have hcl : proof.individualClaims = [e0, e1] := by
    obtain ⟨a, c, hac⟩ := List.length_eq_two.mp hlen
    rw [hac] at he0 he1 ⊢
    simp at he0 he1
    rw [he0, he1]
  simp only at g1 g2
  rw [hcl, individual_pair, g1, g2] at hp
  obtain ⟨-, k2⟩ := product_sound T ctx.numVars hchar (fun pt => mle L (pt ++ last.point.drop ctx.colVars) *
        mle R (if ctx.transposed then pt ++ last.point.take ctx.colVars else last.point.take ctx.colVars ++ pt))
        _ _ _ _ sub hv hp.symm
  rcases k2 with k2 | k2
  · left
    have hid := matmul_identity ctx.rowVars ctx.numVars ctx.colVars ctx.transposed L R
      (if ctx.withBias then bias else []) (last.point.take ctx.colVars) (last.point.drop ctx.colVars)
      (by simp; omega) (by simp; omega)
    rw [List.take_append_drop, ← k2] at hid
    rw [hid]
    have : be = mle (if ctx.withBias then bias else []) (last.point.take ctx.colVars) := by
      cases hwb : ctx.withBias
      · rw [hb2 hwb]; simp [mle]
      · rw [g3 hwb]; simp
    rw [← this, sub_add_cancel]
  · right
    exact ⟨_, sub, hv, k2⟩

open Classical in
/-- C36, counting. Partial for the same reason. -/
theorem C36_matmul_soundness_error_partial [Fintype F] (hchar : ∀ k : ℕ, 0 < k → k ≤ 2 → (k : F) ≠ 0)
    (ctx : MatMulCtx) (L R bias : List F) (last : Claim F)
    (hr : last.point.length = ctx.rowVars + ctx.colVars)
    (hfalse : last.eval ≠ mle (matmulOut ctx.rowVars ctx.numVars ctx.colVars ctx.transposed L R
      (if ctx.withBias then bias else [])) last.point)
    (σ : List F → List F) (biasEval : Option F) (τ : (Fin ctx.numVars → F) → F × F) :
    (Finset.univ.filter fun r : Fin ctx.numVars → F => ∃ out common ts',
      verifyMatMul (tape F) ctx last
        ⟨⟨[], (List.range ctx.numVars).map fun i => σ ((List.ofFn r).take i)⟩, [(τ r).1, (τ r).2], biasEval⟩
          (List.ofFn r) = some (out, common, ts') ∧
      MatMulClaimsTrue ctx L R bias out common).card * Fintype.card F
      ≤ ctx.numVars * 2 * Fintype.card F ^ ctx.numVars := by
  -- the value the sumcheck claims
  have hid := matmul_identity ctx.rowVars ctx.numVars ctx.colVars ctx.transposed L R
      (if ctx.withBias then bias else []) (last.point.take ctx.colVars) (last.point.drop ctx.colVars)
      (by simp; omega) (by simp; omega)
  rw [List.take_append_drop] at hid
  have hdeg : IndivDegreeLE ctx.numVars 2 (fun pt => mle L (pt ++ last.point.drop ctx.colVars) *
        mle R (if ctx.transposed then pt ++ last.point.take ctx.colVars else last.point.take ctx.colVars ++ pt)) := by
    have := product_degree ctx.numVars L R [] (last.point.drop ctx.colVars)
      (if ctx.transposed then [] else last.point.take ctx.colVars)
      (if ctx.transposed then last.point.take ctx.colVars else [])
    cases htr : ctx.transposed <;> simpa [htr] using this
  have hf' : last.eval - mle (if ctx.withBias then bias else []) (last.point.take ctx.colVars) ≠
      cubeSum ctx.numVars (fun pt => mle L (pt ++ last.point.drop ctx.colVars) *
        mle R (if ctx.transposed then pt ++ last.point.take ctx.colVars else last.point.take ctx.colVars ++ pt)) := by
    intro h0
    apply hfalse
    rw [hid, ← h0, sub_add_cancel]
  refine le_trans (Nat.mul_le_mul_right _ (Finset.card_le_card ?_))
    (C11_soundness_error 2 ctx.numVars hchar _ hdeg _ hf' σ)
  intro r hrr
  simp only [Finset.mem_filter, Finset.mem_univ, true_and] at hrr ⊢
  obtain ⟨out, common, ts', h, htrue⟩ := hrr
  obtain ⟨sub, be, e0, e1, hb1, hb2, hv, he0, he1, hp, hc, he⟩ := verifyMatMul_inv _ ctx last _ _ _ out common h
  obtain ⟨g1, g2, g3⟩ := MatMulClaimsTrue.operands ctx L R bias _ _ _ _ out common hc he htrue
  have hbe : be = mle (if ctx.withBias then bias else []) (last.point.take ctx.colVars) := by
    cases hwb : ctx.withBias
    · rw [hb2 hwb]; simp [mle]
    · rw [g3 hwb]; simp
  refine ⟨sub, ?_, ?_⟩
  · unfold playSumcheck
    rw [← hbe, hv]; rfl
  · simp only [List.getElem?_cons_zero, List.getElem?_cons_succ, Option.some.injEq] at he0 he1
    simp only at g1 g2
    rw [← hp, individual_pair, he0, he1, g1, g2]

/-- C36 fails without the length hypothesis, as C35 does. -/
theorem C36_extra_factor_false (T : Transcript F) (hchar : ∀ k : ℕ, 0 < k → k ≤ 2 → (k : F) ≠ 0)
    (ctx : MatMulCtx) (hc : (ctx.leftConst && ctx.rightConst) = false) (L R bias : List F) (last : Claim F)
    (hr : last.point.length = ctx.rowVars + ctx.colVars) (ts : T.State) :
    ∃ sumcheck : IOPProof F, sumcheck.point.length = ctx.numVars ∧
      let vl := mle L (sumcheck.point ++ last.point.drop ctx.colVars)
      let vr := mle R (if ctx.transposed then sumcheck.point ++ last.point.take ctx.colVars
        else last.point.take ctx.colVars ++ sumcheck.point)
      ((∀ c ∈ sumcheck.point, ∀ k : ℕ, k ≤ 2 → c ≠ (k : F)) → vl * vr ≠ 0 →
        ∃ (third : F) (out : List (Claim F)) (common : List (String × Claim F)) (ts' : T.State),
          verifyMatMul T ctx last
            ⟨sumcheck, [vl, vr, third], some (mle bias (last.point.take ctx.colVars))⟩ ts
            = some (out, common, ts') ∧ MatMulClaimsTrue ctx L R bias out common) := by
  obtain ⟨n, rv, cv, lc, rc, tr, wb⟩ := ctx
  simp only at *
  obtain ⟨sc, ts', hl, hv⟩ := any_sum T n hchar
    (last.eval - if wb then mle bias (last.point.take cv) else 0) ts
  obtain ⟨e, he⟩ : ∃ e, e = (last.eval - if wb then mle bias (last.point.take cv) else 0) / 2 ^ n := ⟨_, rfl⟩
  rw [← he] at hv
  have hcv : cv ≤ last.point.length := by omega
  refine ⟨sc, hl, fun hch hne => ?_⟩
  obtain ⟨vl, hvl⟩ : ∃ vl, vl = mle L (sc.point ++ last.point.drop cv) := ⟨_, rfl⟩
  obtain ⟨vr, hvr⟩ : ∃ vr, vr = mle R (if tr then sc.point ++ last.point.take cv
        else last.point.take cv ++ sc.point) := ⟨_, rfl⟩
  simp only [← hvl, ← hvr] at hne ⊢
  have hrt : MatMulClaimsTrue ⟨n, rv, cv, lc, rc, tr, wb⟩ L R bias
      (routeClaims lc rc ⟨sc.point ++ last.point.drop cv, vl⟩
        ⟨if tr then sc.point ++ last.point.take cv else last.point.take cv ++ sc.point, vr⟩
        (if wb then [("MatMulBias", ⟨last.point.take cv, mle bias (last.point.take cv)⟩)] else [])).1
      (routeClaims lc rc ⟨sc.point ++ last.point.drop cv, vl⟩
        ⟨if tr then sc.point ++ last.point.take cv else last.point.take cv ++ sc.point, vr⟩
        (if wb then [("MatMulBias", ⟨last.point.take cv, mle bias (last.point.take cv)⟩)] else [])).2 :=
    routeClaims_claimsTrue _ L R bias _ _ _ hc hvl hvr (by
      intro nc hnc
      split at hnc
      · simp only [List.mem_singleton] at hnc
        subst hnc
        exact ⟨bias, by simp [matmulTable], rfl⟩
      · simp at hnc)
  refine ⟨e / (vl * vr), _, _, ts', ?_, hrt⟩
  unfold verifyMatMul peelBias
  have hp : individualToVirtual [vl, vr, e / (vl * vr)] = e := by
    simp only [individualToVirtual, List.foldl_cons, List.foldl_nil, one_mul]
    exact mul_div_cancel₀ _ hne
  have hv' := hv hch
  cases wb
  · simp only [Bool.false_eq_true, if_false, sub_zero] at hv'
    simp [splitClaim, hcv, hv', hc, fullPoints, hp]
  · simp only [if_true] at hv'
    simp [splitClaim, hcv, hv', hc, fullPoints, hp]

/-- Instance: `L = ((1,2),(3,4))`, `R = ((5,6),(7,8))`, bias `(1,2)`, right matrix constant; the output is
`((20,24),(44,52))`, at the point `(3,5)` it is 212. The honest proof is accepted; the false claim 1000 is accepted
with a third factor, and with the same passed-on claims. -/
example : mle (matmulOut 1 1 1 false [1, 2, 3, 4] [5, 6, 7, 8] [1, 2]) [(3 : ℚ), 5] = 212 ∧
    ((proveMatMul 2 (tape ℚ) ⟨1, 1, 1, false, true, false, true⟩ [1, 2, 3, 4] [5, 6, 7, 8] (some [1, 2]) ⟨[3, 5], 212⟩
      [7]).bind fun x => verifyMatMul (tape ℚ) ⟨1, 1, 1, false, true, false, true⟩ ⟨[3, 5], 212⟩ x.2.1 [7])
    = some ([⟨[7, 5], 18⟩], [("MatMulBias", ⟨[3], 4⟩), ("MatMulWeight", ⟨[3, 7], 22⟩)], []) ∧
    verifyMatMul (tape ℚ) ⟨1, 1, 1, false, true, false, true⟩ ⟨[3, 5], 1000⟩
      ⟨⟨[], [[996, 0, 0]]⟩, [18, 22, 14940 / (18 * 22)], some 4⟩ [7]
    = some ([⟨[7, 5], 18⟩], [("MatMulBias", ⟨[3], 4⟩), ("MatMulWeight", ⟨[3, 7], 22⟩)], []) ∧
    mle [1, 2, 3, 4] [(7 : ℚ), 5] = 18 ∧ mle [5, 6, 7, 8] [(3 : ℚ), 7] = 22 ∧ mle [1, 2] [(3 : ℚ)] = 4 := by
  refine ⟨?_, ?_, ?_, ?_, ?_, ?_⟩ <;> decide +kernel

/-! ### C61: the stand-alone matrix-vector proof -/

/-- C61, honest proofs: accepted, and the claim passed on is true. -/
theorem C61_matvec_complete (T : Transcript F) (threads : ℕ) (ht : 0 < threads)
    (hchar : ∀ k : ℕ, 0 < k → k ≤ 2 → (k : F) ≠ 0) (m n : ℕ) (W x : List F)
    (hW : W.length = 2 ^ (n + m)) (hx : x.length = 2 ^ n) (r : List F) (hr : r.length = m) (ts : T.State) :
    ∃ proof pt ts',
      proveMatVec threads T m n W ⟨r, mle (denseOut m n W x []) r⟩ x ts = some (proof, ⟨pt, mle x pt⟩, ts') ∧
      ((∀ c ∈ pt, ∀ k : ℕ, k ≤ 2 → c ≠ (k : F)) →
        verifyMatVec T n (fun p => (Mle.ofEvals (n + m) W).bind fun w => w.evaluate p)
          ⟨r, mle (denseOut m n W x []) r⟩ proof ts = some (⟨pt, mle x pt⟩, ts')) := by
  obtain ⟨u, hu1, hu2, hu3⟩ := fixHigh_mle n m W r hW hr
  obtain ⟨proof, ts', h1, h2, h3⟩ := proveProduct_spec T threads ht n hchar u x hu2 hx ts
  refine ⟨⟨proof, [mle u proof.point, mle x proof.point]⟩, proof.point, ts', ?_, ?_⟩
  · unfold proveMatVec
    rw [if_pos ⟨hr.symm, hx⟩]
    simp [Mle.ofEvals, hW, hx, hu1, h1]
  · intro hch
    unfold verifyMatVec
    have hs : mle (denseOut m n W x []) r = cubeSum n fun pt => mle u pt * mle x pt := by
      rw [dense_identity m n W x [] r hr]
      have : mle ([] : List F) r = 0 := by simp [mle]
      rw [this, add_zero]
      apply cubeSum_congr
      intro pt hpt
      rw [hu3 pt hpt]
    simp only [hs, h3 hch, Option.bind_eq_bind, Option.bind_some]
    simp [Mle.ofEvals, hW, evaluate_eq ⟨n + m, W⟩ hW (proof.point ++ r) (by simp [h2, hr]), hu3 proof.point h2]

/-- C61 fails for dishonest provers: against every transcript, for every output claim and every matrix there is
an accepted proof that passes on the true claim about the input (and likewise any other value `v`), because the
value the sumcheck reduces to is never compared with the product of the two evaluations. -/
theorem C61_matvec_unchecked_false (T : Transcript F) (hchar : ∀ k : ℕ, 0 < k → k ≤ 2 → (k : F) ≠ 0) (m n : ℕ)
    (W : List F) (hW : W.length = 2 ^ (n + m)) (last : Claim F) (hr : last.point.length = m) (ts : T.State) :
    ∃ sumcheck : IOPProof F, sumcheck.point.length = n ∧
      ((∀ c ∈ sumcheck.point, ∀ k : ℕ, k ≤ 2 → c ≠ (k : F)) → ∀ v : F,
        ∃ ts', verifyMatVec T n (fun p => (Mle.ofEvals (n + m) W).bind fun w => w.evaluate p) last
          ⟨sumcheck, [mle W (sumcheck.point ++ last.point), v]⟩ ts = some (⟨sumcheck.point, v⟩, ts')) := by
  obtain ⟨sc, ts', hl, hv⟩ := any_sum T n hchar last.eval ts
  refine ⟨sc, hl, fun hch v => ⟨ts', ?_⟩⟩
  unfold verifyMatVec
  simp only [hv hch, Option.bind_eq_bind, Option.bind_some]
  simp [Mle.ofEvals, hW, evaluate_eq ⟨n + m, W⟩ hW (sc.point ++ last.point) (by simp [hl, hr])]

/-- Instance: `Wx = (17, 39)` at 3 is 83; the claim 1000 is accepted and the true input evaluation passed on. -/
example : mle (denseOut 1 1 [1, 2, 3, 4] [5, 6] []) [(3 : ℚ)] = 83 ∧
    verifyMatVec (tape ℚ) 1 (fun p => (Mle.ofEvals 2 [1, 2, 3, 4]).bind fun w => w.evaluate p) ⟨[3], 1000⟩
      ⟨⟨[], [[999, 1, 0]]⟩, [14, mle [5, 6] [7]]⟩ [7] = some (⟨[7], mle [5, 6] [7]⟩, []) ∧
    ((proveMatVec 1 (tape ℚ) 1 1 [1, 2, 3, 4] ⟨[3], 83⟩ [5, 6] [7]).bind fun x =>
      verifyMatVec (tape ℚ) 1 (fun p => (Mle.ofEvals 2 [1, 2, 3, 4]).bind fun w => w.evaluate p) ⟨[3], 83⟩ x.1 [7])
      = some (⟨[7], mle [5, 6] [7]⟩, []) := by
  decide +kernel

end Props
