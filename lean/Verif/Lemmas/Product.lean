import Verif.Props.Mle
import Verif.Props.Sumcheck
import Verif.Lemmas.Layers

/-!
Consequences of C10 and C11 for the sumcheck of a product of two tables, as the linear layers use it.
-/

namespace Lemmas
open Spec Model Props Polynomial

variable {F : Type} [Field F] [DecidableEq F]

/-- The honest product sumcheck. -/
theorem proveProduct_spec (T : Transcript F) (threads : ℕ) (ht : 0 < threads) (n : ℕ)
    (hchar : ∀ k : ℕ, 0 < k → k ≤ 2 → (k : F) ≠ 0) (f g : List F) (hf : f.length = 2 ^ n) (hg : g.length = 2 ^ n)
    (ts : T.State) :
    ∃ proof ts', proveProduct threads T ⟨n, f⟩ ⟨n, g⟩ ts
        = some (proof, [mle f proof.point, mle g proof.point], ts') ∧ proof.point.length = n ∧
      ((∀ r ∈ proof.point, ∀ k : ℕ, k ≤ 2 → r ≠ (k : F)) →
        verify T (cubeSum n fun pt => mle f pt * mle g pt) proof 2 n ts
          = some (⟨proof.point, mle f proof.point * mle g proof.point⟩, ts')) := by
  have hvp : (VirtualPoly.new n : VirtualPoly F).addMleList
      (fun a => if a = 0 then (⟨n, f⟩ : Mle F) else ⟨n, g⟩) [0, 1] 1
      = some ⟨2, n, [(1, [0, 1])], [0, 1], [(1, 1), (0, 0)]⟩ := by
    simp [VirtualPoly.addMleList, VirtualPoly.new, VirtualPoly.internList, VirtualPoly.intern]
  have hunf : proveProduct threads T ⟨n, f⟩ ⟨n, g⟩ ts
      = (prove threads (.parallel threads) T 2 n [(1, [0, 1])] [⟨n, f⟩, ⟨n, g⟩] ts).bind fun x =>
          (finalEvaluations x.2.1).bind fun evals => some (x.1, evals, x.2.2) := by
    unfold proveProduct
    simp only [Option.bind_eq_bind]
    rw [hvp]
    rfl
  rcases Nat.eq_zero_or_pos n with hn | hn
  · subst hn
    obtain ⟨a, rfl⟩ := List.length_eq_one_iff.mp hf
    obtain ⟨b, rfl⟩ := List.length_eq_one_iff.mp hg
    refine ⟨⟨[], []⟩, ts, ?_, rfl, ?_⟩
    · rw [hunf]
      simp [prove, finalEvaluations, mle_nil]
    · intro _
      simp [verify, cubeSum_zero, mle_nil]
  · obtain ⟨proof, st, ts', h1, h2, -, h4, h5⟩ := C10_honest_accepted T threads ht (.parallel threads) ht 2 n hn
      (by omega) hchar [(1, [0, 1])] (by simp) [⟨n, f⟩, ⟨n, g⟩]
      (by intro m hm; simp at hm; rcases hm with rfl | rfl <;> simp [hf, hg])
      (by intro _ m hm; simp at hm; rcases hm with rfl | rfl <;> exact hn)
      (by
        intro p hp
        simp at hp
        subst hp
        refine ⟨by simp, by simp, by simp, n, fun i hi => ?_⟩
        simp at hi
        rcases hi with rfl | rfl
        · exact ⟨_, rfl, rfl⟩
        · exact ⟨_, rfl, rfl⟩) ts
    have hfin : finalEvaluations st = some [mle f proof.point, mle g proof.point] := by
      rw [h4]
      simp only [List.map_cons, List.map_nil]
      rw [List.take_of_length_le (by omega)]
    refine ⟨proof, ts', ?_, h2, ?_⟩
    · rw [hunf, h1]
      simp only [Option.bind_some, hfin]
    · intro hch
      have h := h5 hch
      have e : ∀ pt : List F, pt.length = n → sumOfProducts [(1, [(n, f), (n, g)])] pt = mle f pt * mle g pt := by
        intro pt hpt
        simp [sumOfProducts, List.take_of_length_le (le_of_eq hpt)]
      simp only [List.map_cons, List.map_nil] at h
      have e' : cubeSum n (sumOfProducts [((1 : F), [(n, f), (n, g)])]) = cubeSum n fun pt => mle f pt * mle g pt :=
        cubeSum_congr n _ _ e
      have h' : verify T (cubeSum n (sumOfProducts [((1 : F), [(n, f), (n, g)])])) proof 2 n ts
          = some (⟨proof.point, sumOfProducts [((1 : F), [(n, f), (n, g)])] proof.point⟩, ts') := h
      rw [e', e proof.point h2] at h'
      exact h'

/-- An accepted sumcheck whose final value is right. -/
theorem accepted_sound (T : Transcript F) (D n : ℕ) (hchar : ∀ k : ℕ, 0 < k → k ≤ D → (k : F) ≠ 0)
    (g : List F → F) (claimed : F) (proof : IOPProof F) (ts ts' : T.State) (sc : SubClaim F)
    (h : verify T claimed proof D n ts = some (sc, ts')) (hexp : sc.expected = g sc.point) :
    sc.point.length = n ∧ (claimed = cubeSum n g ∨ LuckyRound D n g proof.proofs sc.point) := by
  by_cases hc : claimed = cubeSum n g
  · refine ⟨?_, Or.inl hc⟩
    by_cases hc' : claimed = cubeSum n fun _ => 0
    · exact (C11_sound T D n hchar (fun l => if l = bitsPoint n 0 then 1 else 0) claimed proof ts ts' sc h (by
        rw [hc']
        unfold cubeSum
        rw [Finset.sum_const_zero]
        intro h0
        have : (∑ b ∈ Finset.range (2 ^ n), if (bitsPoint n b : List F) = bitsPoint n 0 then (1 : F) else 0) = 1 := by
          rw [Finset.sum_eq_single 0]
          · simp
          · intro b hb hb0
            rw [if_neg]
            intro he
            have h1 := chi_bitsPoint (F := F) n b b (Finset.mem_range.mp hb) (Finset.mem_range.mp hb)
            rw [he, chi_bitsPoint n 0 b (by positivity) (Finset.mem_range.mp hb)] at h1
            simp [hb0] at h1
          · simp
        rw [this] at h0
        exact zero_ne_one h0)).1
    · exact (C11_sound T D n hchar (fun _ => 0) claimed proof ts ts' sc h hc').1
  · obtain ⟨h1, h2⟩ := C11_sound T D n hchar g claimed proof ts ts' sc h hc
    refine ⟨h1, Or.inr ?_⟩
    rcases h2 with h2 | h2
    · exact absurd hexp h2
    · exact h2

/-- The same for a product of two tables. -/
theorem product_sound (T : Transcript F) (n : ℕ) (hchar : ∀ k : ℕ, 0 < k → k ≤ 2 → (k : F) ≠ 0)
    (g : List F → F) (claimed : F) (proof : IOPProof F) (ts ts' : T.State) (sc : SubClaim F)
    (h : verify T claimed proof 2 n ts = some (sc, ts')) (hexp : sc.expected = g sc.point) :
    sc.point.length = n ∧ (claimed = cubeSum n g ∨ LuckyRound 2 n g proof.proofs sc.point) :=
  accepted_sound T 2 n hchar g claimed proof ts ts' sc h hexp

theorem mle_replicate (n : ℕ) (c : F) (r : List F) (hr : r.length = n) : mle (List.replicate (2 ^ n) c) r = c := by
  unfold mle
  rw [hr, Finset.sum_congr rfl (g := fun b => c * chi r b), ← Finset.mul_sum]
  · rw [← hr, sum_chi, mul_one]
  · intro b hb
    rw [List.getD_eq_getElem _ _ (by simpa using hb), List.getElem_replicate]

/-- Against every transcript there are messages for every claimed sum, true or false, that pass all rounds
(challenges outside 0, 1, 2), and reduce it to `s/2^n`. -/
theorem any_sum (T : Transcript F) (n : ℕ) (hchar : ∀ k : ℕ, 0 < k → k ≤ 2 → (k : F) ≠ 0) (s : F) (ts : T.State) :
    ∃ (proof : IOPProof F) (ts' : T.State), proof.point.length = n ∧
      ((∀ r ∈ proof.point, ∀ k : ℕ, k ≤ 2 → r ≠ (k : F)) →
        verify T s proof 2 n ts = some (⟨proof.point, s / 2 ^ n⟩, ts')) := by
  have h2 : (2 : F) ≠ 0 := by have := hchar 2 (by omega) le_rfl; exact_mod_cast this
  obtain ⟨proof, ts', -, hl, hv⟩ := proveProduct_spec T 1 one_pos n hchar (List.replicate (2 ^ n) (s / 2 ^ n))
    (List.replicate (2 ^ n) 1) (by simp) (by simp) ts
  refine ⟨proof, ts', hl, fun hch => ?_⟩
  have h := hv hch
  have hs : (cubeSum n fun pt => mle (List.replicate (2 ^ n) (s / 2 ^ n)) pt * mle (List.replicate (2 ^ n) 1) pt) = s := by
    unfold cubeSum
    rw [Finset.sum_congr rfl (g := fun _ => s / 2 ^ n)]
    · rw [Finset.sum_const, Finset.card_range, nsmul_eq_mul]
      push_cast
      field_simp
    · intro b _
      beta_reduce
      rw [mle_replicate n _ _ (bitsPoint_length n b), mle_replicate n _ _ (bitsPoint_length n b), mul_one]
  rw [hs, mle_replicate n _ _ hl, mle_replicate n _ _ hl, mul_one] at h
  exact h

/-- What an accepting run of the matrix multiplication verifier has checked. -/
theorem verifyMatMul_inv (T : Transcript F) (ctx : MatMulCtx) (last : Claim F) (proof : MatMulProof F)
    (ts ts' : T.State) (out : List (Claim F)) (common : List (String × Claim F))
    (h : verifyMatMul T ctx last proof ts = some (out, common, ts')) :
    ∃ (sub : SubClaim F) (be e0 e1 : F),
      (ctx.withBias = true → proof.biasEval = some be) ∧ (ctx.withBias = false → be = 0) ∧
      verify T (last.eval - be) proof.sumcheck 2 ctx.numVars ts = some (sub, ts') ∧
      proof.individualClaims[0]? = some e0 ∧ proof.individualClaims[1]? = some e1 ∧
      individualToVirtual proof.individualClaims = sub.expected ∧ (ctx.leftConst && ctx.rightConst) = false ∧
      (out, common) = routeClaims ctx.leftConst ctx.rightConst ⟨sub.point ++ last.point.drop ctx.colVars, e0⟩
        ⟨if ctx.transposed then sub.point ++ last.point.take ctx.colVars else last.point.take ctx.colVars ++ sub.point,
          e1⟩
        (if ctx.withBias then [("MatMulBias", ⟨last.point.take ctx.colVars, be⟩)] else []) := by
  obtain ⟨n, rv, cv, lc, rc, tr, wb⟩ := ctx
  unfold verifyMatMul at h
  rcases hsp : splitClaim last cv with _ | ⟨pl, pr⟩
  · simp [hsp] at h
  have hcv : cv ≤ last.point.length ∧ pl = last.point.drop cv ∧ pr = last.point.take cv := by
    unfold splitClaim at hsp
    split at hsp
    · simp only [Option.some.injEq, Prod.mk.injEq] at hsp
      exact ⟨by assumption, hsp.1.symm, hsp.2.symm⟩
    · simp at hsp
  obtain ⟨hcv, rfl, rfl⟩ := hcv
  rw [hsp] at h
  simp only [Option.bind_eq_bind, Option.bind_some] at h
  have hpb : ∃ be, (wb = true → proof.biasEval = some be) ∧ (wb = false → be = 0) ∧
      peelBias wb last (last.point.take cv) proof.biasEval = some (⟨last.point, last.eval - be⟩,
        if wb then [("MatMulBias", ⟨last.point.take cv, be⟩)] else []) := by
    cases wb
    · exact ⟨0, by simp, by simp, by simp [peelBias]⟩
    · rcases hbe : proof.biasEval with _ | be
      · simp [peelBias, hbe] at h
      · exact ⟨be, by simp, by simp, by simp [peelBias]⟩
  obtain ⟨be, hb1, hb2, hpb⟩ := hpb
  simp only [hpb, Option.bind_some, Option.bind_eq_some_iff] at h
  obtain ⟨⟨sub, ts1⟩, hv, h⟩ := h
  split at h
  · simp at h
  rename_i hc
  simp only [fullPoints, splitClaim, hcv, if_true, Option.bind_eq_bind, Option.bind_some,
      Option.bind_eq_some_iff] at h
  obtain ⟨e0, he0, e1, he1, h⟩ := h
  split at h
  · rename_i hp
    simp only [Option.some.injEq, Prod.mk.injEq] at h
    obtain ⟨h1, h2, rfl⟩ := h
    refine ⟨sub, be, e0, e1, hb1, hb2, hv, he0, he1, hp, by simpa using hc, ?_⟩
    simp only
    rw [← h1, ← h2]
  · simp at h

/-- If the passed-on claims of a matrix multiplication are true, both operand values and the bias value are. -/
theorem routeClaims_true (ctx : MatMulCtx) (L R : List F) (l r : Claim F) (common0 : List (String × Claim F))
    (hc : (ctx.leftConst && ctx.rightConst) = false)
    (ho : List.Forall₂ (fun c t => c.eval = mle t c.point) (routeClaims ctx.leftConst ctx.rightConst l r common0).1
      ((if ctx.leftConst then [] else [L]) ++ (if ctx.rightConst then [] else [R])))
    (hw : ∀ c, ("MatMulWeight", c) ∈ (routeClaims ctx.leftConst ctx.rightConst l r common0).2 →
      c.eval = mle (if ctx.leftConst then L else R) c.point)
    : l.eval = mle L l.point ∧ r.eval = mle R r.point := by
  obtain ⟨n, rv, cv, lc, rc, tr, wb⟩ := ctx
  cases lc <;> cases rc <;> simp_all [routeClaims]

end Lemmas
