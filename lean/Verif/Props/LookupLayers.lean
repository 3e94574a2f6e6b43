import Verif.Lemmas.LookupLayers
import Verif.Lemmas.Tables
import Mathlib.Algebra.CharP.Basic

/-!
Properties C38 and C39: what accepted proofs of pooling, activation and requantisation say.
-/

namespace Props

open Model Spec Lemmas

variable {F : Type} [Field F] [DecidableEq F] {C : Type}

/-! ### C38: pooling -/

omit [DecidableEq F] in
/-- C38, the argument for one window of any size: if all differences between the claimed output and the inputs are values of the
range table, and their product is zero in the field, the output is the maximum of the inputs. Outputs and inputs may be any numbers
small compared with the characteristic. -/
theorem C38_window (p bl B : ℕ) [CharP F p] (env : TableType → ℤ → ℤ) (o : ℤ) (xs : List ℤ)
    (hB : 2 * B + 2 ^ bl < p) (ho : |o| ≤ B) (hx : ∀ x ∈ xs, |x| ≤ B)
    (hrange : ∀ x ∈ xs, ∃ d : ℤ, [d] ∈ tableRows env bl .range ∧ (o : F) - (x : F) = (toField p d : F))
    (hzero : (xs.map fun x : ℤ => (o : F) - (x : F)).prod = 0) : WindowMax o xs := by
  have hsmall : ∀ d : ℤ, |d| < p → (d : F) = 0 → d = 0 := by
    intro d hd h0
    have := (CharP.intCast_eq_zero_iff F p d).mp h0
    exact Int.eq_zero_of_abs_lt_dvd this hd
  have hle : ∀ x ∈ xs, x ≤ o := by
    intro x hxm
    obtain ⟨d, hd, he⟩ := hrange x hxm
    have hd' : 0 ≤ d ∧ d < 2 ^ bl := by
      simp only [tableRows, irange, List.map_map, List.mem_map, List.mem_range, Function.comp] at hd
      obtain ⟨i, hi, h1⟩ := hd
      simp only [List.cons.injEq, and_true] at h1
      subst h1
      have : ((2 : ℤ) ^ bl - 0).toNat = 2 ^ bl := by
        rw [sub_zero]; exact_mod_cast Int.toNat_natCast (2 ^ bl)
      rw [this] at hi
      constructor
      · omega
      · have : (i : ℤ) < ((2 ^ bl : ℕ) : ℤ) := by exact_mod_cast hi
        push_cast at this
        omega
    have hp : d.natAbs ≤ p := by
      have : 2 ^ bl ≤ p := by omega
      have : (2 : ℤ) ^ bl ≤ p := by exact_mod_cast this
      omega
    rw [toField_eq_cast p d hp] at he
    have h0 : ((o - x - d : ℤ) : F) = 0 := by push_cast; rw [he]; ring
    have h1 := hx x hxm
    have hB' : 2 * (B : ℤ) + 2 ^ bl < p := by exact_mod_cast hB
    have := hsmall (o - x - d) (by rw [abs_lt]; rw [abs_le] at ho h1; constructor <;> omega) h0
    omega
  refine ⟨?_, hle⟩
  rw [List.prod_eq_zero_iff, List.mem_map] at hzero
  obtain ⟨x, hxm, h0⟩ := hzero
  have h1 := hx x hxm
  have hB' : 2 * (B : ℤ) + 2 ^ bl < p := by exact_mod_cast hB
  have h2 : (0 : ℤ) ≤ 2 ^ bl := by positivity
  have := hsmall (o - x) (by rw [abs_lt]; rw [abs_le] at ho h1; constructor <;> omega) (by push_cast; exact h0)
  rwa [show o = x by omega]

/-- C38, the protocol, part. If the verifier accepts, and the evaluations in the proof are those of difference columns `d0 … d3` and an
output column `o` at the point of the sumcheck, then: for every input tensor whose window entries are the output minus these columns
the returned claim is true; and the values `[product of the columns at the lookup point, each column at the lookup point minus the
looked-up value, output column minus output claim]` are combined to zero by the batching challenge, unless the prover was lucky in
the sumcheck. By `C38_batch_error` this happens for few challenges unless all are zero. Missing: that the lookup points are
those of the verifier (C16), that the evaluations are bound to commitments (C39), and that a true returned claim determines the input,
which is false, see `C38_equal_challenges_false`. -/
theorem C38_pooling_partial (T : Transcript F) (hchar : ∀ k : ℕ, 0 < k → k ≤ 5 → (k : F) ≠ 0) (n : ℕ) (last : Claim F)
    (proof : PoolingProof F C) (constant csc : F) (ts ts1 ts' : T.State) (claim : Claim F) (wit : List (C × Claim F))
    (claims : List (Claim F)) (fr : List (F × F))
    (hl : verifyLogup T proof.lookup 4 constant csc ts = some (claims, fr, ts1))
    (h : verifyPooling T n last proof constant csc ts = some (claim, wit, ts')) :
    ∃ zp : List F, zp.length = n ∧ wit = proof.commitments.zip (proof.zerocheckEvals.map fun e => ⟨zp, e⟩) ∧
      ∀ (d0 d1 d2 d3 o : List F) (e0 e1 e2 e3 : F) (lp : List F),
        proof.zerocheckEvals = [mle d0 zp, mle d1 zp, mle d2 zp, mle d3 zp, mle o zp] →
        claims.map Claim.eval = [e0, e1, e2, e3] → (claims.map Claim.point).head? = some lp →
        (powerSum (T.labelled ts1 "batch_pooling").1 [mle (product4 n d0 d1 d2 d3) lp, mle d0 lp - e0, mle d1 lp - e1,
            mle d2 lp - e2, mle d3 lp - e3, mle o last.point - last.eval] = 0 ∨
          LuckyRound 5 n (poolingSum (T.labelled ts1 "batch_pooling").1 lp last.point d0 d1 d2 d3 o)
            proof.sumcheck.proofs zp) ∧
        ∀ X : List F, (∀ w < 2 ^ n,
            (windowEntries n proof.variableGap 0 0 X).getD w 0 = o.getD w 0 - d0.getD w 0 ∧
            (windowEntries n proof.variableGap 0 1 X).getD w 0 = o.getD w 0 - d1.getD w 0 ∧
            (windowEntries n proof.variableGap 1 0 X).getD w 0 = o.getD w 0 - d2.getD w 0 ∧
            (windowEntries n proof.variableGap 1 1 X).getD w 0 = o.getD w 0 - d3.getD w 0) →
          claim.eval = mle X claim.point := by
  unfold verifyPooling at h
  simp only [hl, Option.bind_eq_bind, Option.bind_some, Option.bind_eq_some_iff] at h
  rcases hb : T.labelled ts1 "batch_pooling" with ⟨chal, ts2⟩
  rw [hb] at h
  obtain ⟨⟨sub, ts3⟩, hv, c0, hc0, beta, hbeta, lastBeta, hlast, k, hk, out, hout, h⟩ := h
  dsimp only at h hbeta hlast
  by_cases hcond : poolExpected beta lastBeta chal (proof.zerocheckEvals.take k) out = sub.expected
  swap
  · rw [if_neg hcond] at h; simp at h
  rw [if_pos hcond] at h
  rcases hr : T.labelled ts3 "input_batching" with ⟨r, ts4⟩
  rw [hr] at h
  simp only [Option.bind_eq_some_iff, Option.some.injEq, Prod.mk.injEq] at h
  obtain ⟨pt, hpt, hclaim, hwit, -⟩ := h
  have hn : sub.point.length = n := by
    by_cases he : sub.expected = 0
    · exact (accepted_sound T 5 n hchar (fun _ => 0) _ _ _ _ _ hv he).1
    · exact (accepted_sound T 5 n hchar (fun _ => sub.expected) _ _ _ _ _ hv rfl).1
  refine ⟨sub.point, hn, hwit.symm, ?_⟩
  intro d0 d1 d2 d3 o e0 e1 e2 e3 lp hev hcl hlp
  have hk4 : k = 4 := by
    unfold checkedSub at hk
    rw [hev] at hk
    simpa using hk.symm
  subst hk4
  have hout' : out = mle o sub.point := by rw [hev] at hout; simpa using hout.symm
  have htake : proof.zerocheckEvals.take 4 = [mle d0 sub.point, mle d1 sub.point, mle d2 sub.point, mle d3 sub.point] := by
    rw [hev]; rfl
  have hc0p : c0.point = lp := by
    cases claims with
    | nil => simp at hc0
    | cons a l => simp at hc0 hlp; rw [← hc0, ← hlp]
  have hparts : ∀ (x y : List F) (b : F), eqXYEval x y = some b → x.length = y.length ∧ b = eqPoly x y := by
    intro x y b he
    by_cases hx : x ≠ [] ∧ x.length = y.length
    · rw [eqXYEval_eq x y hx.1 hx.2] at he
      exact ⟨hx.2, (Option.some.inj he).symm⟩
    · unfold eqXYEval at he; rw [if_neg hx] at he; simp at he
  obtain ⟨hlpl, rfl⟩ := hparts _ _ _ hbeta
  obtain ⟨hlastl, rfl⟩ := hparts _ _ _ hlast
  rw [hc0p] at hlpl hcond
  rw [htake, poolExpected_eq, hout'] at hcond
  simp only [List.prod_cons, List.prod_nil, powerSum, List.length_cons, List.length_nil] at hcond
  constructor
  · let g : List F → F := fun pt =>
      (eqPoly lp pt * (mle d0 pt * mle d1 pt * mle d2 pt * mle d3 pt)
        + (chal * (eqPoly lp pt * mle d0 pt) + (chal ^ 2 * (eqPoly lp pt * mle d1 pt)
        + (chal ^ 3 * (eqPoly lp pt * mle d2 pt) + (chal ^ 4 * (eqPoly lp pt * mle d3 pt)
        + chal ^ 5 * (eqPoly last.point pt * mle o pt))))))
    have hsum : cubeSum n g = mle (product4 n d0 d1 d2 d3) lp + (chal * mle d0 lp + (chal ^ 2 * mle d1 lp
        + (chal ^ 3 * mle d2 lp + (chal ^ 4 * mle d3 lp + chal ^ 5 * mle o last.point)))) := by
      have hL : lp.length = n := by rw [hlpl, hn]
      have hLa : last.point.length = n := by rw [hlastl, hn]
      simp only [g]
      rw [cubeSum_add, cubeSum_add, cubeSum_add, cubeSum_add, cubeSum_add, cubeSum_mul, cubeSum_mul, cubeSum_mul, cubeSum_mul,
        cubeSum_mul]
      have e : ∀ t : List F, cubeSum n (fun pt => eqPoly lp pt * mle t pt) = mle t lp := by
        intro t; rw [← hL]; exact cubeSum_eqPoly_mle lp t
      have e' : cubeSum n (fun pt => eqPoly last.point pt * mle o pt) = mle o last.point := by
        rw [← hLa]; exact cubeSum_eqPoly_mle _ _
      rw [e, e, e, e, e']
      congr 1
      rw [← hL]
      rw [cubeSum_eqPoly lp fun pt => mle d0 pt * mle d1 pt * mle d2 pt * mle d3 pt]
      unfold product4
      congr 1
      apply List.map_congr_left
      intro w hw
      have hw' := List.mem_range.mp hw
      rw [mle_bitsPoint _ _ w hw', mle_bitsPoint _ _ w hw', mle_bitsPoint _ _ w hw', mle_bitsPoint _ _ w hw']
    have hg : poolingSum chal lp last.point d0 d1 d2 d3 o = g := by
      funext pt; simp only [poolingSum, g]; ring
    rw [hg]
    rcases (accepted_sound T 5 n hchar g _ _ _ _ _ hv (by
        rw [← hcond]; simp only [g]; ring)).2 with hsc | hlucky
    · left
      rw [poolInitial_eq, hcl, hsum] at hsc
      simp only [List.cons_append, List.nil_append, powerSum] at hsc ⊢
      linear_combination -hsc
    · exact Or.inr hlucky
  · intro X hX
    have hpt' : proof.variableGap ≤ sub.point.length ∧
        pt = r :: sub.point.take proof.variableGap ++ r :: sub.point.drop proof.variableGap := by
      unfold poolPoint at hpt
      by_cases hg : proof.variableGap ≤ sub.point.length
      · rw [if_pos hg] at hpt; exact ⟨hg, (Option.some.inj hpt).symm⟩
      · rw [if_neg hg] at hpt; simp at hpt
    have hmle : ∀ (t a b : List F), (∀ w < 2 ^ n, t.getD w 0 = a.getD w 0 - b.getD w 0) →
        mle t sub.point = mle a sub.point - mle b sub.point := by
      intro t a b ht
      unfold mle
      rw [← Finset.sum_sub_distrib]
      apply Finset.sum_congr rfl
      intro w hw
      rw [hn] at hw
      rw [ht w (Finset.mem_range.mp hw)]
      ring
    rw [← hclaim]
    dsimp only
    rw [hpt'.2, mle_window]
    have hlen : (sub.point.take proof.variableGap).length + (sub.point.drop proof.variableGap).length = n := by
      rw [← List.length_append, List.take_append_drop, hn]
    rw [hlen, List.take_append_drop, List.length_take, min_eq_left hpt'.1,
      hmle _ o d0 fun w hw => (hX w hw).1, hmle _ o d1 fun w hw => (hX w hw).2.1, hmle _ o d2 fun w hw => (hX w hw).2.2.1,
      hmle _ o d3 fun w hw => (hX w hw).2.2.2, htake, hout']
    simp only [poolInputEval, poolWeights, List.zip_cons_cons, List.zip_nil_left, List.foldl_cons, List.foldl_nil]
    ring

open Classical in
/-- C38, C39, error of batching: a list of values that are not all zero is combined to zero by fewer challenges than it has entries. -/
theorem C38_batch_error [Fintype F] (l : List F) (h : ∃ x ∈ l, x ≠ 0) :
    (Finset.univ.filter fun a : F => powerSum a l = 0).card ≤ l.length - 1 := by
  convert count_powerSum l h


/-- C38 is false: both coordinates of the position in the window are the same challenge. Whatever proof is accepted, two inputs that
agree on two diagonal entries of each window and on the sum of the other two are not told apart by the returned claim. -/
theorem C38_equal_challenges_false (T : Transcript F) (hchar : ∀ k : ℕ, 0 < k → k ≤ 5 → (k : F) ≠ 0) (n : ℕ) (last : Claim F)
    (proof : PoolingProof F C) (constant csc : F) (ts ts' : T.State) (claim : Claim F) (wit : List (C × Claim F))
    (h : verifyPooling T n last proof constant csc ts = some (claim, wit, ts')) (X X' : List F)
    (h00 : windowEntries n proof.variableGap 0 0 X = windowEntries n proof.variableGap 0 0 X')
    (h11 : windowEntries n proof.variableGap 1 1 X = windowEntries n proof.variableGap 1 1 X')
    (hsum : ∀ w < 2 ^ n, (windowEntries n proof.variableGap 0 1 X).getD w 0 + (windowEntries n proof.variableGap 1 0 X).getD w 0
      = (windowEntries n proof.variableGap 0 1 X').getD w 0 + (windowEntries n proof.variableGap 1 0 X').getD w 0) :
    mle X claim.point = mle X' claim.point := by
  obtain ⟨zp, r, hn, hg, hpt⟩ := pooling_point T hchar n last proof constant csc ts ts' claim wit h
  have hs : ∀ t u t' u' : List F, (∀ w < 2 ^ n, t.getD w 0 + u.getD w 0 = t'.getD w 0 + u'.getD w 0) →
      mle t zp + mle u zp = mle t' zp + mle u' zp := by
    intro t u t' u' ht
    unfold mle
    rw [← Finset.sum_add_distrib, ← Finset.sum_add_distrib]
    apply Finset.sum_congr rfl
    intro w hw
    rw [hn] at hw
    linear_combination chi zp w * ht w (Finset.mem_range.mp hw)
  have hlen : (zp.take proof.variableGap).length + (zp.drop proof.variableGap).length = n := by
    rw [← List.length_append, List.take_append_drop, hn]
  rw [hpt, mle_window, mle_window, hlen, List.take_append_drop, List.length_take, min_eq_left (by omega), h00, h11]
  linear_combination (1 - r) * r * hs _ _ _ _ hsum

/-- C38 is false: the width of the rows is the prover's. Changing it in an accepted proof keeps it accepted, with the same opened
columns and the same claimed value, now about another arrangement of the input. -/
theorem C38_row_width_false (T : Transcript F) (hchar : ∀ k : ℕ, 0 < k → k ≤ 5 → (k : F) ≠ 0) (n : ℕ) (last : Claim F)
    (proof : PoolingProof F C) (constant csc : F) (ts ts' : T.State) (claim : Claim F) (wit : List (C × Claim F))
    (h : verifyPooling T n last proof constant csc ts = some (claim, wit, ts')) :
    ∃ (zp : List F) (r : F), zp.length = n ∧ ∀ gap ≤ n,
      verifyPooling T n last { proof with variableGap := gap } constant csc ts
        = some (⟨r :: zp.take gap ++ r :: zp.drop gap, claim.eval⟩, wit, ts') := by
  obtain ⟨claims, fr, ts1, sub, ts3, c0, beta, lastBeta, k, out, hl, hv, hc0, hbeta, hlast, hk, hout, hcond, pt, hpt, hclaim, hwit, hts⟩ :=
    pooling_parts T n last proof constant csc ts ts' claim wit h
  have hn := verify_point_length T 5 n hchar _ _ _ _ _ hv
  refine ⟨sub.point, (T.labelled ts3 "input_batching").1, hn, fun gap hgap => ?_⟩
  unfold verifyPooling
  simp [hl, hv, hc0, hbeta, hlast, hk, hout, hcond, poolPoint, hn, hgap, hwit, hts, hclaim]

/-! ### C39: commitments -/

/-- C39 is false for all three layers: commitments are paired with evaluations without comparing their numbers. An accepted proof
stays accepted, with the same claim for the input, when all its commitments are removed; then no column is opened. -/
theorem C39_commitments_dropped_false (T : Transcript F) (constant csc : F) (ts ts' : T.State) (claim : Claim F)
    (wit : List (C × Claim F)) :
    (∀ (n : ℕ) (scale : Option F) (last : Claim F) (proof : ActivationProof F C),
      verifyActivation T n scale last proof constant csc ts = some (claim, wit, ts') →
      verifyActivation T n scale last { proof with commits := ([] : List C) } constant csc ts = some (claim, [], ts')) ∧
    (∀ (p bl : ℕ) (r : Requant) (last : Claim F) (proof : RequantProof F C),
      verifyRequant T p bl r last proof constant csc ts = some (claim, wit, ts') →
      verifyRequant T p bl r last { proof with commitments := ([] : List C) } constant csc ts = some (claim, [], ts')) ∧
    (∀ (n : ℕ) (last : Claim F) (proof : PoolingProof F C),
      verifyPooling T n last proof constant csc ts = some (claim, wit, ts') →
      verifyPooling T n last { proof with commitments := ([] : List C) } constant csc ts = some (claim, [], ts')) := by
  refine ⟨?_, ?_, ?_⟩
  · intro n scale last proof h
    obtain ⟨claims, fr, ts1, c0, out, hl, hc0, hs, hclaim, -⟩ := activation_parts T n scale last proof constant csc ts ts' claim wit h
    unfold verifyActivation
    cases scale <;> simp_all
  · intro p bl r last proof h
    obtain ⟨clamp, fr, ts1, shift, fr', ts2, c0, s0, c1, sub, lb, cb, sb, got, e0, h1, h2, h3, h4, h5, h6, h7, h8, h9, h10, h11, h12, h13, -⟩ :=
      requant_parts T p bl r last proof constant csc ts ts' claim wit h
    simp only [List.cons_append, List.nil_append] at h6
    unfold verifyRequant
    simp [h1, h2, h3, h4, h5, h6, h7, h8, h9, h10, h11, h12, h13]
  · intro n last proof h
    obtain ⟨claims, fr, ts1, sub, ts3, c0, beta, lastBeta, k, out, hl, hv, hc0, hbeta, hlast, hk, hout, hcond, pt, hpt, hclaim, hwit, hts⟩ :=
      pooling_parts T n last proof constant csc ts ts' claim wit h
    unfold verifyPooling
    simp [hl, hv, hc0, hbeta, hlast, hk, hout, hcond, hpt, hts, hclaim]

/-- The forged evaluations for a claim `t`: any accepted proof with them appended claims `t` of the input, unless the batching challenge is the base of the chunks. -/
theorem requant_any_claim (T : Transcript F) (p bl : ℕ) (r : Requant) (last : Claim F) (proof : RequantProof F C)
    (constant csc : F) (ts ts1 ts2 ts' : T.State) (claim : Claim F) (wit : List (C × Claim F))
    (c1 c2 : List (Claim F) × List (F × F))
    (hl1 : verifyLogup T proof.clampingLookup 1 constant csc ts = some (c1.1, c1.2, ts1))
    (hl2 : verifyLogup T proof.shiftedLookup (r.shift / bl) constant 1 ts1 = some (c2.1, c2.2, ts2))
    (h : verifyRequant T p bl r last proof constant csc ts = some (claim, wit, ts'))
    (hchal : (T.labelled ts2 "requant_batching").1 ≠ ((2 ^ bl : ℕ) : F)) (hb : ((2 ^ bl : ℕ) : F) ≠ 0)
    (hfpm : (toField p r.fpm : F) ≠ 0) (t : F)
    (v : F) (hv : v = (t - claim.eval) * (toField p r.fpm : F) / (((2 ^ bl : ℕ) : F) ^ (proof.accumulationEvals.drop 2).length * (((2 ^ bl : ℕ) : F) - (T.labelled ts2 "requant_batching").1))) :
    verifyRequant T p bl r last { proof with
        accumulationEvals := proof.accumulationEvals ++ [-((T.labelled ts2 "requant_batching").1 * v), v]
        commitments := proof.commitments.take proof.accumulationEvals.length } constant csc ts = some (⟨claim.point, t⟩, wit, ts') := by
  obtain ⟨clamp, fr, ts1', shift, fr', ts2', d0, s0, d1, sub, lb, cb, sb, got, e0, h1, h2, h3, h4, h5, h6, h7, h8, h9, h10, h11, h12, h13, h14⟩ :=
    requant_parts T p bl r last proof constant csc ts ts' claim wit h
  rw [hl1, Option.some.injEq, Prod.mk.injEq, Prod.mk.injEq] at h1
  obtain ⟨rfl, rfl, rfl⟩ := h1
  rw [hl2, Option.some.injEq, Prod.mk.injEq, Prod.mk.injEq] at h2
  obtain ⟨rfl, rfl, rfl⟩ := h2
  simp only [List.cons_append, List.nil_append] at h6
  obtain ⟨chal, hc⟩ : ∃ chal, chal = (T.labelled ts2 "requant_batching").1 := ⟨_, rfl⟩
  rw [← hc] at h6 h10 hchal hv ⊢
  obtain ⟨B, hB⟩ : ∃ B : F, B = ((2 ^ bl : ℕ) : F) := ⟨_, rfl⟩
  rw [← hB] at hchal hb hv
  -- the two evaluations
  obtain ⟨e1, he1, hgot⟩ : ∃ e1, proof.accumulationEvals[1]? = some e1 ∧
      got = requantFold sb chal (proof.accumulationEvals.drop 2) (chal * chal * cb * e0 + (lb + chal * cb) * e1) (chal * chal * chal) := by
    unfold requantCalc at h10
    simp only [Option.bind_eq_bind, Option.bind_eq_some_iff, Option.some.injEq] at h10
    obtain ⟨e1, he1, e0', he0, hg⟩ := h10
    rw [h12, Option.some.injEq] at he0
    subst he0
    exact ⟨e1, he1, hg.symm⟩
  have hlen : 2 ≤ proof.accumulationEvals.length := by
    have := (List.getElem?_eq_some_iff.mp he1).1; omega
  have hsub : B - chal ≠ 0 := sub_ne_zero.mpr (Ne.symm hchal)
  have hBk : B ^ (proof.accumulationEvals.drop 2).length ≠ 0 := pow_ne_zero _ hb
  have hv : v * (B ^ (proof.accumulationEvals.drop 2).length * (B - chal)) = (t - claim.eval) * (toField p r.fpm : F) := by
    rw [hv]
    exact div_mul_cancel₀ _ (mul_ne_zero hBk hsub)
  have hd : (proof.accumulationEvals ++ [-(chal * v), v]).drop 2 = proof.accumulationEvals.drop 2 ++ [-(chal * v), v] :=
    List.drop_append_of_le_length hlen
  have hi0 : (proof.accumulationEvals ++ [-(chal * v), v])[0]? = some e0 := by
    rw [List.getElem?_append_left (by omega), h12]
  have hi1 : (proof.accumulationEvals ++ [-(chal * v), v])[1]? = some e1 := by
    rw [List.getElem?_append_left (by omega), he1]
  have hcalc : requantCalc lb cb sb chal (proof.accumulationEvals ++ [-(chal * v), v]) = some got := by
    unfold requantCalc
    rw [hi0, hi1, hd, hgot]
    simp only [Option.bind_eq_bind, Option.bind_some]
    rw [requantFold_eq, requantFold_eq, powerSum_append]
    congr 1
    simp only [powerSum]
    ring
  have hrec : r.recombine p bl e0 (proof.accumulationEvals.drop 2 ++ [-(chal * v), v]) = t := by
    have hce : claim.eval = r.recombine p bl e0 (proof.accumulationEvals.drop 2) := by rw [h13]
    rw [recombine_append, ← hB, ← hce]
    rw [show -(chal * v) + B * v = v * (B - chal) by ring,
      show B ^ (proof.accumulationEvals.drop 2).length * (v * (B - chal)) = v * (B ^ (proof.accumulationEvals.drop 2).length * (B - chal)) by ring,
      hv]
    field_simp
    ring
  have hz : (proof.commitments.take proof.accumulationEvals.length).zip
      ((proof.accumulationEvals ++ [-(chal * v), v]).map fun e => (⟨sub.point, e⟩ : Claim F)) = wit := by
    rw [h14, List.map_append, zip_take_append _ _ _ _ (by simp)]
  unfold verifyRequant
  simp only [hl1, hl2, h3, h4, h5, Option.bind_eq_bind, Option.bind_some, List.cons_append, List.nil_append, ← hc, h6, h7, h8, h9, hcalc, hi0,
    h11, if_true, hd, hrec, hz, h13]

/-- C39 is false for requantisation: the number of evaluations is not compared with the number of columns either. From any accepted
proof, unless the batching challenge is the base of the chunks, one gets for every value `t` a proof that is accepted, opens the same columns at the same values, and
claims `t` of the input. -/
theorem C39_requant_any_claim_false (T : Transcript F) (p bl : ℕ) (r : Requant) (last : Claim F) (proof : RequantProof F C)
    (constant csc : F) (ts ts1 ts2 ts' : T.State) (claim : Claim F) (wit : List (C × Claim F))
    (c1 c2 : List (Claim F) × List (F × F))
    (hl1 : verifyLogup T proof.clampingLookup 1 constant csc ts = some (c1.1, c1.2, ts1))
    (hl2 : verifyLogup T proof.shiftedLookup (r.shift / bl) constant 1 ts1 = some (c2.1, c2.2, ts2))
    (h : verifyRequant T p bl r last proof constant csc ts = some (claim, wit, ts'))
    (hchal : (T.labelled ts2 "requant_batching").1 ≠ ((2 ^ bl : ℕ) : F)) (hb : ((2 ^ bl : ℕ) : F) ≠ 0)
    (hfpm : (toField p r.fpm : F) ≠ 0) (t : F) :
    ∃ u v : F, verifyRequant T p bl r last { proof with
        accumulationEvals := proof.accumulationEvals ++ [u, v]
        commitments := proof.commitments.take proof.accumulationEvals.length } constant csc ts = some (⟨claim.point, t⟩, wit, ts') := by
  exact ⟨_, _, requant_any_claim T p bl r last proof constant csc ts ts1 ts2 ts' claim wit c1 c2 hl1 hl2 h hchal hb hfpm t _ rfl⟩

/-- C39 for activations, part: with two commitments both columns of the lookup are opened, the first at the value claimed by the lookup,
the second at a value that, if true of a column, makes the output claim and the looked-up outputs true, unless the prover was
lucky (see C40 for the bound). Missing: that there are two commitments is not checked, see `C39_commitments_dropped_false`; that
the point of the accumulation is the verifier's, see `C40_prover_point_false`. -/
theorem C39_activation_partial (T : Transcript F) (n : ℕ) (scale : Option F) (last : Claim F) (proof : ActivationProof F C)
    (constant csc : F) (ts ts' : T.State) (claim : Claim F) (wit : List (C × Claim F)) (cin cout : C)
    (hcom : proof.commits = [cin, cout])
    (h : verifyActivation T n scale last proof constant csc ts = some (claim, wit, ts')) :
    ∃ claims fr ts1 inClaim outClaim, verifyLogup T proof.lookup 1 constant csc ts = some (inClaim :: claims, fr, ts1) ∧
      wit = [(cin, inClaim), (cout, outClaim)] ∧
      claim = ⟨inClaim.point, inClaim.eval * (scale.getD 1)⁻¹⟩ ∧
      verifySamePoly T n (last :: claims) proof.ioAccumulation ts1 = some (outClaim, ts') := by
  obtain ⟨claims, fr, ts1, c0, out, hl, hc0, hs, hclaim, hwit⟩ := activation_parts T n scale last proof constant csc ts ts' claim wit h
  cases claims with
  | nil => simp at hc0
  | cons a l =>
    simp at hc0
    subst hc0
    exact ⟨l, fr, ts1, a, out, hl, by rw [hwit, hcom]; rfl, hclaim, hs⟩

/-- C39 for requantisation, part: if there are as many commitments as evaluations, every evaluation is opened. If they are the values
of columns `cin` (before clamping), `cout` (after) and chunks, then the input is claimed to be the recombination of the first and the last, and the
differences between the looked-up or claimed values and the columns are combined to zero by the batching challenge, unless the
prover was lucky in the sumcheck (`C38_batch_error` bounds the former). Missing: neither number is checked, see
`C39_commitments_dropped_false` and `C39_requant_any_claim_false`; the points of the lookups (C16). -/
theorem C39_requant_partial (T : Transcript F) (hchar : ∀ k : ℕ, 0 < k → k ≤ 2 → (k : F) ≠ 0) (p bl : ℕ) (r : Requant)
    (last : Claim F) (proof : RequantProof F C)
    (constant csc : F) (ts ts1 ts2 ts' : T.State) (claim : Claim F) (wit : List (C × Claim F)) (fr fr' : List (F × F))
    (clampIn clampOut : Claim F) (rest : List (Claim F)) (chunk : Claim F) (chunks : List (Claim F))
    (hl1 : verifyLogup T proof.clampingLookup 1 constant csc ts = some (clampIn :: clampOut :: rest, fr, ts1))
    (hl2 : verifyLogup T proof.shiftedLookup (r.shift / bl) constant 1 ts1 = some (chunk :: chunks, fr', ts2))
    (hcom : proof.commitments.length = proof.accumulationEvals.length)
    (h : verifyRequant T p bl r last proof constant csc ts = some (claim, wit, ts')) :
    wit.map Prod.fst = proof.commitments ∧ wit.map Prod.snd = proof.accumulationEvals.map (fun e => ⟨claim.point, e⟩) ∧
    ∀ (cin cout : List F) (cols : List (List F)), cols.length = (chunk :: chunks).length →
      proof.accumulationEvals = (cin :: cout :: cols).map (fun t => mle t claim.point) →
      claim.eval = r.recombine p bl (mle cin claim.point) (cols.map fun t => mle t claim.point) ∧
      (powerSum (T.labelled ts2 "requant_batching").1
          ((last.eval - mle cout last.point) :: (clampOut.eval - mle cout clampIn.point) :: (clampIn.eval - mle cin clampIn.point) ::
            List.zipWith (· - ·) ((chunk :: chunks).map Claim.eval) (cols.map fun t => mle t chunk.point)) = 0 ∨
        LuckyRound 2 clampIn.point.length
          (requantSum (T.labelled ts2 "requant_batching").1 last.point clampIn.point chunk.point cout cin cols)
          proof.ioAccumulation.proofs claim.point) := by
  obtain ⟨clamp, fr, ts1', shift, fr', ts2', d0, s0, d1, sub, lb, cb, sb, got, e0, h1, h2, h3, h4, h5, h6, h7, h8, h9, h10, h11, h12, h13, h14⟩ :=
    requant_parts T p bl r last proof constant csc ts ts' claim wit h
  rw [hl1, Option.some.injEq, Prod.mk.injEq, Prod.mk.injEq] at h1
  obtain ⟨rfl, rfl, rfl⟩ := h1
  rw [hl2, Option.some.injEq, Prod.mk.injEq, Prod.mk.injEq] at h2
  obtain ⟨rfl, rfl, rfl⟩ := h2
  simp only [List.getElem?_cons_zero, List.getElem?_cons_succ, Option.some.injEq] at h3 h4 h5
  subst h3 h4 h5
  have hpt : claim.point = sub.point := by rw [h13]
  refine ⟨?_, ?_, ?_⟩
  · rw [h14, List.map_fst_zip]
    simp [hcom]
  · rw [h14, List.map_snd_zip, hpt]
    simp [hcom]
  intro cin cout cols hcols hev
  rw [hpt] at hev ⊢
  have he0 : e0 = mle cin sub.point := by rw [hev] at h12; simpa using h12.symm
  have hdrop : proof.accumulationEvals.drop 2 = cols.map fun t => mle t sub.point := by rw [hev]; simp
  refine ⟨by rw [h13, he0, hdrop], ?_⟩
  obtain ⟨hlq, rfl⟩ := eqXYEval_parts _ _ _ h7
  obtain ⟨hlp, rfl⟩ := eqXYEval_parts _ _ _ h8
  obtain ⟨hls, rfl⟩ := eqXYEval_parts _ _ _ h9
  obtain ⟨chal, hc⟩ : ∃ chal, chal = (T.labelled ts2 "requant_batching").1 := ⟨_, rfl⟩
  rw [← hc] at h6 h10 ⊢
  have hexp : sub.expected = requantSum chal last.point clampIn.point chunk.point cout cin cols sub.point := by
    rw [← h11]
    unfold requantCalc at h10
    rw [hdrop, hev] at h10
    simp only [List.map_cons, List.getElem?_cons_zero, List.getElem?_cons_succ, Option.bind_eq_bind, Option.bind_some,
      Option.some.injEq] at h10
    rw [← h10, requantFold_eq, requantSum, powerSum_mul]
    ring
  have hsum : cubeSum clampIn.point.length (requantSum chal last.point clampIn.point chunk.point cout cin cols)
      = mle cout last.point + chal * mle cout clampIn.point + chal ^ 2 * mle cin clampIn.point
        + chal ^ 3 * powerSum chal (cols.map fun t => mle t chunk.point) := by
    unfold requantSum
    rw [cubeSum_add, cubeSum_add, cubeSum_add, cubeSum_mul, cubeSum_mul, cubeSum_mul, cubeSum_powerSum]
    rw [cubeSum_eqPoly_mle, cubeSum_eqPoly_mle, show clampIn.point.length = last.point.length by rw [hlq, hlp], cubeSum_eqPoly_mle,
      show last.point.length = chunk.point.length by rw [hlq, hls]]
    simp only [cubeSum_eqPoly_mle]
  rcases (accepted_sound T 2 _ hchar _ _ _ _ _ _ h6 hexp).2 with hsc | hlucky
  · left
    rw [alphaFold_eq, hsum] at hsc
    simp only [List.cons_append, List.nil_append, powerSum] at hsc ⊢
    rw [powerSum_zip_sub _ _ _ (by simpa using hcols.symm)]
    linear_combination hsc
  · exact Or.inr hlucky

/-! ### Cases that meet the hypotheses -/

/-- A pooling proof for four windows. The input is `exInput`, the output column `[5, 7, 2, 9]`. -/
def exPooling : PoolingProof ℚ String :=
  ⟨⟨[-2, 7], [[-2268, 1262, 28336, 292632, 1413908, 4642642], [-3584, -107264, -3098176, -17217728, -56126336, -138903424]]⟩,
    ⟨[⟨[7], [[-1645, 4160, 14655, 33584]]⟩], [[32, 1, 66, 38, 32, 3, -3, 15]],
      [⟨[7, -1], -33⟩, ⟨[7, -1], 7⟩, ⟨[7, -1], -29⟩, ⟨[7, -1], 30⟩],
      [[-12, -15, 32, 56], [-6, -20, 9, 96], [-7, -11, 12, 24], [-12, -12, 32, 27]], false⟩,
    ["d0", "d1", "d2", "d3", "o"], [-91, -66, -49, 3, -90], 1⟩

/-- Rows of four entries; the first window is `0 10 / 0 0`. -/
def exInput : List ℚ := [0, 10, 3, 7, 0, 0, 2, 1, 1, 1, 4, 4, 2, 1, 0, 9]

/-- The same with first window `0 5 / 5 0`. -/
def exInput' : List ℚ := [0, 5, 3, 7, 5, 0, 2, 1, 1, 1, 4, 4, 2, 1, 0, 9]

example : verifyPooling (tape ℚ) 2 ⟨[4, -3], -38⟩ exPooling 3 1 [2, 3, 2, 7, -1, 2, 5, 2, -2, 7, 3]
    = some (⟨[3, -2, 3, 7], mle exInput' [3, -2, 3, 7]⟩,
        [("d0", ⟨[-2, 7], -91⟩), ("d1", ⟨[-2, 7], -66⟩), ("d2", ⟨[-2, 7], -49⟩), ("d3", ⟨[-2, 7], 3⟩), ("o", ⟨[-2, 7], -90⟩)], []) := by
  decide +kernel

/-- The accepted proof claims the maximum 5 for the window `0 10 / 0 0` of `exInput`, with all columns in the range table, all
opened values and looked-up values true, and a true returned claim. -/
example : mle exInput [3, -2, 3, 7] = mle exInput' [3, -2, 3, 7] ∧ (-38 : ℚ) = mle [5, 7, 2, 9] [4, -3] ∧
    exPooling.zerocheckEvals = [[5, 4, 1, 5], [0, 5, 0, 9], [0, 0, 1, 5], [5, 6, 1, 0], [5, 7, 2, 9]].map (fun t => mle t [-2, 7]) ∧
    exPooling.lookup.outputClaims.map Claim.eval = [[5, 4, 1, 5], [0, 5, 0, 9], [0, 0, 1, 5], [5, 6, 1, 0]].map (fun t => mle t [7, -1]) ∧
    product4 2 [5, 4, 1, 5] [0, 5, 0, 9] [0, 0, 1, 5] [5, 6, 1, (0 : ℚ)] = [0, 0, 0, 0] ∧
    windowEntries 2 1 0 0 exInput = windowEntries 2 1 0 0 exInput' ∧ windowEntries 2 1 1 1 exInput = windowEntries 2 1 1 1 exInput' ∧
    windowEntries 2 1 1 0 exInput = [10, 7, 1, 4] ∧ windowEntries 2 1 1 0 exInput' = [5, 7, 1, 4] ∧
    ¬ WindowMax 5 [0, 0, 10, 0] := by
  refine ⟨?_, ?_, ?_, ?_, ?_, ?_, ?_, ?_, ?_, ?_⟩
  on_goal 10 => simp [WindowMax]
  all_goals decide +kernel

/-- Goldilocks, eight-bit quantisation. -/
example : 2 * 127 + 2 ^ 8 < 2 ^ 64 - 2 ^ 32 + 1 ∧ WindowMax 12 [-127, 12, 3, 12] := by
  refine ⟨by norm_num, by simp [WindowMax]⟩

/-- A requantisation proof for four values with two bits and a shift of four. -/
def exRequant : RequantProof ℚ String :=
  ⟨⟨[-2, 7], [[-39, 206, 907], [9012, -8173, -19718]]⟩, [47, 25, -10, 13],
    ⟨[⟨[7], [[94, 94, 1100, 3400]]⟩], [[16, 51]], [⟨[7, -1], 28⟩, ⟨[7, -1], 11⟩], [[-4, -13, -45, 30]], false⟩,
    ⟨[⟨[4], [[202, -237, -648, -1391]]⟩], [[11, 12, -2, -3]], [⟨[4, 6], 3⟩, ⟨[4, 6], 0⟩], [[-7, -11, 12, 30], [-11, -7, 30, 12]], false⟩,
    ["in", "out", "s0", "s1"]⟩

example : (verifyRequant (tape ℚ) 0 2 ⟨1, 3, 3, 8⟩ ⟨[4, -3], 9⟩ exRequant 3 5 [2, 3, 2, 7, -1, 2, 5, 3, 2, -1, 4, 6, 3, 2, 2, -2, 7])
    = some (⟨[-2, 7], (16 * 47 + (-10) + 4 * 13 - 8) / 3⟩,
        [("in", ⟨[-2, 7], 47⟩), ("out", ⟨[-2, 7], 25⟩), ("s0", ⟨[-2, 7], -10⟩), ("s1", ⟨[-2, 7], 13⟩)], []) ∧
    exRequant.accumulationEvals = [[-3, 0, 1, 2], [-1, 0, 1, 1], [1, 3, 0, 2], [2, 0, 3, 1]].map (fun t => mle t [-2, 7]) := by
  refine ⟨?_, ?_⟩ <;> decide +kernel

/-- The challenge is 2, the base of the chunks is 4. -/
example : ∃ ts1 ts2 c1 c2, verifyLogup (tape ℚ) exRequant.clampingLookup 1 3 5 [2, 3, 2, 7, -1, 2, 5, 3, 2, -1, 4, 6, 3, 2, 2, -2, 7]
      = some (c1, [(-4 * 30 + -13 * -45, -45 * 30)], ts1) ∧
    verifyLogup (tape ℚ) exRequant.shiftedLookup ((⟨1, 3, 3, 8⟩ : Requant).shift / 2) 3 1 ts1
      = some (c2, [(-7 * 30 + -11 * 12, 12 * 30), (-11 * 12 + -7 * 30, 30 * 12)], ts2) ∧
    ((tape ℚ).labelled ts2 "requant_batching").1 ≠ ((2 ^ 2 : ℕ) : ℚ) ∧ (toField 0 3 : ℚ) ≠ 0 :=
  ⟨[3, 2, -1, 4, 6, 3, 2, 2, -2, 7], [2, -2, 7], exRequant.clampingLookup.outputClaims, exRequant.shiftedLookup.outputClaims,
    by decide +kernel, by decide +kernel, by decide +kernel, by decide +kernel⟩

/-- An activation proof for the values `-2 1 0 3`. -/
def exActivation : ActivationProof ℚ String :=
  ⟨⟨⟨[-2, 7], [[0, -61, -340], [656, -1188, -7240]]⟩, [3354, -30]⟩,
    ⟨[⟨[7], [[-2, 696, 6350, 22144]]⟩], [[129, 57]], [⟨[7, -1], 17⟩, ⟨[7, -1], -7⟩], [[-4, -30, 3, 189]], false⟩, ["in", "out"]⟩

example : verifyActivation (tape ℚ) 2 none ⟨[4, -3], -20⟩ exActivation 3 5 [2, 3, 2, 7, -1, 2, 5, 2, 3, -2, 7]
    = some (⟨[7, -1], 17⟩, [("in", ⟨[7, -1], 17⟩), ("out", ⟨[-2, 7], -30⟩)], []) ∧
    (17 : ℚ) = mle [-2, 1, 0, 3] [7, -1] ∧ (-30 : ℚ) = mle [0, 1, 0, 3] [-2, 7] := by
  refine ⟨?_, ?_, ?_⟩ <;> decide +kernel

end Props
