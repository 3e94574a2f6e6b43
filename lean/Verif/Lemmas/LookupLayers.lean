import Verif.Model.LookupLayers
import Verif.Spec.LookupLayers
import Verif.Lemmas.LogUpProof
import Verif.Lemmas.SamePoly
import Verif.Lemmas.Quant
import Verif.Lemmas.TensorOps

/-!
Helper lemmas for the layers proved by lookups.
-/

namespace Lemmas

open Model Spec

section
variable {F : Type} [Field F]

theorem powerSum_append (a : F) (l m : List F) : powerSum a (l ++ m) = powerSum a l + a ^ l.length * powerSum a m := by
  induction l with
  | nil => simp [powerSum]
  | cons x l ih => simp only [List.cons_append, powerSum, ih, List.length_cons, pow_succ]; ring

theorem poolInitial_eq (chal : F) (evals : List F) (last : F) :
    poolInitial chal evals last = chal * powerSum chal (evals ++ [last]) := by
  have key : ∀ (l : List F) (a c : F), l.foldl (fun (s : F × F) e => (s.1 + e * s.2, s.2 * chal)) (a, c)
      = (a + c * powerSum chal l, c * chal ^ l.length) := by
    intro l
    induction l with
    | nil => intro a c; simp [powerSum]
    | cons x l ih => intro a c; rw [List.foldl_cons, ih, powerSum, List.length_cons, pow_succ]; ext <;> simp <;> ring
  unfold poolInitial
  rw [key, powerSum_append]
  simp only [powerSum]
  ring

theorem poolExpected_eq (beta lastBeta chal : F) (diffs : List F) (output : F) :
    poolExpected beta lastBeta chal diffs output
      = beta * diffs.prod + beta * (chal * powerSum chal diffs) + chal ^ (diffs.length + 1) * (lastBeta * output) := by
  have key : ∀ (l : List F) (p s c : F),
      l.foldl (fun (s : F × F × F) e => (s.1 * e, s.2.1 + s.2.2 * e, s.2.2 * chal)) (p, s, c)
      = (p * l.prod, s + c * powerSum chal l, c * chal ^ l.length) := by
    intro l
    induction l with
    | nil => intro p s c; simp [powerSum]
    | cons x l ih =>
      intro p s c
      rw [List.foldl_cons, ih, powerSum, List.length_cons, pow_succ, List.prod_cons]
      ext <;> simp <;> ring
  unfold poolExpected
  rw [key]
  simp only [zero_add]
  ring

theorem requantFold_eq (beta chal : F) (evals : List F) (acc comb : F) :
    requantFold beta chal evals acc comb = acc + comb * (beta * powerSum chal evals) := by
  unfold requantFold
  induction evals generalizing acc comb with
  | nil => simp [powerSum]
  | cons x l ih => rw [List.foldl_cons, ih, powerSum]; ring

theorem eqPoly_at_bits (r : List F) (b : ℕ) (hb : b < 2 ^ r.length) : eqPoly r (bitsPoint r.length b) = chi r b := by
  rw [eqPoly_eq_sum _ _ (by simp [bitsPoint]), Finset.sum_eq_single b]
  · rw [chi_bitsPoint _ b b hb hb, if_pos rfl, mul_one]
  · intro d hd hne
    rw [chi_bitsPoint _ b d hb (Finset.mem_range.mp hd), if_neg (by tauto), mul_zero]
  · intro h; exact absurd (Finset.mem_range.mpr hb) h

/-- Summing any function against the beta polynomial of a point evaluates the table of its values there. -/
theorem cubeSum_eqPoly (r : List F) (h : List F → F) :
    (cubeSum r.length fun pt => eqPoly r pt * h pt)
      = mle ((List.range (2 ^ r.length)).map fun b => h (bitsPoint r.length b)) r := by
  unfold cubeSum mle
  apply Finset.sum_congr rfl
  intro b hb
  have hb' := Finset.mem_range.mp hb
  beta_reduce
  rw [eqPoly_at_bits r b hb', getD_map_range' _ _ _ _ hb']
  ring

theorem cubeSum_eqPoly_mle (r t : List F) : (cubeSum r.length fun pt => eqPoly r pt * mle t pt) = mle t r := by
  unfold cubeSum
  conv_rhs => unfold mle
  apply Finset.sum_congr rfl
  intro b hb
  have hb' := Finset.mem_range.mp hb
  beta_reduce
  rw [eqPoly_at_bits r b hb', mle_bitsPoint _ _ b hb']
  ring

theorem cubeSum_mul (n : ℕ) (a : F) (g : List F → F) : cubeSum n (fun pt => a * g pt) = a * cubeSum n g := by
  unfold cubeSum; rw [Finset.mul_sum]

theorem cubeSum_powerSum {α : Type} (n : ℕ) (a : F) (l : List α) (g : α → List F → F) :
    cubeSum n (fun pt => powerSum a (l.map fun x => g x pt)) = powerSum a (l.map fun x => cubeSum n (g x)) := by
  induction l with
  | nil => simp [powerSum, cubeSum]
  | cons x l ih =>
    simp only [List.map_cons, powerSum]
    rw [cubeSum_add, cubeSum_mul, ih]

theorem powerSum_mul {α : Type} (a c : F) (l : List α) (g : α → F) :
    powerSum a (l.map fun x => c * g x) = c * powerSum a (l.map g) := by
  induction l with
  | nil => simp [powerSum]
  | cons x l ih => simp only [List.map_cons, powerSum, ih]; ring

theorem powerSum_zip_sub (a : F) (l m : List F) (h : l.length = m.length) :
    powerSum a (List.zipWith (· - ·) l m) = powerSum a l - powerSum a m := by
  induction l generalizing m with
  | nil =>
    have : m = [] := List.length_eq_zero_iff.mp h.symm
    subst this; simp [powerSum]
  | cons x l ih =>
    cases m with
    | nil => simp at h
    | cons y m => simp only [List.zipWith_cons_cons, powerSum, ih m (by simpa using h)]; ring

theorem powerSum_zeros (a : F) (l : List F) (h : ∀ x ∈ l, x = 0) : powerSum a l = 0 := by
  induction l with
  | nil => rfl
  | cons x l ih => rw [powerSum, h x (by simp), ih (fun y hy => h y (by simp [hy]))]; ring

/-- A list with a nonzero entry has few roots. -/
theorem count_powerSum [Fintype F] [DecidableEq F] (l : List F) (h : ∃ x ∈ l, x ≠ 0) :
    (Finset.univ.filter fun a : F => powerSum a l = 0).card ≤ l.length - 1 := by
  have := count_collision l (List.replicate l.length 0) (by simp) (by
    rintro he
    obtain ⟨x, hx, hne⟩ := h
    rw [he] at hx
    exact hne (List.eq_of_mem_replicate hx))
  refine (Finset.card_le_card ?_).trans this
  intro a ha
  refine Finset.mem_filter.2 ⟨Finset.mem_univ _, ?_⟩
  rw [← powerSum_eq_fingerprint, ← powerSum_eq_fingerprint, (Finset.mem_filter.1 ha).2,
    powerSum_zeros a _ (fun x hx => List.eq_of_mem_replicate hx)]

/-- A tensor at a point made of the coordinates of a window and of a position in the window. -/
theorem mle_window (X y z : List F) (r1 r2 : F) :
    mle X (r1 :: y ++ r2 :: z)
      = (1 - r1) * (1 - r2) * mle (windowEntries (y.length + z.length) y.length 0 0 X) (y ++ z)
        + (1 - r1) * r2 * mle (windowEntries (y.length + z.length) y.length 0 1 X) (y ++ z)
        + r1 * (1 - r2) * mle (windowEntries (y.length + z.length) y.length 1 0 X) (y ++ z)
        + r1 * r2 * mle (windowEntries (y.length + z.length) y.length 1 1 X) (y ++ z) := by
  have hR : ∀ c rho : ℕ, mle (windowEntries (y.length + z.length) y.length c rho X) (y ++ z)
      = ∑ i ∈ Finset.range (2 ^ z.length), ∑ j ∈ Finset.range (2 ^ y.length),
        X.getD ((2 * i + rho) * 2 ^ (y.length + 1) + (2 * j + c)) 0 * chi y j * chi z i := by
    intro c rho
    rw [mle_append_sum]
    apply Finset.sum_congr rfl
    intro i hi
    rw [Finset.sum_mul]
    apply Finset.sum_congr rfl
    intro j hj
    have hi' := Finset.mem_range.mp hi
    have hj' := Finset.mem_range.mp hj
    have hlt : i * 2 ^ y.length + j < 2 ^ (y.length + z.length) := by
      rw [pow_add, mul_comm (2 ^ y.length)]
      exact mul_add_lt hi' hj'
    unfold windowEntries
    rw [getD_map_range' _ _ _ _ hlt, mul_add_div' hj', mul_add_mod' hj']
  rw [hR, hR, hR, hR, mle_append_sum]
  rw [List.length_cons, List.length_cons, show 2 ^ (z.length + 1) = 2 * 2 ^ z.length by rw [pow_succ, mul_comm], sum_range_two_mul]
  simp only [Finset.mul_sum]
  rw [← Finset.sum_add_distrib, ← Finset.sum_add_distrib, ← Finset.sum_add_distrib]
  apply Finset.sum_congr rfl
  intro i _
  have h2 : ∀ f : ℕ → F, ∑ j ∈ Finset.range (2 ^ (y.length + 1)), f j
      = ∑ j ∈ Finset.range (2 ^ y.length), (f (2 * j) + f (2 * j + 1)) := by
    intro f
    rw [show 2 ^ (y.length + 1) = 2 * 2 ^ y.length by rw [pow_succ, mul_comm], sum_range_two_mul]
  rw [h2, h2, ← Finset.sum_add_distrib, ← Finset.sum_add_distrib, ← Finset.sum_add_distrib, Finset.sum_mul, Finset.sum_mul,
    ← Finset.sum_add_distrib]
  apply Finset.sum_congr rfl
  intro j _
  have e1 : ∀ (x : F) (xs : List F) (k : ℕ), chi (x :: xs) (2 * k) = (1 - x) * chi xs k := by
    intro x xs k; rw [chi_cons]; simp
  have e2 : ∀ (x : F) (xs : List F) (k : ℕ), chi (x :: xs) (2 * k + 1) = x * chi xs k := by
    intro x xs k
    rw [chi_cons, if_pos (by omega), show (2 * k + 1) / 2 = k by omega]
  simp only [e1, e2, add_zero]
  ring

end

section
variable {F : Type} [Field F] [DecidableEq F] {C : Type}

theorem verify_point_length (T : Transcript F) (D n : ℕ) (hchar : ∀ k : ℕ, 0 < k → k ≤ D → (k : F) ≠ 0) (claimed : F)
    (proof : IOPProof F) (ts ts' : T.State) (sc : SubClaim F) (h : verify T claimed proof D n ts = some (sc, ts')) :
    sc.point.length = n :=
  (accepted_sound T D n hchar (fun _ => sc.expected) _ _ _ _ _ h rfl).1

theorem eqXYEval_parts (x y : List F) (b : F) (he : eqXYEval x y = some b) : x.length = y.length ∧ b = eqPoly x y := by
  by_cases hx : x ≠ [] ∧ x.length = y.length
  · rw [eqXYEval_eq x y hx.1 hx.2] at he
    exact ⟨hx.2, (Option.some.inj he).symm⟩
  · unfold eqXYEval at he; rw [if_neg hx] at he; simp at he

theorem pooling_parts (T : Transcript F) (n : ℕ) (last : Claim F) (proof : PoolingProof F C) (constant csc : F) (ts ts' : T.State)
    (claim : Claim F) (wit : List (C × Claim F)) (h : verifyPooling T n last proof constant csc ts = some (claim, wit, ts')) :
    ∃ claims fr ts1 sub ts3 c0 beta lastBeta k out, verifyLogup T proof.lookup 4 constant csc ts = some (claims, fr, ts1) ∧
      verify T (poolInitial (T.labelled ts1 "batch_pooling").1 (claims.map Claim.eval) last.eval) proof.sumcheck 5 n
        (T.labelled ts1 "batch_pooling").2 = some (sub, ts3) ∧
      claims[0]? = some c0 ∧ eqXYEval c0.point sub.point = some beta ∧ eqXYEval last.point sub.point = some lastBeta ∧
      checkedSub proof.zerocheckEvals.length 1 = some k ∧ proof.zerocheckEvals[k]? = some out ∧
      poolExpected beta lastBeta (T.labelled ts1 "batch_pooling").1 (proof.zerocheckEvals.take k) out = sub.expected ∧
      ∃ pt, poolPoint (T.labelled ts3 "input_batching").1 (T.labelled ts3 "input_batching").1 proof.variableGap sub.point = some pt ∧
        claim = ⟨pt, poolInputEval (T.labelled ts3 "input_batching").1 (T.labelled ts3 "input_batching").1 out
          (proof.zerocheckEvals.take k)⟩ ∧
        wit = proof.commitments.zip (proof.zerocheckEvals.map fun e => ⟨sub.point, e⟩) ∧
        ts' = (T.labelled ts3 "input_batching").2 := by
  unfold verifyPooling at h
  simp only [Option.bind_eq_bind, Option.bind_eq_some_iff] at h
  obtain ⟨⟨claims, fr, ts1⟩, hl, ⟨sub, ts3⟩, hv, c0, hc0, beta, hbeta, lastBeta, hlast, k, hk, out, hout, h⟩ := h
  dsimp only at h hbeta hlast hc0 hv
  by_cases hcond : poolExpected beta lastBeta (T.labelled ts1 "batch_pooling").1 (proof.zerocheckEvals.take k) out = sub.expected
  swap
  · rw [if_neg hcond] at h; simp at h
  rw [if_pos hcond] at h
  simp only [Option.bind_eq_some_iff, Option.some.injEq, Prod.mk.injEq] at h
  obtain ⟨pt, hpt, hclaim, hwit, hts⟩ := h
  exact ⟨claims, fr, ts1, sub, ts3, c0, beta, lastBeta, k, out, hl, hv, hc0, hbeta, hlast, hk, hout, hcond, pt, hpt, hclaim.symm,
    hwit.symm, hts.symm⟩

theorem pooling_point (T : Transcript F) (hchar : ∀ k : ℕ, 0 < k → k ≤ 5 → (k : F) ≠ 0) (n : ℕ) (last : Claim F)
    (proof : PoolingProof F C) (constant csc : F) (ts ts' : T.State)
    (claim : Claim F) (wit : List (C × Claim F)) (h : verifyPooling T n last proof constant csc ts = some (claim, wit, ts')) :
    ∃ (zp : List F) (r : F), zp.length = n ∧ proof.variableGap ≤ n ∧
      claim.point = r :: zp.take proof.variableGap ++ r :: zp.drop proof.variableGap := by
  obtain ⟨claims, fr, ts1, sub, ts3, c0, beta, lastBeta, k, out, hl, hv, hc0, hbeta, hlast, hk, hout, hcond, pt, hpt, hclaim, hwit, hts⟩ :=
    pooling_parts T n last proof constant csc ts ts' claim wit h
  have hn := verify_point_length T 5 n hchar _ _ _ _ _ hv
  refine ⟨sub.point, (T.labelled ts3 "input_batching").1, hn, ?_⟩
  unfold poolPoint at hpt
  by_cases hg : proof.variableGap ≤ sub.point.length
  · rw [if_pos hg] at hpt
    exact ⟨by omega, by rw [hclaim]; exact (Option.some.inj hpt).symm⟩
  · rw [if_neg hg] at hpt; simp at hpt

theorem activation_parts (T : Transcript F) (n : ℕ) (scale : Option F) (last : Claim F) (proof : ActivationProof F C)
    (constant csc : F) (ts ts' : T.State) (claim : Claim F) (wit : List (C × Claim F))
    (h : verifyActivation T n scale last proof constant csc ts = some (claim, wit, ts')) :
    ∃ claims fr ts1 c0 out, verifyLogup T proof.lookup 1 constant csc ts = some (claims, fr, ts1) ∧ claims[0]? = some c0 ∧
      verifySamePoly T n (last :: claims.drop 1) proof.ioAccumulation ts1 = some (out, ts') ∧
      claim = ⟨c0.point, c0.eval * (scale.getD 1)⁻¹⟩ ∧ wit = proof.commits.zip [c0, out] := by
  unfold verifyActivation at h
  simp only [Option.bind_eq_bind, Option.bind_eq_some_iff] at h
  obtain ⟨⟨claims, fr, ts1⟩, hl, c0, hc0, ⟨out, ts2⟩, hs, h⟩ := h
  refine ⟨claims, fr, ts1, c0, out, hl, hc0, ?_⟩
  cases scale with
  | none =>
    simp only [Option.some.injEq, Prod.mk.injEq] at h
    obtain ⟨rfl, rfl, rfl⟩ := h
    exact ⟨hs, by simp, rfl⟩
  | some m =>
    simp only [Option.some.injEq, Prod.mk.injEq] at h
    obtain ⟨rfl, rfl, rfl⟩ := h
    exact ⟨hs, by simp, rfl⟩

theorem requant_parts (T : Transcript F) (p bl : ℕ) (r : Requant) (last : Claim F) (proof : RequantProof F C)
    (constant csc : F) (ts ts' : T.State) (claim : Claim F) (wit : List (C × Claim F))
    (h : verifyRequant T p bl r last proof constant csc ts = some (claim, wit, ts')) :
    ∃ clamp fr ts1 shift fr' ts2 c0 s0 c1 sub lastBeta clampBeta shiftBeta got e0,
      verifyLogup T proof.clampingLookup 1 constant csc ts = some (clamp, fr, ts1) ∧
      verifyLogup T proof.shiftedLookup (r.shift / bl) constant 1 ts1 = some (shift, fr', ts2) ∧
      clamp[0]? = some c0 ∧ shift[0]? = some s0 ∧ clamp[1]? = some c1 ∧
      verify T (alphaFold (T.labelled ts2 "requant_batching").1 ([last.eval, c1.eval, c0.eval] ++ shift.map Claim.eval))
        proof.ioAccumulation 2 c0.point.length (T.labelled ts2 "requant_batching").2 = some (sub, ts') ∧
      eqXYEval last.point sub.point = some lastBeta ∧ eqXYEval c0.point sub.point = some clampBeta ∧
      eqXYEval s0.point sub.point = some shiftBeta ∧
      requantCalc lastBeta clampBeta shiftBeta (T.labelled ts2 "requant_batching").1 proof.accumulationEvals = some got ∧
      got = sub.expected ∧ proof.accumulationEvals[0]? = some e0 ∧
      claim = ⟨sub.point, r.recombine p bl e0 (proof.accumulationEvals.drop 2)⟩ ∧
      wit = proof.commitments.zip (proof.accumulationEvals.map fun e => ⟨sub.point, e⟩) := by
  unfold verifyRequant at h
  simp only [Option.bind_eq_bind, Option.bind_eq_some_iff] at h
  obtain ⟨⟨clamp, fr, ts1⟩, h1, ⟨shift, fr', ts2⟩, h2, c0, h3, s0, h4, c1, h5, ⟨sub, ts3⟩, h6, lb, h7, cb, h8, sb, h9, got, h10, h⟩ := h
  dsimp only at *
  by_cases hcond : got = sub.expected
  swap
  · rw [if_neg hcond] at h; simp at h
  rw [if_pos hcond] at h
  simp only [Option.bind_eq_some_iff, Option.some.injEq, Prod.mk.injEq] at h
  obtain ⟨e0, he0, hclaim, hwit, rfl⟩ := h
  exact ⟨clamp, fr, ts1, shift, fr', ts2, c0, s0, c1, sub, lb, cb, sb, got, e0, h1, h2, h3, h4, h5, h6, h7, h8, h9, h10, hcond, he0,
    hclaim.symm, hwit.symm⟩

omit [DecidableEq F] in
theorem recombine_append (p bl : ℕ) (r : Requant) (c : F) (l : List F) (u v : F) :
    r.recombine p bl c (l ++ [u, v])
      = r.recombine p bl c l + ((2 ^ bl : ℕ) : F) ^ l.length * (u + ((2 ^ bl : ℕ) : F) * v) * (toField p r.fpm : F)⁻¹ := by
  have key : ∀ (B : F) (l : List F) (acc pw : F),
      ((l ++ [u, v]).foldl (fun (ap : F × F) v => (ap.1 + v * ap.2, ap.2 * B)) (acc, pw)).1
        = (l.foldl (fun (ap : F × F) v => (ap.1 + v * ap.2, ap.2 * B)) (acc, pw)).1 + pw * B ^ l.length * (u + B * v) := by
    intro B l
    induction l with
    | nil => intro acc pw; simp; ring
    | cons x l ih => intro acc pw; rw [List.cons_append, List.foldl_cons, List.foldl_cons, ih, List.length_cons, pow_succ]; ring
  unfold Requant.recombine
  simp only
  rw [key]
  ring

theorem zip_take_append {α β : Type} (l : List α) (m k : List β) (n : ℕ) (h : n = m.length) :
    (l.take n).zip (m ++ k) = l.zip m := by
  subst h
  induction m generalizing l with
  | nil => simp
  | cons x m ih => cases l <;> simp [ih]

end

end Lemmas
