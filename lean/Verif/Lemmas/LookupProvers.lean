import Verif.Model.LookupProvers
import Verif.Lemmas.LookupLayers
import Verif.Lemmas.Terms
import Verif.Lemmas.Conv

/-!
Helper lemmas for the provers of the layers proved by lookups.
-/

namespace Lemmas

open Model Spec

variable {F : Type} [Field F] [DecidableEq F]

omit [DecidableEq F] in
theorem buildVP_requant' (heap : ℕ → Mle F) (n k : ℕ) (h : ∀ a, (heap a).numVars = n) (chal : F) :
    ∃ vp, buildVP heap n (requantTerms chal (k + 1)) = some vp ∧ vp.maxDegree = 2 ∧ vp.flattened = List.range (5 + (k + 1)) ∧ vp.maxNumVars = n ∧
      (∀ a, 5 + (k + 1) ≤ a → vp.lookup.lookup a = none) ∧ vp.lookup.lookup 4 = some 4 := by
  induction k with
  | zero =>
    refine ⟨⟨2, n, [(1, [0, 1]), (chal, [0, 2]), (chal * chal, [3, 2]), (chal * chal * chal * chal ^ 0, [4, 5])], [0, 1, 2, 3, 4, 5],
      [(5, 5), (4, 4), (3, 3), (2, 2), (1, 1), (0, 0)]⟩, ?_, rfl, rfl, rfl, ?_, rfl⟩
    · simp [requantTerms, buildVP, VirtualPoly.addMleList, VirtualPoly.new, VirtualPoly.internList, VirtualPoly.intern, h, List.lookup]
    · intro a ha
      match a, ha with
      | a + 6, _ => simp [List.lookup]
  | succ k ih =>
    obtain ⟨⟨d, nv, pr, fl, lk⟩, h1, rfl, rfl, rfl, h5, h6⟩ := ih
    simp only at h5 h6
    refine ⟨⟨2, nv, pr ++ [(chal * chal * chal * chal ^ (k + 1), [4, 5 + (k + 1)])], List.range (5 + (k + 1 + 1)), (5 + (k + 1), 5 + (k + 1)) :: lk⟩, ?_, rfl, rfl, rfl, ?_, ?_⟩
    · have ht : requantTerms chal (k + 1 + 1) = requantTerms chal (k + 1) ++ [(chal * chal * chal * chal ^ (k + 1), [4, 5 + (k + 1)])] := by
        unfold requantTerms
        rw [List.range_succ, List.map_append, ← List.append_assoc]
        rfl
      unfold buildVP at h1 ⊢
      rw [ht, List.foldlM_append, h1]
      simp [VirtualPoly.addMleList, VirtualPoly.internList, VirtualPoly.intern, h, h5 (5 + (k + 1)) le_rfl, h6]
      rw [show 5 + (k + 1 + 1) = (5 + (k + 1)) + 1 by omega, List.range_succ]
    · intro a ha
      have hne : (a == 5 + (k + 1)) = false := by rw [beq_eq_false_iff_ne]; omega
      rw [List.lookup_cons, hne]
      exact h5 a (by omega)
    · have hne : ((4 : ℕ) == 5 + (k + 1)) = false := by rw [beq_eq_false_iff_ne]; omega
      rw [List.lookup_cons, hne]
      exact h6

omit [DecidableEq F] in
theorem powerSum_range {α : Type} (a : F) (d : α) (f : α → F) : ∀ (l : List α), powerSum a (l.map f) = ((List.range l.length).map fun j => a ^ j * f (l.getD j d)).sum := by
  intro l
  induction l with
  | nil => rfl
  | cons x l ih =>
    rw [List.map_cons, powerSum, ih, List.length_cons, List.range_succ_eq_map, List.map_cons, List.map_map, List.sum_cons, ← List.sum_map_mul_left]
    simp only [Function.comp_def, List.getD_cons_zero, List.getD_cons_succ, pow_zero, one_mul, Nat.succ_eq_add_one, pow_succ]
    congr 2
    apply List.map_congr_left
    intro j _
    ring

theorem requantTerms_val (n : ℕ) (chal : F) (lq lp ls cin cout : List F) (chunks : List (List F)) (hq : lq.length = n) (hp : lp.length = n) (hs : ls.length = n) (pt : List F)
    (hpt : pt.length = n) :
    termsVal (requantHeap n lq lp ls cin cout chunks) (requantTerms chal chunks.length) pt = requantSum chal lq lp ls cout cin chunks pt := by
  have e : ∀ j, (requantHeap n lq lp ls cin cout chunks (5 + j)).evals = chunks.getD j cin := by
    intro j
    rw [Nat.add_comm 5 j]
    rfl
  unfold termsVal requantTerms requantSum
  rw [List.map_append, List.sum_append, List.map_map, powerSum_range chal cin]
  simp only [List.map_cons, List.map_nil, List.prod_cons, List.prod_nil, List.sum_cons, List.sum_nil, Function.comp_def, mul_one, e]
  have h0 : (requantHeap n lq lp ls cin cout chunks 0).evals = cout := rfl
  have h1 : (requantHeap n lq lp ls cin cout chunks 1).evals = computeBetas lq := rfl
  have h2 : (requantHeap n lq lp ls cin cout chunks 2).evals = computeBetas lp := rfl
  have h3 : (requantHeap n lq lp ls cin cout chunks 3).evals = cin := rfl
  have h4 : (requantHeap n lq lp ls cin cout chunks 4).evals = computeBetas ls := rfl
  rw [h0, h1, h2, h3, h4, mle_computeBetas lq pt (by omega), mle_computeBetas lp pt (by omega), mle_computeBetas ls pt (by omega), ← List.sum_map_mul_left]
  have : ((List.range chunks.length).map fun x => chal * chal * chal * chal ^ x * (eqPoly ls pt * mle (chunks.getD x cin) pt))
      = (List.range chunks.length).map fun j => chal ^ 3 * (chal ^ j * (eqPoly ls pt * mle (chunks.getD j cin) pt)) := by
    apply List.map_congr_left
    intro j _
    ring
  rw [this]
  ring

omit [DecidableEq F] in
theorem requantSum_cube (n : ℕ) (chal : F) (lq lp ls cin cout : List F) (chunks : List (List F)) (hq : lq.length = n) (hp : lp.length = n) (hs : ls.length = n) :
    cubeSum n (requantSum chal lq lp ls cout cin chunks)
      = powerSum chal ([mle cout lq, mle cout lp, mle cin lp] ++ chunks.map fun t => mle t ls) := by
  unfold requantSum
  rw [cubeSum_add, cubeSum_add, cubeSum_add, cubeSum_mul, cubeSum_mul, cubeSum_mul, cubeSum_powerSum]
  have e1 : ∀ t : List F, (cubeSum n fun pt => eqPoly lq pt * mle t pt) = mle t lq := by rw [← hq]; exact cubeSum_eqPoly_mle lq
  have e2 : ∀ t : List F, (cubeSum n fun pt => eqPoly lp pt * mle t pt) = mle t lp := by rw [← hp]; exact cubeSum_eqPoly_mle lp
  have e3 : ∀ t : List F, (cubeSum n fun pt => eqPoly ls pt * mle t pt) = mle t ls := by rw [← hs]; exact cubeSum_eqPoly_mle ls
  simp only [e1, e2, e3, List.cons_append, List.nil_append, powerSum]
  ring

omit [DecidableEq F] in
/-- Recombination commutes with evaluation at a point. -/
theorem recombine_mle (p bl : ℕ) (r : Requant) (X cin : List F) (chunks : List (List F)) (q : List F)
    (h : ∀ b, b < 2 ^ q.length → X.getD b 0 = r.recombine p bl (cin.getD b 0) (chunks.map fun t => t.getD b 0)) :
    mle X q = r.recombine p bl (mle cin q) (chunks.map fun t => mle t q) := by
  obtain ⟨B, hB⟩ : ∃ B : F, B = ((2 ^ bl : ℕ) : F) := ⟨_, rfl⟩
  have hr : ∀ (c : F) (f : List F → F), r.recombine p bl c (chunks.map f)
      = (((2 ^ r.shift : ℕ) : F) * c + (∑ j ∈ Finset.range chunks.length, f (chunks.getD j []) * B ^ j) - ((2 ^ (r.shift - 1) : ℕ) : F)) * (toField p r.fpm : F)⁻¹ := by
    intro c f
    unfold Requant.recombine
    simp only
    rw [recombine_fold, one_mul, List.length_map, ← hB, sum_map_range]
    congr 3
    refine Finset.sum_congr rfl fun j hj => ?_
    have hj' := Finset.mem_range.1 hj
    rw [List.getD_eq_getElem _ _ (by simpa using hj'), List.getD_eq_getElem _ _ hj', List.getElem_map]
  rw [hr]
  have hone := sum_chi q
  unfold mle
  rw [Finset.sum_congr rfl fun b hb => by rw [h b (Finset.mem_range.1 hb), hr]]
  have hswap : ∑ j ∈ Finset.range chunks.length, (∑ b ∈ Finset.range (2 ^ q.length), (chunks.getD j []).getD b 0 * chi q b) * B ^ j
      = ∑ b ∈ Finset.range (2 ^ q.length), (∑ j ∈ Finset.range chunks.length, (chunks.getD j []).getD b 0 * B ^ j) * chi q b := by
    simp only [Finset.sum_mul]
    rw [Finset.sum_comm]
    refine Finset.sum_congr rfl fun b _ => Finset.sum_congr rfl fun j _ => ?_
    ring
  rw [hswap, Finset.mul_sum, ← Finset.sum_add_distrib]
  conv_rhs => rw [← mul_one ((2 ^ (r.shift - 1) : ℕ) : F), ← hone, Finset.mul_sum, ← Finset.sum_sub_distrib, Finset.sum_mul]
  refine Finset.sum_congr rfl fun b _ => ?_
  ring

omit [DecidableEq F] in
theorem buildVP_pooling (heap : ℕ → Mle F) (n : ℕ) (h : ∀ a, (heap a).numVars = n) (chal : F) :
    ∃ vp, buildVP heap n (poolingTerms chal) = some vp ∧ vp.maxDegree = 5 ∧ vp.flattened = [0, 1, 2, 3, 4, 5, 6] := by
  refine ⟨⟨5, n, poolingTerms chal, [0, 1, 2, 3, 4, 5, 6], [(6, 6), (5, 5), (4, 4), (3, 3), (2, 2), (1, 1), (0, 0)]⟩, ?_, rfl, rfl⟩
  simp [poolingTerms, buildVP, VirtualPoly.addMleList, VirtualPoly.new, VirtualPoly.internList, VirtualPoly.intern, h, List.lookup]

theorem poolingTerms_val (n : ℕ) (chal : F) (lp lq o d0 d1 d2 d3 : List F) (hp : lp.length = n) (hq : lq.length = n) (pt : List F) (hpt : pt.length = n) :
    termsVal (poolingHeap n lp lq o [d0, d1, d2, d3]) (poolingTerms chal) pt = poolingSum chal lp lq d0 d1 d2 d3 o pt := by
  have h0 : (poolingHeap n lp lq o [d0, d1, d2, d3] 0).evals = d0 := rfl
  have h1 : (poolingHeap n lp lq o [d0, d1, d2, d3] 1).evals = d1 := rfl
  have h2 : (poolingHeap n lp lq o [d0, d1, d2, d3] 2).evals = d2 := rfl
  have h3 : (poolingHeap n lp lq o [d0, d1, d2, d3] 3).evals = d3 := rfl
  have h4 : (poolingHeap n lp lq o [d0, d1, d2, d3] 4).evals = computeBetas lp := rfl
  have h5 : (poolingHeap n lp lq o [d0, d1, d2, d3] 5).evals = o := rfl
  have h6 : (poolingHeap n lp lq o [d0, d1, d2, d3] 6).evals = computeBetas lq := rfl
  unfold termsVal poolingTerms poolingSum
  simp only [List.map_cons, List.map_nil, List.prod_cons, List.prod_nil, List.sum_cons, List.sum_nil, mul_one, h0, h1, h2, h3, h4, h5, h6]
  rw [mle_computeBetas lp pt (by omega), mle_computeBetas lq pt (by omega)]
  ring

omit [DecidableEq F] in
theorem poolingSum_cube (n : ℕ) (chal : F) (lp lq d0 d1 d2 d3 o : List F) (hL : lp.length = n) (hLa : lq.length = n) :
    cubeSum n (poolingSum chal lp lq d0 d1 d2 d3 o) = mle (product4 n d0 d1 d2 d3) lp + chal * powerSum chal [mle d0 lp, mle d1 lp, mle d2 lp, mle d3 lp, mle o lq] := by
  have hg : poolingSum chal lp lq d0 d1 d2 d3 o = fun pt =>
      (eqPoly lp pt * (mle d0 pt * mle d1 pt * mle d2 pt * mle d3 pt)
        + (chal * (eqPoly lp pt * mle d0 pt) + (chal ^ 2 * (eqPoly lp pt * mle d1 pt)
        + (chal ^ 3 * (eqPoly lp pt * mle d2 pt) + (chal ^ 4 * (eqPoly lp pt * mle d3 pt)
        + chal ^ 5 * (eqPoly lq pt * mle o pt)))))) := by
    funext pt; simp only [poolingSum]; ring
  rw [hg, cubeSum_add, cubeSum_add, cubeSum_add, cubeSum_add, cubeSum_add, cubeSum_mul, cubeSum_mul, cubeSum_mul, cubeSum_mul, cubeSum_mul]
  have e : ∀ t : List F, cubeSum n (fun pt => eqPoly lp pt * mle t pt) = mle t lp := by
    intro t; rw [← hL]; exact cubeSum_eqPoly_mle lp t
  have e' : cubeSum n (fun pt => eqPoly lq pt * mle o pt) = mle o lq := by
    rw [← hLa]; exact cubeSum_eqPoly_mle _ _
  rw [e, e, e, e, e']
  have e'' : cubeSum n (fun pt => eqPoly lp pt * (mle d0 pt * mle d1 pt * mle d2 pt * mle d3 pt)) = mle (product4 n d0 d1 d2 d3) lp := by
    rw [← hL, cubeSum_eqPoly lp fun pt => mle d0 pt * mle d1 pt * mle d2 pt * mle d3 pt]
    unfold product4
    congr 1
    apply List.map_congr_left
    intro w hw
    have hw' := List.mem_range.mp hw
    rw [mle_bitsPoint _ _ w hw', mle_bitsPoint _ _ w hw', mle_bitsPoint _ _ w hw', mle_bitsPoint _ _ w hw']
  rw [e'']
  simp only [powerSum]
  ring

end Lemmas
