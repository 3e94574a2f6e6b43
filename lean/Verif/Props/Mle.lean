import Verif.Lemmas.Eq
import Mathlib.Data.Rat.Defs
import Mathlib.Algebra.Field.Rat

/-!
Properties C01–C05: multilinear tables and the `eq` table.
-/

namespace Props
open Spec Model Lemmas

variable {F : Type} [Field F]

/-- C01. For every table of `2^n` values and every point of length `n`, `evaluate` succeeds and returns
the multilinear extension `∑_b t[b]·∏_j (r_j or 1-r_j)`. -/
theorem C01_evaluate_is_mle (n : ℕ) (t r : List F) (ht : t.length = 2 ^ n) (hr : r.length = n) :
    (Mle.ofEvals n t).bind (fun m => m.evaluate r) =
      some (∑ b ∈ Finset.range (2 ^ n),
        t.getD b 0 * ∏ j : Fin r.length, if b.testBit j then r[j] else 1 - r[j]) := by
  rw [Mle.ofEvals, if_pos ht, Option.bind_some, evaluate_eq ⟨n, t⟩ ht r hr]
  simp only [Spec.mle, Spec.chi, hr]

example : (Mle.ofEvals 2 [(5 : ℚ), 7, 11, 13]).bind (fun m => m.evaluate [2, 3]) = some 27 := by
  decide +kernel

/-- C01 (0/1 points). Evaluating at the bits of an index returns that table entry. -/
theorem C01_evaluate_at_bits (n b : ℕ) (t : List F) (ht : t.length = 2 ^ n) (hb : b < 2 ^ n) :
    (Mle.ofEvals n t).bind
        (fun m => m.evaluate ((List.range n).map fun j => if b.testBit j then 1 else 0))
      = some (t[b]'(by omega)) := by
  have hb' : b < t.length := by omega
  rw [Mle.ofEvals, if_pos ht, Option.bind_some, evaluate_eq ⟨n, t⟩ ht _ (by simp)]
  have := mle_bitsPoint t n b hb
  rw [bitsPoint] at this
  rw [this]
  simp [List.getD_eq_getElem?_getD, hb']

example : (Mle.ofEvals 2 [(5 : ℚ), 7, 11, 13]).bind (fun m => m.evaluate [0, 1]) = some 11 := by
  decide +kernel

/-- C01 (panic). `evaluate` never returns a value on a point of the wrong length. -/
theorem C01_evaluate_wrong_length (m : Mle F) (r : List F) (h : m.numVars ≠ r.length) :
    m.evaluate r = none := by
  unfold Mle.evaluate
  rw [if_neg h]

example : (⟨1, [(5 : ℚ), 7]⟩ : Mle ℚ).evaluate [1, 2] = none :=
  C01_evaluate_wrong_length _ _ (by decide)

/-- C02 (low variables). Fixing the lowest variables at `p` and evaluating the rest at `q` equals
evaluating at `p ++ q`. -/
theorem C02_fix_variables_evaluate (m : Mle F) (hm : m.evals.length = 2 ^ m.numVars) (p q : List F)
    (h : p.length + q.length = m.numVars) :
    (m.fixVariables p).bind (fun m' => m'.evaluate q) = m.evaluate (p ++ q)
      ∧ (m.fixVariables p).isSome := by
  have hp : p.length ≤ m.numVars := by omega
  have hl := fixLow_length m.evals p m.numVars hm hp
  rw [fixVariables_eq m hm p hp, Option.bind_some,
    evaluate_eq ⟨m.numVars - p.length, fixLow m.evals p⟩ hl q (by simp only; omega),
    evaluate_eq m hm (p ++ q) (by simpa using h), mle_append m.evals p q m.numVars hm hp]
  simp

example : ((⟨2, [(5 : ℚ), 7, 11, 13]⟩ : Mle ℚ).fixVariables [2]).bind (fun m' => m'.evaluate [3])
    = (⟨2, [(5 : ℚ), 7, 11, 13]⟩ : Mle ℚ).evaluate ([2] ++ [3]) :=
  (C02_fix_variables_evaluate _ (by decide) [2] [3] (by decide)).1

/-- C02 (high variables). Fixing the highest variables at `q` and evaluating the rest at `p` equals
evaluating at `p ++ q`. -/
theorem C02_fix_high_variables_evaluate (m : Mle F) (hm : m.evals.length = 2 ^ m.numVars)
    (p q : List F) (h : p.length + q.length = m.numVars) :
    (m.fixHighVariables q).bind (fun m' => m'.evaluate p) = m.evaluate (p ++ q)
      ∧ (m.fixHighVariables q).isSome := by
  have hq : q.length ≤ m.numVars := by omega
  have hl := fixHigh_length m.evals q.reverse m.numVars hm (by simpa using hq)
  rw [List.length_reverse] at hl
  rw [fixHighVariables_eq m hm q hq, Option.bind_some,
    evaluate_eq ⟨m.numVars - q.length, fixHigh m.evals q.reverse⟩ hl p (by simp only; omega),
    evaluate_eq m hm (p ++ q) (by simpa using h)]
  have := mle_fixHigh m.evals p q.reverse (by rw [hm, List.length_reverse, h])
  rw [List.reverse_reverse] at this
  rw [this]
  simp

example : ((⟨2, [(5 : ℚ), 7, 11, 13]⟩ : Mle ℚ).fixHighVariables [3]).bind (fun m' => m'.evaluate [2])
    = (⟨2, [(5 : ℚ), 7, 11, 13]⟩ : Mle ℚ).evaluate ([2] ++ [3]) :=
  (C02_fix_high_variables_evaluate _ (by decide) [2] [3] (by decide)).1

/-- C02 (variants agree). The copying, in-place, parallel and parallel-in-place versions of fixing low
variables return the same table; likewise the two versions of fixing high variables. -/
theorem C02_variants_agree (m : Mle F) (hm : m.evals.length = 2 ^ m.numVars) (p : List F) :
    m.fixVariablesInPlace p = m.fixVariables p ∧
    m.fixVariablesParallel p = m.fixVariables p ∧
    m.fixVariablesInPlaceParallel p = m.fixVariables p ∧
    m.fixHighVariablesInPlace p = m.fixHighVariables p := by
  by_cases h : p.length ≤ m.numVars
  · rw [fixVariablesInPlace_eq m hm p h, fixVariables_eq m hm p h, fixVariablesParallel_eq m hm p h,
      fixVariablesInPlaceParallel_eq m hm p h, fixHighVariablesInPlace_eq m hm p h,
      fixHighVariables_eq m hm p h]
    simp
  · simp [Mle.fixVariablesInPlace, Mle.fixVariables, Mle.fixVariablesParallel,
      Mle.fixVariablesInPlaceParallel, Mle.fixHighVariablesInPlace, Mle.fixHighVariables, h]

example : (⟨2, [(5 : ℚ), 7, 11, 13]⟩ : Mle ℚ).fixVariablesInPlaceParallel [2, 3]
    = (⟨2, [(5 : ℚ), 7, 11, 13]⟩ : Mle ℚ).fixVariables [2, 3] :=
  (C02_variants_agree _ (by decide) _).2.2.1

/-- Two tables of length `2^n` with the same multilinear extension at every point are equal. -/
theorem table_ext (n : ℕ) (t t' : List F) (ht : t.length = 2 ^ n) (ht' : t'.length = 2 ^ n)
    (h : ∀ r : List F, r.length = n → mle t r = mle t' r) : t = t' := by
  apply list_ext_getD 0 _ _ (by omega)
  intro j hj
  rw [ht] at hj
  have := h (bitsPoint n j) (bitsPoint_length n j)
  rwa [mle_bitsPoint t n j hj, mle_bitsPoint t' n j hj] at this

/-- C02 (low and high fixings commute): fixing low variables at `p` then high variables at `q` gives
the same table as high first, then low. -/
theorem C02_low_high_commute (m : Mle F) (hm : m.evals.length = 2 ^ m.numVars) (p q : List F)
    (h : p.length + q.length ≤ m.numVars) :
    (m.fixVariables p).bind (fun m' => m'.fixHighVariables q)
      = (m.fixHighVariables q).bind (fun m' => m'.fixVariables p) := by
  have hp : p.length ≤ m.numVars := by omega
  have hq : q.length ≤ m.numVars := by omega
  have hl := fixLow_length m.evals p m.numVars hm hp
  have hh := fixHigh_length m.evals q.reverse m.numVars hm (by simpa using hq)
  rw [List.length_reverse] at hh
  rw [fixVariables_eq m hm p hp, fixHighVariables_eq m hm q hq, Option.bind_some, Option.bind_some,
    fixHighVariables_eq ⟨_, fixLow m.evals p⟩ hl q (by simp only; omega),
    fixVariables_eq ⟨_, fixHigh m.evals q.reverse⟩ hh p (by simp only; omega)]
  congr 1
  simp only [Mle.mk.injEq]
  refine ⟨by omega, ?_⟩
  apply table_ext (m.numVars - p.length - q.length)
  · rw [fixHigh_length _ _ _ hl (by simp; omega), List.length_reverse]
  · rw [fixLow_length _ _ _ hh (by omega)]; congr 1; omega
  intro r hr
  have hlow := mle_append (fixHigh m.evals q.reverse) p r (m.numVars - q.length) hh (by omega)
  have e1 := mle_fixHigh m.evals (p ++ r) q.reverse
    (by rw [hm, List.length_reverse, List.length_append, hr]; congr 1; omega)
  have e2 := mle_fixHigh (fixLow m.evals p) r q.reverse
    (by rw [hl, List.length_reverse, hr]; congr 1; omega)
  have e3 := mle_append m.evals p (r ++ q) m.numVars hm hp
  rw [List.reverse_reverse] at e1 e2
  rw [← hlow, ← e1, ← e2, List.append_assoc, e3]

example : ((⟨2, [(5 : ℚ), 7, 11, 13]⟩ : Mle ℚ).fixVariables [2]).bind (fun m' => m'.fixHighVariables [3])
    = ((⟨2, [(5 : ℚ), 7, 11, 13]⟩ : Mle ℚ).fixHighVariables [3]).bind (fun m' => m'.fixVariables [2]) :=
  C02_low_high_commute _ (by decide) [2] [3] (by decide)

/-- C03. The table built by `build_eq_x_r_vec`, for every number `2^nbits` of threads and every content
of the uninitialised buffers, has entry `i` equal to `∏_j (r_j if bit j of i else 1 - r_j)`. -/
theorem C03_eq_table_parallel (nbits : ℕ) (r gT : List F) (g : ℕ → List F)
    (hgT : gT.length = 2 ^ min nbits r.length) (hg : ∀ tid, (g tid).length = 2 ^ (r.length - nbits)) :
    buildEqPar nbits r gT g = (List.range (2 ^ r.length)).map
      fun i => ∏ j : Fin r.length, if i.testBit j then r[j] else 1 - r[j] :=
  buildEqPar_spec nbits r gT g hgT hg

example : buildEqPar 1 [(2 : ℚ), 3, 5] [9, 9] (fun _ => [7, 7, 7, 7]) =
    (List.range 8).map fun i => ∏ j : Fin 3, if i.testBit j then [(2 : ℚ), 3, 5][j] else 1 - [(2 : ℚ), 3, 5][j] :=
  C03_eq_table_parallel 1 [(2 : ℚ), 3, 5] [9, 9] (fun _ => [7, 7, 7, 7]) (by decide) (fun _ => rfl)

/-- C03. The sequential builder gives the same table. -/
theorem C03_eq_table_sequential (r g : List F) (hg : g.length = 2 ^ r.length) :
    buildEqSeq r g = (List.range (2 ^ r.length)).map
      fun i => ∏ j : Fin r.length, if i.testBit j then r[j] else 1 - r[j] :=
  buildEqSeq_spec r g hg

example : buildEqSeq [(2 : ℚ), 3] [9, 9, 9, 9] = [2, -4, -3, 6] := by decide +kernel

/-- C03. `compute_betas_eval` gives the same table. -/
theorem C03_compute_betas (r : List F) :
    computeBetas r = (List.range (2 ^ r.length)).map
      fun i => ∏ j : Fin r.length, if i.testBit j then r[j] else 1 - r[j] :=
  computeBetas_spec r

example : computeBetas [(2 : ℚ), 3] = [2, -4, -3, 6] := by decide +kernel

/-- C03. The entries of the table sum to one. -/
theorem C03_eq_table_sum (r g : List F) (hg : g.length = 2 ^ r.length) :
    (buildEqSeq r g).sum = 1 := by
  rw [buildEqSeq_spec r g hg, ← sum_chi r, sum_map_range]

example : (buildEqSeq [(2 : ℚ), 3] [9, 9, 9, 9]).sum = 1 := C03_eq_table_sum _ _ (by decide)

/-- C04. The three evaluation formulas agree with `∑_b eq(b,x)·eq(b,y)`; `eq_eval` and `eq_xy_eval`
panic on different lengths, `identity_eval` truncates. -/
theorem C04_eq_evaluations (x y : List F) (h : x.length = y.length) :
    let s := ∑ b ∈ Finset.range (2 ^ x.length), chi x b * chi y b
    eqEval x y = some s ∧ identityEval x y = s ∧ (x ≠ [] → eqXYEval x y = some s) := by
  intro s
  have hs : s = eqPoly x y := (eqPoly_eq_sum x y h).symm
  rw [hs]
  exact ⟨eqEval_eq x y h, identityEval_eq' x y h, fun hx => eqXYEval_eq x y hx h⟩

example : eqEval [(2 : ℚ), 3] [5, 7] = some (∑ b ∈ Finset.range (2 ^ 2), chi [(2 : ℚ), 3] b * chi [5, 7] b) :=
  (C04_eq_evaluations [(2 : ℚ), 3] [5, 7] rfl).1

/-- C04. On 0/1 points all of them test equality. -/
theorem C04_eq_on_bits (n b c : ℕ) (hb : b < 2 ^ n) (hc : c < 2 ^ n) :
    eqEval (bitsPoint n b : List F) (bitsPoint n c) = some (if b = c then 1 else 0) ∧
    identityEval (bitsPoint n b : List F) (bitsPoint n c) = (if b = c then 1 else 0) := by
  have hl : (bitsPoint n b : List F).length = (bitsPoint n c : List F).length := by simp [bitsPoint]
  rw [eqEval_eq _ _ hl, identityEval_eq' _ _ hl, eqPoly_bits n b c hb hc]
  exact ⟨rfl, rfl⟩

example : identityEval (bitsPoint 2 3 : List ℚ) (bitsPoint 2 1) = 0 :=
  (C04_eq_on_bits 2 3 1 (by decide) (by decide)).2

/-- C04. `identity_eval` on points of different lengths is the value on the common prefix; in
particular it is `1` as soon as one of the points is empty. -/
theorem C04_identity_eval_truncates (x y : List F) :
    identityEval x y = eqPoly (x.take (min x.length y.length)) (y.take (min x.length y.length)) ∧
    identityEval [] y = 1 := by
  exact ⟨identityEval_eq x y, by simp [identityEval]⟩

example : identityEval [(2 : ℚ), 3] [5] = 2 * 5 + (1 - 2) * (1 - 5) := by decide +kernel

/-- C04. `eq_eval` and `eq_xy_eval` reject points of different lengths. -/
theorem C04_length_mismatch_panics (x y : List F) (h : x.length ≠ y.length) :
    eqEval x y = none ∧ eqXYEval x y = none := by
  constructor
  · simp [eqEval, h]
  · simp [eqXYEval, h]

example : eqEval [(1 : ℚ)] [] = none := (C04_length_mismatch_panics [1] [] (by decide)).1

/-! ### C05: ranged views -/

/-- C05 (positive part). On the paths that consult the range, a ranged view behaves like the copied-out
sub-table: fixing at least one low or high variable. Missing from C05: `evaluate`, the parallel fixing
and fixing no variable, which ignore the range (see the negations below). -/
theorem C05_ranged_fix_partial (m : Mle F) (k n i : ℕ) (hm : m.evals.length = 2 ^ (k + n))
    (v : RangedMle F) (hv : m.getRanged (2 ^ n) i = some v) (hi : i < 2 ^ n) (p : List F)
    (hp : p ≠ []) (hpk : p.length ≤ k) :
    let sub : Mle F := ⟨k, (m.evals.drop (2 ^ k * i)).take (2 ^ k)⟩
    v.fixVariables p = sub.fixVariables p ∧ v.fixHighVariables p = sub.fixHighVariables p := by
  intro sub
  have hoff : m.evals.length / 2 ^ n = 2 ^ k := by
    rw [hm, pow_add, Nat.mul_div_cancel _ (by positivity)]
  have hv' : v = ⟨m, 2 ^ k * i, 2 ^ k, k⟩ := by
    unfold Mle.getRanged at hv
    rw [if_pos (by positivity)] at hv
    simp only [hoff, ceilLog2_pow] at hv
    rw [if_pos (by rw [hm]; exact Nat.pow_le_pow_right (by norm_num) (by omega))] at hv
    simpa using hv.symm
  subst hv'
  have hle : 2 ^ k * i + 2 ^ k ≤ m.evals.length := by
    rw [hm, pow_add, ← Nat.mul_succ]
    exact Nat.mul_le_mul_left _ hi
  have hsub : sub.evals.length = 2 ^ sub.numVars := by
    simp only [sub, List.length_take, List.length_drop]; omega
  have hview : (RangedMle.mk m (2 ^ k * i) (2 ^ k) k).view = sub.evals := rfl
  constructor
  · obtain ⟨a, ps, rfl⟩ := List.exists_cons_of_ne_nil hp
    simp only [List.length_cons] at hpk
    obtain ⟨k', rfl⟩ : ∃ k', k = k' + 1 := ⟨k - 1, by omega⟩
    have hl : (chunkFix a sub.evals).length = 2 ^ k' := chunkFix_pow_length a _ k' hsub
    rw [fixVariables_eq sub hsub _ (by simp only [sub, List.length_cons]; omega)]
    unfold RangedMle.fixVariables
    rw [if_pos (by simp only [List.length_cons]; omega)]
    simp only [hview, Mle.ofEvals, Nat.add_sub_cancel, hl, if_true, Option.bind_eq_bind,
      Option.bind_some]
    rw [fixVariablesInPlace_eq ⟨k', chunkFix a sub.evals⟩ hl ps (by simp only; omega)]
    simp only [fixLow_cons, sub, List.length_cons]
    congr 2; omega
  · rw [fixHighVariables_eq sub hsub _ (by simpa only [sub] using hpk)]
    unfold RangedMle.fixHighVariables
    rw [if_pos (by simpa using hpk)]
    have hr : p.length = p.reverse.length := by simp
    rw [hr] at hpk ⊢
    have hne : p.reverse ≠ [] := by simpa using hp
    clear hr
    generalize p.reverse = rev at hpk hne ⊢
    obtain ⟨a, ps, rfl⟩ := List.exists_cons_of_ne_nil hne
    simp only [List.length_cons] at hpk
    obtain ⟨k', rfl⟩ : ∃ k', k = k' + 1 := ⟨k - 1, by omega⟩
    have h2 : 2 ^ (k' + 1) / 2 = 2 ^ k' := by rw [pow_succ]; omega
    have h2' : 2 ^ (k' + 1) = 2 * 2 ^ k' := by rw [pow_succ]; ring
    have hlen : sub.evals.length = 2 ^ (k' + 1) := hsub
    have hl : (highFix a (2 ^ k') sub.evals).length = 2 ^ k' := by
      rw [highFix_length _ _ _ (by omega)]
    simp only [hview, h2, Mle.ofEvals, Nat.add_sub_cancel, hl, if_true, Option.bind_eq_bind,
      Option.bind_some]
    rw [fixHighVariablesInPlace_eq ⟨k', highFix a (2 ^ k') sub.evals⟩ hl ps.reverse
      (by simp only [List.length_reverse]; omega)]
    simp only [List.reverse_reverse, List.length_reverse, sub, List.length_cons]
    congr 2
    · omega
    · simp only [fixHigh, List.foldl_cons]
      rw [show ((m.evals.drop (2 ^ (k' + 1) * i)).take (2 ^ (k' + 1))).length / 2 = 2 ^ k' by
        rw [show ((m.evals.drop (2 ^ (k' + 1) * i)).take (2 ^ (k' + 1))).length = 2 ^ (k' + 1) from hsub]
        exact h2]

example : (⟨⟨2, [(5 : ℚ), 7, 11, 13]⟩, 2, 2, 1⟩ : RangedMle ℚ).fixVariables [3]
    = (⟨1, [(11 : ℚ), 13]⟩ : Mle ℚ).fixVariables [3] :=
  (C05_ranged_fix_partial (⟨2, [(5 : ℚ), 7, 11, 13]⟩ : Mle ℚ) 1 1 1 (by decide) _ (by rfl)
    (by decide) [3] (by decide) (by decide)).1

/-- C05 is false of the code: `evaluate` of a strict sub-range, at a point of the view's own length,
never returns (it panics on the length check of the whole table). -/
theorem C05_ranged_evaluate_false (m : Mle F) (k n i : ℕ) (hn : 0 < n)
    (hmv : m.numVars = k + n) (hm : m.evals.length = 2 ^ (k + n))
    (v : RangedMle F) (hv : m.getRanged (2 ^ n) i = some v) (p : List F) (hp : p.length = v.numVars) :
    v.evaluate p = none := by
  have hoff : m.evals.length / 2 ^ n = 2 ^ k := by
    rw [hm, pow_add, Nat.mul_div_cancel _ (by positivity)]
  have hv' : v = ⟨m, 2 ^ k * i, 2 ^ k, k⟩ := by
    unfold Mle.getRanged at hv
    rw [if_pos (by positivity)] at hv
    simp only [hoff, ceilLog2_pow] at hv
    rw [if_pos (by rw [hm]; exact Nat.pow_le_pow_right (by norm_num) (by omega))] at hv
    simpa using hv.symm
  subst hv'
  apply C01_evaluate_wrong_length
  simp only at hp ⊢
  omega

example : (⟨⟨2, [(5 : ℚ), 7, 11, 13]⟩, 2, 2, 1⟩ : RangedMle ℚ).evaluate [3] = none :=
  C05_ranged_evaluate_false (⟨2, [(5 : ℚ), 7, 11, 13]⟩ : Mle ℚ) 1 1 1 (by decide) rfl (by decide) _
    (by rfl) [3] (by decide)

/-- C05 is false of the code: fixing no variable of the view `[11, 13]` of `[5, 7, 11, 13]` returns the
whole table, and the parallel fixing works on the whole table as well. -/
theorem C05_ranged_fix_false :
    ∃ (m : Mle ℚ) (v : RangedMle ℚ), m.getRanged 2 1 = some v ∧ v.view = [11, 13] ∧
      v.fixVariables [] = some ⟨2, [5, 7, 11, 13]⟩ ∧
      v.fixVariablesParallel [0] = some ⟨1, [5, 11]⟩ :=
  ⟨⟨2, [5, 7, 11, 13]⟩, ⟨⟨2, [5, 7, 11, 13]⟩, 2, 2, 1⟩, by rfl, by decide, by decide, by
    decide +kernel⟩

end Props
