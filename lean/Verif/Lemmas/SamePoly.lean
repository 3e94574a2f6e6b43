import Verif.Lemmas.Product
import Verif.Lemmas.Terms
import Verif.Model.SamePoly
import Mathlib.Algebra.Order.BigOperators.Group.Finset

/-! Lemmas for the aggregation of claims on one polynomial and for entrywise products. -/

namespace Lemmas
open Spec Model Props

variable {F : Type} [Field F] [DecidableEq F]

theorem foldl_add_map {α : Type} (f : α → F) (l : List α) (a : F) :
    l.foldl (fun acc x => acc + f x) a = a + (l.map f).sum := by
  induction l generalizing a with
  | nil => simp
  | cons x l ih => rw [List.foldl_cons, ih, List.map_cons, List.sum_cons, add_assoc]

theorem getD_map_mul (a : F) (l : List F) (i : ℕ) : (l.map fun b => a * b).getD i 0 = a * l.getD i 0 := by
  rw [List.getD_eq_getElem?_getD, List.getElem?_map, List.getD_eq_getElem?_getD]
  cases l[i]? <;> simp

theorem mle_computeBetas (r p : List F) (h : r.length = p.length) : mle (computeBetas r) p = eqPoly r p := by
  rw [computeBetas_spec, mle_map_range r.length (chi r) p h.symm, eqPoly_eq_sum r p h]

theorem computeBetas_length (r : List F) : (computeBetas r).length = 2 ^ r.length := by
  rw [computeBetas_spec]; simp

theorem sum_list_mul (l : List F) (c : F) : l.sum * c = (l.map fun x => x * c).sum := by
  induction l with
  | nil => simp
  | cons x l ih => simp [add_mul, ih]

theorem finset_sum_list {α : Type} (s : Finset ℕ) (l : List α) (f : α → ℕ → F) :
    ∑ b ∈ s, (l.map fun x => f x b).sum = (l.map fun x => ∑ b ∈ s, f x b).sum := by
  induction l with
  | nil => simp
  | cons x l ih => simp [Finset.sum_add_distrib, ih]

theorem finalBeta_entry (as : List F) (claims : List (Claim F)) (n : ℕ)
    (h : ∀ c ∈ claims, c.point.length = n) (i : ℕ) (hi : i < 2 ^ n) :
    (((as.zip claims).map fun ac => (computeBetas ac.2.point).map fun b => ac.1 * b).foldl
      (fun acc b => acc + b.getD i 0) 0) = ((as.zip claims).map fun ac => ac.1 * chi ac.2.point i).sum := by
  rw [foldl_add_map (fun b : List F => b.getD i 0), zero_add, List.map_map]
  congr 1
  apply List.map_congr_left
  intro ac hac
  have hl : ac.2.point.length = n := h ac.2 (List.of_mem_zip hac).2
  simp only [Function.comp_apply]
  rw [getD_map_mul, computeBetas_spec, hl, List.getD_eq_getElem?_getD, List.getElem?_map, List.getElem?_range hi]
  rfl

/-- The aggregated beta table is the combination of the `eq` polynomials. -/
theorem mle_finalBeta (as : List F) (claims : List (Claim F)) (n : ℕ)
    (h : ∀ c ∈ claims, c.point.length = n) (p : List F) (hp : p.length = n) :
    mle (finalBeta n as claims) p = ((as.zip claims).map fun ac => ac.1 * eqPoly ac.2.point p).sum := by
  unfold finalBeta
  simp only
  rw [mle_map_range n _ p hp, Finset.sum_congr rfl (g := fun b =>
    ((as.zip claims).map fun ac => ac.1 * (chi ac.2.point b * chi p b)).sum)]
  · rw [finset_sum_list]
    congr 1
    apply List.map_congr_left
    intro ac hac
    have hl : ac.2.point.length = n := h ac.2 (List.of_mem_zip hac).2
    rw [eqPoly_eq_sum _ _ (hl.trans hp.symm), hl, Finset.mul_sum]
  · intro b hb
    rw [finalBeta_entry as claims n h b (Finset.mem_range.mp hb), sum_list_mul, List.map_map]
    congr 1
    apply List.map_congr_left
    intro ac _
    simp [mul_assoc]

/-- Summing against the aggregated beta table evaluates the polynomial at all points. -/
theorem sum_finalBeta (as : List F) (claims : List (Claim F)) (n : ℕ)
    (h : ∀ c ∈ claims, c.point.length = n) (poly : List F) :
    (cubeSum n fun pt => mle (finalBeta n as claims) pt * mle poly pt)
      = ((as.zip claims).map fun ac => ac.1 * mle poly ac.2.point).sum := by
  unfold cubeSum
  rw [Finset.sum_congr rfl (g := fun b =>
    ((as.zip claims).map fun ac => ac.1 * (poly.getD b 0 * chi ac.2.point b)).sum)]
  · rw [finset_sum_list]
    congr 1
    apply List.map_congr_left
    intro ac hac
    have hl : ac.2.point.length = n := h ac.2 (List.of_mem_zip hac).2
    rw [← Finset.mul_sum]
    unfold mle
    rw [hl]
  · intro b hb
    have hb' := Finset.mem_range.mp hb
    beta_reduce
    rw [mle_bitsPoint _ n b hb', mle_bitsPoint _ n b hb']
    unfold finalBeta
    simp only
    rw [List.getD_eq_getElem?_getD, List.getElem?_map, List.getElem?_range hb']
    simp only [Option.map_some, Option.getD_some]
    rw [finalBeta_entry as claims n h b hb', sum_list_mul, List.map_map]
    congr 1
    apply List.map_congr_left
    intro ac _
    simp only [Function.comp_apply]
    ring

theorem sampleN_length (T : Transcript F) (k : ℕ) : ∀ ts : T.State, (T.sampleN k ts).1.length = k := by
  induction k with
  | zero => intro ts; rfl
  | succ k ih => intro ts; simp [Transcript.sampleN, ih]

/-- Few challenge vectors annihilate a nonzero vector. -/
theorem count_linear [Fintype F] (k : ℕ) (d : Fin k → F) (i : Fin k) (hi : d i ≠ 0) :
    (Finset.univ.filter fun a : Fin k → F => ∑ j, a j * d j = 0).card * Fintype.card F ≤ Fintype.card F ^ k := by
  have hcard : Fintype.card F ^ k = (Finset.univ : Finset (Fin k → F)).card := by simp
  rw [hcard, ← Finset.card_univ (α := F), ← Finset.card_product]
  apply Finset.card_le_card_of_injOn (fun x => Function.update x.1 i (x.1 i + x.2))
  · intro x _; simp
  · have hs : ∀ (a : Fin k → F) (t : F), (∑ j, a j * d j = 0) →
        ∑ j, (Function.update a i (a i + t)) j * d j = t * d i := by
      intro a t ha
      have h1 : ∀ j, (Function.update a i (a i + t)) j * d j = a j * d j + if j = i then t * d i else 0 := by
        intro j
        by_cases hj : j = i
        · subst hj; simp [add_mul]
        · simp [hj]
      simp only [h1, Finset.sum_add_distrib, ha, zero_add]
      simp
    intro x hx y hy hxy
    simp only [Finset.coe_product, Set.mem_prod, Finset.mem_coe, Finset.mem_filter, Finset.mem_univ, true_and,
      and_true] at hx hy
    simp only at hxy
    have ht : x.2 = y.2 := by
      have h1 := hs x.1 x.2 hx
      rw [hxy, hs y.1 y.2 hy] at h1
      exact (mul_right_cancel₀ hi h1).symm
    have ha : x.1 = y.1 := by
      funext j
      by_cases hj : j = i
      · subst hj
        have := congrFun hxy j
        simp only [Function.update_self, ht] at this
        exact add_right_cancel this
      · have := congrFun hxy j
        simpa [hj] using this
    exact Prod.ext ha ht

theorem zip_diff_sum (poly : List F) : ∀ (as : List F) (claims : List (Claim F)), as.length = claims.length →
      ((as.zip claims).map fun ac => ac.1 * (ac.2.eval - mle poly ac.2.point)).sum
        = (((claims.map Claim.eval).zip as).map fun p => p.1 * p.2).sum
          - ((as.zip claims).map fun ac => ac.1 * mle poly ac.2.point).sum := by
  intro as
  induction as with
  | nil => intro claims h; cases claims <;> simp at h ⊢
  | cons a as ih =>
    intro claims h
    cases claims with
    | nil => simp at h
    | cons c claims =>
      simp only [List.zip_cons_cons, List.map_cons, List.sum_cons]
      rw [ih claims (by simpa using h)]
      ring

theorem zip_ofFn_sum {α : Type} (f : α → F) (l : List α) (a : Fin l.length → F) :
    (((List.ofFn a).zip l).map fun x => x.1 * f x.2).sum = ∑ j, a j * f l[j] := by
  induction l with
  | nil => simp
  | cons x l ih =>
    have := ih (fun j => a j.succ)
    rw [List.ofFn_succ, List.zip_cons_cons, List.map_cons, List.sum_cons, this]
    exact (Fin.sum_univ_succ (n := l.length) (fun j : Fin (l.length + 1) => a j * f (x :: l)[j])).symm

theorem tape_sampleN (as rest : List F) : (tape F).sampleN as.length (as ++ rest) = (as, rest) := by
  induction as with
  | nil => rfl
  | cons a as ih =>
    simp only [List.length_cons, Transcript.sampleN]
    have : (a :: as ++ rest).tail = as ++ rest := rfl
    rw [this, ih]
    rfl

/-- Against the tape of challenges the sumcheck verifier returns the tape as its point. -/
theorem verify_tape_point (claimed : F) (proof : IOPProof F) (D n : ℕ) (r : Fin n → F) (sc : SubClaim F) (ts' : List F)
    (h : verify (tape F) claimed proof D n (List.ofFn r) = some (sc, ts')) : sc.point = List.ofFn r := by
  have hloop : ∀ (m i : ℕ) (s : List F) (ms : List (List F)) (cs s' : List F), s.length = m →
      verifyLoop (tape F) proof.proofs m i s = some (ms, cs, s') → cs = s := by
    intro m
    induction m with
    | zero =>
      intro i s ms cs s' hs h
      simp only [verifyLoop, Option.some.injEq, Prod.mk.injEq] at h
      rw [← h.2.1, List.length_eq_zero_iff.mp hs]
    | succ m ih =>
      intro i s ms cs s' hs h
      cases s with
      | nil => simp at hs
      | cons c s =>
        simp only [verifyLoop, Option.bind_eq_bind, Option.bind_eq_some_iff] at h
        obtain ⟨msg, hm, ⟨ms', cs', s''⟩, hr, h⟩ := h
        have htape : ∀ (l s : List F), (tape F).appendExts s l = s := by
          intro l
          induction l with
          | nil => intro s; rfl
          | cons a l ihl => intro s; exact ihl s
        rw [htape] at hr h
        simp only [Option.some.injEq, Prod.mk.injEq, List.headD_cons] at h
        rw [← h.2.1, ih _ _ _ _ _ (by simpa using hs) hr]
        rfl
  unfold verify at h
  split at h
  · rename_i h0
    subst h0
    simp only [Option.some.injEq, Prod.mk.injEq] at h
    rw [← h.1]
    simp
  · simp only [Option.bind_eq_bind, Option.bind_eq_some_iff, Option.some.injEq, Prod.mk.injEq] at h
    obtain ⟨⟨ms, cs, s'⟩, hl, sc', hc, rfl, rfl⟩ := h
    have hcs := hloop n 0 (List.ofFn r) ms cs s' (by simp) hl
    unfold checkSubclaim at hc
    split at hc
    · simp at hc
    simp only [Option.bind_eq_bind, Option.bind_eq_some_iff, Option.some.injEq] at hc
    obtain ⟨_, _, _, _, _, _, rfl⟩ := hc
    exact hcs

/-- Summing two tables against the beta table evaluates their entrywise product. -/
theorem sum_beta_product (r : List F) (v1 v2 : List F) (h1 : v1.length = 2 ^ r.length) (h2 : v2.length = 2 ^ r.length) :
    (cubeSum r.length fun pt => eqPoly r pt * mle v1 pt * mle v2 pt) = mle (List.zipWith (· * ·) v1 v2) r := by
  unfold cubeSum
  conv_rhs => unfold mle
  apply Finset.sum_congr rfl
  intro b hb
  have hb' := Finset.mem_range.mp hb
  beta_reduce
  rw [← mle_computeBetas r _ (bitsPoint_length r.length b).symm, mle_bitsPoint _ _ b hb', mle_bitsPoint _ _ b hb',
    mle_bitsPoint _ _ b hb', computeBetas_spec, List.getD_eq_getElem _ _ (by simpa using hb'),
    List.getD_eq_getElem _ _ (by omega), List.getD_eq_getElem _ _ (by omega),
    List.getD_eq_getElem _ _ (by rw [List.length_zipWith]; omega)]
  simp
  ring

/-- The virtual polynomial of one product of three different tables. -/
theorem buildVP_three (heap : ℕ → Mle F) (n : ℕ) (h : ∀ a, (heap a).numVars = n) :
    buildVP heap n [(1, [0, 1, 2])] = some ⟨3, n, [(1, [0, 1, 2])], [0, 1, 2], [(2, 2), (1, 1), (0, 0)]⟩ := by
  simp [buildVP, VirtualPoly.addMleList, VirtualPoly.new, VirtualPoly.internList, VirtualPoly.intern, h,
    List.lookup]

/-- As `any_sum`, for messages of degree three. -/
theorem any_sum3 (T : Transcript F) (n : ℕ) (hchar : ∀ k : ℕ, 0 < k → k ≤ 3 → (k : F) ≠ 0) (s : F) (ts : T.State) :
    ∃ (proof : IOPProof F) (ts' : T.State), proof.point.length = n ∧
      ((∀ r ∈ proof.point, ∀ k : ℕ, k ≤ 3 → r ≠ (k : F)) →
        verify T s proof 3 n ts = some (⟨proof.point, s / 2 ^ n⟩, ts')) := by
  have h2 : (2 : F) ≠ 0 := by have := hchar 2 (by omega) (by omega); exact_mod_cast this
  let heap : ℕ → Mle F := fun a => ⟨n, List.replicate (2 ^ n) (if a = 0 then s / 2 ^ n else 1)⟩
  obtain ⟨proof, ts', -, hl, hv⟩ := proveTerms_spec T 1 one_pos heap n (by intro a; simp [heap]) [(1, [0, 1, 2])]
    (by simp) (by simp) _ (buildVP_three heap n (fun _ => rfl)) hchar ts
  have hval : ∀ pt : List F, pt.length = n → termsVal heap [(1, [0, 1, 2])] pt = s / 2 ^ n := by
    intro pt hpt
    simp [termsVal, heap, mle_replicate n _ _ hpt]
  refine ⟨proof, ts', hl, fun hch => ?_⟩
  have h := hv hch
  have hs : cubeSum n (termsVal heap [(1, [0, 1, 2])]) = s := by
    unfold cubeSum
    rw [Finset.sum_congr rfl (g := fun _ => s / 2 ^ n)]
    · rw [Finset.sum_const, Finset.card_range, nsmul_eq_mul]
      push_cast
      field_simp
    · intro b _
      exact hval _ (bitsPoint_length n b)
  rw [hs, hval _ hl] at h
  exact h

theorem betaEval_eq (r pt : List F) (h : r.length = pt.length) :
    ((Mle.ofEvals r.length (computeBetas r)).bind fun m => m.evaluate pt) = some (eqPoly r pt) := by
  rw [Mle.ofEvals, if_pos (computeBetas_length r), Option.bind_some,
    evaluate_eq ⟨r.length, computeBetas r⟩ (computeBetas_length r) pt h.symm, mle_computeBetas r pt h]

end Lemmas
