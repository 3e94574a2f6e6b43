import Verif.Lemmas.SamePoly

/-!
C40: aggregation of several claims on one polynomial. C62: entrywise products.
-/

namespace Props
open Spec Model Lemmas

variable {F : Type} [Field F] [DecidableEq F]

/-! ### C40 -/

/-- C40, honest proofs: for every polynomial and true claims about it the prover produces a proof, which the
verifier accepts (unless a challenge is 0, 1 or 2), returning a true claim. -/
theorem C40_same_poly_complete (T : Transcript F) (threads : ℕ) (ht : 0 < threads)
    (hchar : ∀ k : ℕ, 0 < k → k ≤ 2 → (k : F) ≠ 0) (n : ℕ) (poly : List F) (hpoly : poly.length = 2 ^ n)
    (claims : List (Claim F)) (hlen : ∀ c ∈ claims, c.point.length = n)
    (htrue : ∀ c ∈ claims, c.eval = mle poly c.point) (ts : T.State) :
    ∃ proof ts', proveSamePoly threads T n poly claims ts = some (proof, ts') ∧
      proof.sumcheck.point.length = n ∧ proof.evals[1]? = some (mle poly proof.sumcheck.point) ∧
      ((∀ c ∈ proof.sumcheck.point, ∀ k : ℕ, k ≤ 2 → c ≠ (k : F)) →
        verifySamePoly T n claims proof ts
          = some (⟨proof.sumcheck.point, mle poly proof.sumcheck.point⟩, ts')) := by
  have hall : (claims.all fun c => decide (c.point.length = n)) = true := by
    simpa [List.all_eq_true] using hlen
  rcases hs : T.sampleN claims.length ts with ⟨as, ts1⟩
  have hasl : as.length = claims.length := by
    have := sampleN_length T claims.length ts
    rwa [hs] at this
  have hbl : (finalBeta n as claims).length = 2 ^ n := by simp [finalBeta]
  obtain ⟨proof, ts', h1, h2, h3⟩ := proveProduct_spec T threads ht n hchar (finalBeta n as claims) poly hbl hpoly ts1
  refine ⟨⟨proof, [mle (finalBeta n as claims) proof.point, mle poly proof.point]⟩, ts', ?_, h2, rfl, ?_⟩
  · unfold proveSamePoly
    rw [if_pos hall]
    simp [hs, Mle.ofEvals, hpoly, h1]
  · intro hch
    unfold verifySamePoly
    rw [if_pos hall]
    have hy : aggregatedRlc (claims.map Claim.eval) as
        = some (cubeSum n fun pt => mle (finalBeta n as claims) pt * mle poly pt) := by
      unfold aggregatedRlc
      rw [if_pos (by simp [hasl]), sum_finalBeta as claims n hlen poly]
      congr 1
      clear hs h1 h3 hch hbl
      revert as
      induction claims with
      | nil => intro as _; cases as <;> simp
      | cons c claims ih =>
        intro as hasl
        cases as with
        | nil => simp
        | cons a as =>
          have := ih (fun c hc => hlen c (List.mem_cons_of_mem _ hc)) (fun c hc => htrue c (List.mem_cons_of_mem _ hc))
            (by simp [List.all_eq_true]; exact fun c hc => hlen c (List.mem_cons_of_mem _ hc)) as (by simpa using hasl)
          simp [this, htrue c (by simp), mul_comm]
    have hcomp : (as.zip claims).foldl (fun acc ac => acc + ac.1 * identityEval ac.2.point proof.point) 0
        = mle (finalBeta n as claims) proof.point := by
      rw [foldl_add_map (fun ac : F × Claim F => ac.1 * identityEval ac.2.point proof.point), zero_add,
        mle_finalBeta as claims n hlen proof.point h2]
      congr 1
      apply List.map_congr_left
      intro ac hac
      rw [identityEval_eq' _ _ ((hlen ac.2 (List.of_mem_zip hac).2).trans h2.symm)]
    simp [hs, hy, h3 hch, hcomp]

/-- C40, soundness. Partial: the theorem needs the point in the proof to be the point of the sumcheck's challenges,
which the verifier does not check (`C40_prover_point_false`). If the verifier accepts and the claim it returns is
true, then the claims are true in the random combination given by the challenges read first, or the prover was
lucky in some round. -/
theorem C40_same_poly_sound_partial (T : Transcript F) (hchar : ∀ k : ℕ, 0 < k → k ≤ 2 → (k : F) ≠ 0) (n : ℕ)
    (poly : List F) (claims : List (Claim F)) (proof : SamePolyProof F) (ts ts' : T.State) (claim : Claim F)
    (h : verifySamePoly T n claims proof ts = some (claim, ts'))
    (htrue : claim.eval = mle poly claim.point)
    (hpt : ∀ claimed sc ts'', verify T claimed proof.sumcheck 2 n (T.sampleN claims.length ts).2 = some (sc, ts'') →
      proof.sumcheck.point = sc.point) :
    claim.point.length = n ∧
    ((((T.sampleN claims.length ts).1.zip claims).map fun ac => ac.1 * (ac.2.eval - mle poly ac.2.point)).sum = 0 ∨
      LuckyRound 2 n (fun pt => (((T.sampleN claims.length ts).1.zip claims).map
        fun ac => ac.1 * eqPoly ac.2.point pt).sum * mle poly pt) proof.sumcheck.proofs claim.point) := by
  unfold verifySamePoly at h
  split at h
  swap
  · simp at h
  rename_i hall
  have hlen : ∀ c ∈ claims, c.point.length = n := by simpa [List.all_eq_true] using hall
  rcases hs : T.sampleN claims.length ts with ⟨as, ts1⟩
  have hasl : as.length = claims.length := by
    have := sampleN_length T claims.length ts
    rwa [hs] at this
  rw [hs] at h hpt
  simp only [Option.bind_eq_bind, Option.bind_eq_some_iff] at h
  obtain ⟨y, hy, ⟨sub, ts2⟩, hv, given, hg, h⟩ := h
  split at h
  swap
  · simp at h
  rename_i hcomp
  simp only [Option.bind_eq_some_iff] at h
  obtain ⟨e1, he1, h⟩ := h
  split at h
  swap
  · simp at h
  rename_i hprod
  simp only [Option.some.injEq, Prod.mk.injEq] at h
  obtain ⟨rfl, rfl⟩ := h
  have hp := hpt _ _ _ hv
  simp only at htrue ⊢
  have hscl : sub.point.length = n := by
    by_cases hc : y = cubeSum n fun _ => 0
    · exact (accepted_sound T 2 n hchar (fun _ => sub.expected) y proof.sumcheck ts1 _ sub hv rfl).1
    · exact (accepted_sound T 2 n hchar (fun _ => sub.expected) y proof.sumcheck ts1 _ sub hv rfl).1
  have hexp : sub.expected = (fun pt => ((as.zip claims).map
        fun ac => ac.1 * eqPoly ac.2.point pt).sum * mle poly pt) sub.point := by
    simp only
    rw [← hprod, ← hcomp, htrue, ← hp]
    congr 1
    rw [foldl_add_map (fun ac : F × Claim F => ac.1 * identityEval ac.2.point proof.sumcheck.point), zero_add]
    congr 1
    apply List.map_congr_left
    intro ac hac
    rw [identityEval_eq' _ _ ((hlen ac.2 (List.of_mem_zip hac).2).trans (by rw [hp, hscl]))]
  refine ⟨by rw [hp, hscl], ?_⟩
  obtain ⟨-, k2⟩ := accepted_sound T 2 n hchar (fun pt => ((as.zip claims).map
        fun ac => ac.1 * eqPoly ac.2.point pt).sum * mle poly pt) y proof.sumcheck ts1 _ sub hv hexp
  rw [← hp] at k2
  refine k2.imp (fun k => ?_) id
  have hsum : (cubeSum n fun pt => ((as.zip claims).map fun ac => ac.1 * eqPoly ac.2.point pt).sum * mle poly pt)
      = ((as.zip claims).map fun ac => ac.1 * mle poly ac.2.point).sum := by
    rw [← sum_finalBeta as claims n hlen poly]
    apply cubeSum_congr
    intro pt hp'
    rw [mle_finalBeta as claims n hlen pt hp']
  rw [hsum] at k
  unfold aggregatedRlc at hy
  rw [if_pos (by simp [hasl])] at hy
  simp only [Option.some.injEq] at hy
  rw [← hy] at k
  rw [zip_diff_sum poly as claims hasl, k, sub_self]

open Classical in
/-- C40, counting. Partial for the same reason: the prover is one that puts the true challenges into the proof.
If at least one of the claims is false then, whatever strategy the prover follows (messages chosen from the
combination challenges `a` and the sumcheck challenges seen so far, evaluations from all of them), at most a
fraction `(1 + 2n)/|F|` of all challenges `(a, r)` makes the verifier accept with a true claim. -/
theorem C40_same_poly_soundness_error_partial [Fintype F] (hchar : ∀ k : ℕ, 0 < k → k ≤ 2 → (k : F) ≠ 0) (n : ℕ)
    (poly : List F) (claims : List (Claim F))
    (hfalse : ∃ c ∈ claims, c.eval ≠ mle poly c.point)
    (σ : (Fin claims.length → F) → List F → List F)
    (τ : (Fin claims.length → F) → (Fin n → F) → List F) :
    (Finset.univ.filter fun x : (Fin claims.length → F) × (Fin n → F) => ∃ claim ts',
      verifySamePoly (tape F) n claims
        ⟨⟨List.ofFn x.2, (List.range n).map fun i => σ x.1 ((List.ofFn x.2).take i)⟩, τ x.1 x.2⟩
        (List.ofFn x.1 ++ List.ofFn x.2) = some (claim, ts') ∧
      claim.eval = mle poly claim.point).card * Fintype.card F
      ≤ (1 + n * 2) * (Fintype.card F ^ claims.length * Fintype.card F ^ n) := by
  by_cases hlen : ∀ c ∈ claims, c.point.length = n
  swap
  · rw [Finset.card_eq_zero.mpr]
    · simp
    · rw [Finset.filter_eq_empty_iff]
      rintro x - ⟨claim, ts', h, -⟩
      unfold verifySamePoly at h
      rw [if_neg (by simpa [List.all_eq_true] using hlen)] at h
      simp at h
  obtain ⟨c0, hc0, hne⟩ := hfalse
  obtain ⟨i0, hi0, rfl⟩ := List.mem_iff_getElem.mp hc0
  let d : Fin claims.length → F := fun j => (claims[j]).eval - mle poly (claims[j]).point
  let g : (Fin claims.length → F) → List F → F := fun a pt =>
    (((List.ofFn a).zip claims).map fun ac => ac.1 * eqPoly ac.2.point pt).sum * mle poly pt
  let y : (Fin claims.length → F) → F := fun a =>
    (((claims.map Claim.eval).zip (List.ofFn a)).map fun p => p.1 * p.2).sum
  have hdiff : ∀ a, y a - cubeSum n (g a) = ∑ j, a j * d j := by
    intro a
    have hsum : cubeSum n (g a) = (((List.ofFn a).zip claims).map fun ac => ac.1 * mle poly ac.2.point).sum := by
      rw [← sum_finalBeta (List.ofFn a) claims n hlen poly]
      apply cubeSum_congr
      intro pt hp'
      rw [mle_finalBeta (List.ofFn a) claims n hlen pt hp']
    rw [hsum, ← zip_diff_sum poly (List.ofFn a) claims (by simp)]
    exact zip_ofFn_sum (fun c : Claim F => c.eval - mle poly c.point) claims a
  have hdeg : ∀ a, IndivDegreeLE n 2 (g a) := by
    intro a
    have hp := product_degree n (finalBeta n (List.ofFn a) claims) poly [] [] [] []
    intro pre post hpp
    obtain ⟨P, hP1, hP2⟩ := hp pre post hpp
    refine ⟨P, hP1, fun x => ?_⟩
    rw [← hP2 x]
    simp only [g, List.nil_append, List.append_nil]
    rw [mle_finalBeta (List.ofFn a) claims n hlen _ (by simp; omega)]
  -- bad challenges: the combination hides the false claim, or the sumcheck is lucky
  let A : Finset ((Fin claims.length → F) × (Fin n → F)) :=
    (Finset.univ.filter fun a : Fin claims.length → F => ∑ j, a j * d j = 0) ×ˢ Finset.univ
  let B : Finset ((Fin claims.length → F) × (Fin n → F)) := Finset.univ.filter fun x =>
    y x.1 ≠ cubeSum n (g x.1) ∧ ∃ sc, playSumcheck (σ x.1) (y x.1) 2 n x.2 = some sc ∧ sc.expected = g x.1 sc.point
  have hA : A.card * Fintype.card F ≤ Fintype.card F ^ claims.length * Fintype.card F ^ n := by
    rw [Finset.card_product]
    have := count_linear claims.length d ⟨i0, hi0⟩ (by simpa [d, sub_eq_zero] using hne)
    calc _ = ((Finset.univ.filter fun a : Fin claims.length → F => ∑ j, a j * d j = 0).card * Fintype.card F)
          * (Finset.univ : Finset (Fin n → F)).card := by ring
      _ ≤ _ := by
        apply Nat.mul_le_mul this
        simp
  have hB : B.card * Fintype.card F ≤ n * 2 * (Fintype.card F ^ claims.length * Fintype.card F ^ n) := by
    have hcard : B.card = ∑ a : Fin claims.length → F, (Finset.univ.filter fun r : Fin n → F =>
        y a ≠ cubeSum n (g a) ∧ ∃ sc, playSumcheck (σ a) (y a) 2 n r = some sc ∧ sc.expected = g a sc.point).card := by
      simp only [B, Finset.card_filter]
      rw [Fintype.sum_prod_type]
    rw [hcard, Finset.sum_mul]
    calc _ ≤ ∑ a : Fin claims.length → F, n * 2 * Fintype.card F ^ n := by
          apply Finset.sum_le_sum
          intro a _
          by_cases hya : y a = cubeSum n (g a)
          · rw [Finset.card_eq_zero.mpr]
            · simp
            · rw [Finset.filter_eq_empty_iff]
              rintro r - ⟨h, -⟩
              exact h hya
          · refine le_trans (Nat.mul_le_mul_right _ (Finset.card_le_card ?_))
              (C11_soundness_error 2 n hchar (g a) (hdeg a) (y a) hya (σ a))
            intro r hr
            simp only [Finset.mem_filter, Finset.mem_univ, true_and] at hr ⊢
            exact hr.2
      _ = _ := by
          rw [Finset.sum_const, Finset.card_univ, Fintype.card_fun, Fintype.card_fin, smul_eq_mul]
          ring
  refine le_trans (Nat.mul_le_mul_right _ (le_trans (Finset.card_le_card (t := A ∪ B) ?_) (Finset.card_union_le A B))) ?_
  · intro x hx
    obtain ⟨a, r⟩ := x
    simp only [Finset.mem_filter, Finset.mem_univ, true_and] at hx
    obtain ⟨claim, ts', h, htrue⟩ := hx
    rw [Finset.mem_union]
    by_cases hza : ∑ j, a j * d j = 0
    · left
      simp [A, hza]
    right
    have hsa := tape_sampleN (List.ofFn a) (List.ofFn r)
    rw [List.length_ofFn] at hsa
    unfold verifySamePoly at h
    rw [if_pos (by simpa [List.all_eq_true] using hlen), hsa] at h
    simp only [Option.bind_eq_bind, Option.bind_eq_some_iff] at h
    obtain ⟨y', hy', ⟨sub, ts2⟩, hv, given, hg, h⟩ := h
    have hyy : y' = y a := by
      unfold aggregatedRlc at hy'
      rw [if_pos (by simp)] at hy'
      simpa using hy'.symm
    subst hyy
    split at h
    swap
    · simp at h
    rename_i hcomp
    simp only [Option.bind_eq_some_iff] at h
    obtain ⟨e1, he1, h⟩ := h
    split at h
    swap
    · simp at h
    rename_i hprod
    simp only [Option.some.injEq, Prod.mk.injEq] at h
    obtain ⟨rfl, rfl⟩ := h
    simp only [B, Finset.mem_filter, Finset.mem_univ, true_and]
    have hyne : y a ≠ cubeSum n (g a) := by
      intro h0
      apply hza
      rw [← hdiff a, h0, sub_self]
    refine ⟨hyne, sub, ?_, ?_⟩
    · have hv' : verify (tape F) (y a) ⟨[], (List.range n).map fun i => σ a ((List.ofFn r).take i)⟩ 2 n
          (List.ofFn r) = some (sub, ts2) := hv
      unfold playSumcheck
      rw [hv']
      rfl
    have hsp : sub.point = List.ofFn r := verify_tape_point _ _ _ _ _ _ _ hv
    rw [← hprod, ← hcomp]
    simp only at htrue
    simp only [g]
    rw [htrue, hsp]
    congr 1
    rw [foldl_add_map (fun ac : F × Claim F => ac.1 * identityEval ac.2.point (List.ofFn r)), zero_add]
    congr 1
    apply List.map_congr_left
    intro ac hac
    rw [identityEval_eq' _ _ ((hlen ac.2 (List.of_mem_zip hac).2).trans (by simp))]
  · rw [add_mul, add_mul, one_mul]
    exact Nat.add_le_add hA hB

/-- C40 fails without the point hypothesis. For the polynomial with table `(0, 1)` (that is `f(X) = X`) and against
every transcript, the false claim `f(0) = -4` is accepted, with the true claim `f(2) = 2` as result, whenever the
sumcheck's challenge is none of 0, 1, 2: the prover sends a constant round polynomial and then picks the point. -/
theorem C40_prover_point_false (T : Transcript F) (hchar : ∀ k : ℕ, 0 < k → k ≤ 2 → (k : F) ≠ 0) (ts : T.State) :
    ∃ sumcheck : IOPProof F, ∃ challenge : F, sumcheck.point = [2] ∧
      ((∀ k : ℕ, k ≤ 2 → challenge ≠ (k : F)) →
        ∃ (evals : List F) (ts' : T.State),
          verifySamePoly T 1 [⟨[0], -4⟩] ⟨sumcheck, evals⟩ ts = some (⟨[2], 2⟩, ts') ∧
          (2 : F) = mle [0, 1] [2] ∧ (-4 : F) ≠ mle [0, 1] [0]) := by
  have h2 : (2 : F) ≠ 0 := by have := hchar 2 (by omega) le_rfl; exact_mod_cast this
  rcases hs : T.sample ts with ⟨a, ts1⟩
  obtain ⟨sc, ts', hl, hv⟩ := any_sum T 1 hchar (-4 * a) ts1
  obtain ⟨c, hc⟩ := List.length_eq_one_iff.mp hl
  refine ⟨⟨[2], sc.proofs⟩, c, rfl, fun hch => ⟨[-a, 2], ts', ?_, ?_, ?_⟩⟩
  · have hv' := hv (by rw [hc]; simpa using hch)
    have hv'' : verify T (-4 * a) ⟨[2], sc.proofs⟩ 2 1 ts1 = some (⟨sc.point, -4 * a / 2 ^ 1⟩, ts') := by
      rw [← hv']; rfl
    have e1 : -a * 2 = -4 * a / 2 ^ 1 := by field_simp; ring
    have e2 : a * (1 - 2) = -a := by ring
    simp [verifySamePoly, Transcript.sampleN, hs, aggregatedRlc, identityEval]
    simp only [neg_mul] at hv'' e1
    simp [hv'', e1, e2]
  · simp [mle, Finset.sum_range_succ, chi]
  · simp [mle, Finset.sum_range_succ, chi]
    have : (4 : F) = 2 * 2 := by norm_num
    rw [this]
    exact mul_ne_zero h2 h2

/-- Instances: the attack with concrete challenges, and two true claims about the table `(1, 2, 3, 5)`. -/
example : verifySamePoly (tape ℚ) 1 [⟨[0], -4⟩] ⟨⟨[2], [[-22, -22, -22]]⟩, [-11, 2]⟩ [11, 7] = some (⟨[2], 2⟩, []) := by
  decide +kernel

example : ((proveSamePoly 2 (tape ℚ) 2 [1, 2, 3, 5] [⟨[3, 4], 24⟩, ⟨[5, 6], 48⟩] [10, 20, 7, 8]).bind fun x =>
    verifySamePoly (tape ℚ) 2 [⟨[3, 4], 24⟩, ⟨[5, 6], 48⟩] x.1 [10, 20, 7, 8])
    = some (⟨[7, 8], mle [1, 2, 3, 5] [7, 8]⟩, []) ∧ mle [1, 2, 3, 5] [(3 : ℚ), 4] = 24 ∧
    mle [1, 2, 3, 5] [(5 : ℚ), 6] = 48 := by
  refine ⟨?_, ?_, ?_⟩ <;> decide +kernel

/-! ### C62 -/

/-- C62, honest proofs: for every pair of tables of the same size and a true claim about their entrywise product
the prover produces a proof, which the verifier accepts (unless a challenge is one of 0 to 3) if it is given the
true value of the second table at the proof's point, and the returned claim about the first table is true. -/
theorem C62_hadamard_complete (T : Transcript F) (threads : ℕ) (ht : 0 < threads)
    (hchar : ∀ k : ℕ, 0 < k → k ≤ 3 → (k : F) ≠ 0) (v1 v2 r : List F) (h1 : v1.length = 2 ^ r.length)
    (h2 : v2.length = 2 ^ r.length) (ts : T.State) :
    ∃ proof ts', proveHadamard threads T r.length ⟨r, mle (List.zipWith (· * ·) v1 v2) r⟩ v1 v2 ts
        = some (proof, ts') ∧ proof.sumcheck.point.length = r.length ∧
      ((∀ c ∈ proof.sumcheck.point, ∀ k : ℕ, k ≤ 3 → c ≠ (k : F)) →
        verifyHadamard T r.length proof ⟨r, mle (List.zipWith (· * ·) v1 v2) r⟩ (mle v2 proof.sumcheck.point) ts
          = some (⟨proof.sumcheck.point, mle v1 proof.sumcheck.point⟩, ts')) := by
  let heap : ℕ → Mle F := fun a => if a = 0 then ⟨r.length, v1⟩ else if a = 1 then ⟨r.length, v2⟩
    else ⟨r.length, computeBetas r⟩
  have htab : ∀ a, (heap a).numVars = r.length ∧ (heap a).evals.length = 2 ^ r.length := by
    intro a
    simp only [heap]
    split
    · exact ⟨rfl, h1⟩
    · split
      · exact ⟨rfl, h2⟩
      · exact ⟨rfl, computeBetas_length r⟩
  obtain ⟨proof, ts', hp, hl, hv⟩ := proveTerms_spec T threads ht heap r.length htab [(1, [0, 1, 2])]
    (by simp) (by simp) _ (buildVP_three heap r.length (fun a => (htab a).1)) hchar ts
  have hval : ∀ pt : List F, pt.length = r.length →
      termsVal heap [(1, [0, 1, 2])] pt = eqPoly r pt * mle v1 pt * mle v2 pt := by
    intro pt hpt
    rw [← mle_computeBetas r pt hpt.symm]
    simp [termsVal, heap]
    ring
  refine ⟨⟨proof, [mle v1 proof.point, mle v2 proof.point]⟩, ts', ?_, hl, fun hch => ?_⟩
  · unfold proveHadamard
    rw [if_pos ⟨rfl, h1, h2⟩]
    have hp' : proveTerms threads T (fun a => if a = 0 then ⟨r.length, v1⟩ else if a = 1 then ⟨r.length, v2⟩
      else ⟨r.length, computeBetas r⟩) r.length [(1, [0, 1, 2])] ts = _ := hp
    rw [hp']
    simp [heap]
  · have hv' := hv hch
    rw [cubeSum_congr _ _ _ hval, sum_beta_product r v1 v2 h1 h2, hval _ hl] at hv'
    unfold verifyHadamard
    rw [hv']
    simp [betaEval_eq r proof.point hl.symm]

/-- C62, soundness. Partial: the theorem needs the point in the proof to be the point of the sumcheck's challenges
(`C62_prover_point_false`). If the verifier accepts, was given the true value of the second table at the point of
the claim it returns, and that claim is true of the first table, then the claim about the entrywise product is true
or the prover was lucky in some round. -/
theorem C62_hadamard_sound_partial (T : Transcript F) (hchar : ∀ k : ℕ, 0 < k → k ≤ 3 → (k : F) ≠ 0)
    (v1 v2 : List F) (output : Claim F) (h1 : v1.length = 2 ^ output.point.length)
    (h2 : v2.length = 2 ^ output.point.length) (expectedV2 : F) (proof : HadamardProof F) (ts ts' : T.State)
    (claim : Claim F)
    (h : verifyHadamard T output.point.length proof output expectedV2 ts = some (claim, ts'))
    (htrue1 : claim.eval = mle v1 claim.point) (htrue2 : expectedV2 = mle v2 claim.point)
    (hpt : ∀ sc ts'', verify T output.eval proof.sumcheck 3 output.point.length ts = some (sc, ts'') →
      proof.sumcheck.point = sc.point) :
    output.eval = mle (List.zipWith (· * ·) v1 v2) output.point ∨
      LuckyRound 3 output.point.length (fun pt => eqPoly output.point pt * mle v1 pt * mle v2 pt)
        proof.sumcheck.proofs claim.point := by
  unfold verifyHadamard at h
  simp only [Option.bind_eq_bind, Option.bind_eq_some_iff] at h
  obtain ⟨⟨sub, ts2⟩, hv, be, hbe, e1, he1, h⟩ := h
  split at h
  swap
  · simp at h
  rename_i he
  simp only [Option.bind_eq_some_iff] at h
  obtain ⟨e0, he0, h⟩ := h
  split at h
  swap
  · simp at h
  rename_i hprod
  simp only [Option.some.injEq, Prod.mk.injEq] at h
  obtain ⟨rfl, rfl⟩ := h
  have hp := hpt _ _ hv
  simp only at htrue1 htrue2 ⊢
  have hscl : sub.point.length = output.point.length :=
    (accepted_sound T 3 output.point.length hchar (fun _ => sub.expected) _ proof.sumcheck ts _ sub hv rfl).1
  have hbe' := betaEval_eq output.point proof.sumcheck.point (by rw [hp, hscl])
  simp only [Option.bind_eq_some_iff] at hbe'
  obtain ⟨m, hm, hbe'⟩ := hbe'
  obtain ⟨m', hm', hbe⟩ := hbe
  rw [hm, Option.some.injEq] at hm'
  subst hm'
  rw [hbe', Option.some.injEq] at hbe
  have hexp : sub.expected
      = (fun pt => eqPoly output.point pt * mle v1 pt * mle v2 pt) sub.point := by
    simp only
    rw [← hprod, ← he, htrue1, htrue2, ← hbe, hp]
  have hs := (accepted_sound T 3 output.point.length hchar
    (fun pt => eqPoly output.point pt * mle v1 pt * mle v2 pt) _ proof.sumcheck ts _ sub hv hexp).2
  rw [hp]
  refine hs.imp (fun k => ?_) id
  rw [k, sum_beta_product output.point v1 v2 h1 h2]

/-- C62 fails without the point hypothesis: against every transcript the false claim that the product of the tables
`(0, 1)` and `(1, 1)` is `-4` at `0` is accepted, with the true value of the second table and a true claim about
the first as result, whenever the sumcheck's challenge is none of 0 to 3. -/
theorem C62_prover_point_false (T : Transcript F) (hchar : ∀ k : ℕ, 0 < k → k ≤ 3 → (k : F) ≠ 0) (ts : T.State) :
    ∃ (sumcheck : IOPProof F) (challenge : F), sumcheck.point = [2] ∧
      ((∀ k : ℕ, k ≤ 3 → challenge ≠ (k : F)) →
        ∃ (claims : List F) (ts' : T.State),
          verifyHadamard T 1 ⟨sumcheck, claims⟩ ⟨[0], -4⟩ (mle [1, 1] [2]) ts = some (⟨[2], mle [0, 1] [2]⟩, ts') ∧
          (-4 : F) ≠ mle (List.zipWith (· * ·) [0, 1] [1, 1]) [0]) := by
  have h2 : (2 : F) ≠ 0 := by have := hchar 2 (by omega) (by omega); exact_mod_cast this
  obtain ⟨sc, ts', hl, hv⟩ := any_sum3 T 1 hchar (-4) ts
  obtain ⟨c, hc⟩ := List.length_eq_one_iff.mp hl
  refine ⟨⟨[2], sc.proofs⟩, c, rfl, fun hch => ⟨[2, 1], ts', ?_, ?_⟩⟩
  · have hv' := hv (by rw [hc]; simpa using hch)
    have hv'' : verify T (-4) ⟨[2], sc.proofs⟩ 3 1 ts = some (⟨sc.point, -4 / 2 ^ 1⟩, ts') := by
      rw [← hv']; rfl
    have e1 : mle [1, 1] [(2 : F)] = 1 := by simp [mle, Finset.sum_range_succ, chi]
    have e0 : mle [0, 1] [(2 : F)] = 2 := by simp [mle, Finset.sum_range_succ, chi]
    have hb : ((Mle.ofEvals 1 (computeBetas [(0 : F)])).bind fun m => m.evaluate [2]) = some (-1) := by
      have := betaEval_eq [(0 : F)] [2] rfl
      rw [List.length_singleton] at this
      rw [this]
      simp [eqPoly]
      ring
    have e3 : (-1 : F) * 2 * 1 = -4 / 2 ^ 1 := by field_simp; ring
    unfold verifyHadamard
    rw [hv'', e1, e0]
    simp only [Option.bind_eq_bind, Option.bind_some, List.length_singleton]
    rw [hb]
    simp only [Option.bind_some, List.getElem?_cons_succ, List.getElem?_cons_zero, if_true]
    rw [if_pos e3]
  · simp [mle, Finset.sum_range_succ, chi]
    have : (4 : F) = 2 * 2 := by norm_num
    rw [this]
    exact mul_ne_zero h2 h2

/-- Instances: an honest proof for two tables of four entries, and the attack. -/
example : ((proveHadamard 2 (tape ℚ) 2 ⟨[3, 4], mle (List.zipWith (· * ·) [1, 2, 3, 5] [7, 1, 0, 2]) [3, 4]⟩
      [1, 2, 3, 5] [7, 1, 0, 2] [7, 8]).bind fun x =>
    verifyHadamard (tape ℚ) 2 x.1 ⟨[3, 4], mle (List.zipWith (· * ·) [1, 2, 3, 5] [7, 1, 0, 2]) [3, 4]⟩
      (mle [7, 1, 0, 2] [7, 8]) [7, 8])
    = some (⟨[7, 8], mle [1, 2, 3, 5] [7, 8]⟩, []) := by decide +kernel

example : verifyHadamard (tape ℚ) 1 ⟨⟨[2], [[-2, -2, -2, -2]]⟩, [2, 1]⟩ ⟨[0], -4⟩ 1 [7] = some (⟨[2], 2⟩, []) := by
  decide +kernel

end Props
