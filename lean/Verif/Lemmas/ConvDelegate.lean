import Verif.Lemmas.ConvPhi
import Verif.Lemmas.SoftmaxProof
import Verif.Lemmas.LogUpProver

/-!
The delegation of the evaluation of the Fourier matrix is accepted.
-/

namespace Lemmas

open Spec Model

variable {F : Type} [Field F] [DecidableEq F]

omit [DecidableEq F] in
/-- The product `phi_eval` computes. -/
theorem phiProd_zip (w : F) (r : List F) (k : ℕ) (e : F) (exps : List F) (h : r.length ≤ exps.length)
    (he : ∀ j < exps.length, exps.getD j 0 = w ^ 2 ^ (k + j)) :
    (r.zip exps).foldl (fun e x => e * (1 - x.1 + x.1 * x.2)) e = e * phiProd r (w ^ 2 ^ k) := by
  induction r generalizing k e exps with
  | nil => simp [phiProd]
  | cons x xs ih =>
    cases exps with
    | nil => simp at h
    | cons y ys =>
      have h0 := he 0 (by simp)
      simp only [List.getD_cons_zero, Nat.add_zero] at h0
      rw [List.zip_cons_cons, List.foldl_cons, ih (k + 1) _ ys (by simpa using h)
        (by intro j hj; have := he (j + 1) (by simpa using hj); rw [List.getD_cons_succ] at this; rw [this]; congr 2; omega)]
      subst h0
      rw [phiProd, pow_succ 2 k, pow_mul, sq, mul_assoc]

omit [DecidableEq F] in
theorem iterate_getD (w : F) (n j : ℕ) (h : j < n) : (List.iterate (fun x : F => x * x) w n).getD j 0 = w ^ 2 ^ j := by
  rw [List.getD_eq_getElem _ _ (by simpa using h), List.getElem_iterate, iterate_square]

/-- One entry of the vector `phi`. -/
def phiFactor (w x p : F) (top : Bool) (k i : ℕ) : F :=
  if top then (1 - p) * (1 - x + x * w ^ (i * 2 ^ k)) else 1 - x + (1 - 2 * p) * x * w ^ (i * 2 ^ k)

omit [DecidableEq F] in
theorem phiEval_eq (w x p : F) (top : Bool) (n k : ℕ) (r : List F) (hn : n = k + r.length) :
    phiEval r x p (List.iterate (fun x : F => x * x) w n) top = some (mle ((List.range (2 ^ r.length)).map (phiFactor w x p top k)) r) := by
  have hl : (List.iterate (fun x : F => x * x) w n).length = n := by simp
  unfold phiEval
  rw [if_pos (by omega)]
  simp only
  rw [hl, show n - r.length = k by omega, phiProd_zip w r k 1 _ (by simp; omega)
    (by intro j hj; rw [List.length_drop, hl] at hj; rw [getD_drop, iterate_getD w n _ (by omega)]), one_mul, mle_map_range r.length _ r rfl,
    ← phiProd_sum]
  congr 1
  cases top with
  | true =>
    simp only [if_true, phiFactor]
    have : ∀ i, (1 - p) * (1 - x + x * w ^ (i * 2 ^ k)) * chi r i = (1 - p) * ((1 - x) * chi r i + x * (chi r i * (w ^ 2 ^ k) ^ i)) := by
      intro i; rw [← pow_mul, mul_comm (2 ^ k) i]; ring
    rw [Finset.sum_congr rfl fun i _ => this i, ← Finset.mul_sum, Finset.sum_add_distrib, ← Finset.mul_sum, ← Finset.mul_sum, sum_chi]
    ring
  | false =>
    simp only [Bool.false_eq_true, if_false, phiFactor]
    have : ∀ i, (1 - x + (1 - 2 * p) * x * w ^ (i * 2 ^ k)) * chi r i = (1 - x) * chi r i + (1 - 2 * p) * x * (chi r i * (w ^ 2 ^ k) ^ i) := by
      intro i; rw [← pow_mul, mul_comm (2 ^ k) i]; ring
    rw [Finset.sum_congr rfl fun i _ => this i, Finset.sum_add_distrib, ← Finset.mul_sum, ← Finset.mul_sum, sum_chi]
    ring

omit [DecidableEq F] in
/-- One pass turned around: the table after the pass at `q ++ [p]`, from the table before it. -/
theorem phiTab_step (w s : F) (rx : List F) (full : Bool) (hneg : w ^ 2 ^ (rx.length - 1) = -1) (l : ℕ) (hl : l + 1 < rx.length) (q : List F) (p : F)
    (hq : q.length = l + 1) :
    mle ((List.range (2 ^ (l + 2))).map (phiTab w s rx full (l + 2))) (q ++ [p])
      = mle (List.zipWith (· * ·) ((List.range (2 ^ (l + 1))).map (phiFactor w (rx.getD (rx.length - 2 - l) 0) p (!full && l + 2 == rx.length)
          (rx.length - 2 - l))) ((List.range (2 ^ (l + 1))).map (phiG w s rx (l + 1)))) q := by
  rw [mle_append_sum]
  simp only [List.length_singleton, pow_one, hq]
  rw [Finset.sum_range_succ, Finset.sum_range_one, chi_singleton, chi_singleton]
  rw [if_neg (show ¬ (0 : ℕ) = 1 by omega), if_pos rfl]
  simp only [zero_mul, zero_add, one_mul]
  conv_rhs => unfold mle
  rw [hq, Finset.sum_mul, Finset.sum_mul, ← Finset.sum_add_distrib]
  apply Finset.sum_congr rfl
  intro b hb
  have hb' := Finset.mem_range.mp hb
  have hp : 2 ^ (l + 2) = 2 ^ (l + 1) + 2 ^ (l + 1) := by rw [pow_succ 2 (l + 1)]; ring
  rw [getD_map_range' _ _ _ _ (by omega), getD_map_range' _ _ _ _ (by omega), List.getD_eq_getElem _ _ (by simpa using hb')]
  simp only [List.getElem_zipWith, List.getElem_map, List.getElem_range]
  have h2 := phiG_succ w s rx (l + 1) b hl
  have h3 := phiG_high w s rx hneg (l + 1) b hl
  rw [show rx.length - (l + 1 + 1) = rx.length - 2 - l by omega] at h2 h3
  have hlow : phiTab w s rx full (l + 2) b = phiG w s rx (l + 1 + 1) b := by
    rw [phiTab, if_pos]
    by_cases h : l + 2 < rx.length
    · exact Or.inr (Or.inl h)
    · refine Or.inr (Or.inr ?_)
      rw [show rx.length - 1 = l + 1 by omega]; exact hb'
  rw [hlow, h2]
  by_cases htop : full = true ∨ l + 2 < rx.length
  · have hhigh : phiTab w s rx full (l + 2) (2 ^ (l + 1) + b) = phiG w s rx (l + 1 + 1) (2 ^ (l + 1) + b) := by
      rw [phiTab, if_pos]
      rcases htop with h | h
      · exact Or.inl h
      · exact Or.inr (Or.inl h)
    have hf : (!full && l + 2 == rx.length) = false := by
      rcases htop with h | h
      · simp [h]
      · have : (l + 2 == rx.length) = false := by simp; omega
        simp [this]
    rw [hhigh, h3, hf, phiFactor]
    simp only [Bool.false_eq_true, if_false]
    ring
  · have hfull : full = false := by cases full <;> simp_all
    have hlen : l + 2 = rx.length := by
      by_contra h; exact htop (Or.inr (by omega))
    have hhigh : phiTab w s rx full (l + 2) (2 ^ (l + 1) + b) = 0 := by
      rw [phiTab, if_neg]
      rw [hfull, show rx.length - 1 = l + 1 by omega]
      simp; omega
    rw [hhigh, hfull, phiFactor]
    simp only [Bool.not_false, Bool.true_and, hlen, beq_self_eq_true, if_true]
    ring

theorem delegatePhi_eq (w : F) (rx : List F) (full : Bool) (l : ℕ) (hl : l + 1 < rx.length) (p : F) :
    delegatePhi (twiddles w (2 ^ rx.length)) rx full (rx.length - 1) l (2 ^ (l + 1)) p
      = some ((List.range (2 ^ (l + 1))).map (phiFactor w (rx.getD (rx.length - 2 - l) 0) p (!full && l + 2 == rx.length) (rx.length - 2 - l))) := by
  unfold delegatePhi
  rw [checkedSub, if_pos (by omega), show rx.length - 1 - 1 - l = rx.length - 2 - l by omega]
  simp only [Option.bind_eq_bind, Option.bind_some, getElem?_of_lt rx (rx.length - 2 - l) 0 (by omega)]
  apply mapM_some'
  intro i hi
  have hi' : i < 2 ^ (l + 1) := by simpa using hi
  have hlt : i <<< (rx.length - 2 - l) < 2 ^ rx.length := by
    rw [Nat.shiftLeft_eq]
    calc i * 2 ^ (rx.length - 2 - l) < 2 ^ (l + 1) * 2 ^ (rx.length - 2 - l) := Nat.mul_lt_mul_of_pos_right hi' (Nat.two_pow_pos _)
      _ = 2 ^ (l + 1 + (rx.length - 2 - l)) := (pow_add _ _ _).symm
      _ ≤ 2 ^ rx.length := Nat.pow_le_pow_right (by omega) (by omega)
  rw [twiddles_getElem w _ _ hlt, Option.bind_some, phiFactor, Nat.shiftLeft_eq]
  congr 1
  cases full with
  | true => simp
  | false =>
    by_cases h : l + 2 = rx.length
    · rw [if_pos ⟨rfl, by omega⟩, if_pos (by simp [h])]
    · rw [if_neg (by simp; omega), if_neg (by simp [h])]

/-- The challenges of a sumcheck avoid the interpolation points. -/
def Generic (p : IOPProof F) : Prop := ∀ r ∈ p.point, ∀ k : ℕ, k ≤ 3 → r ≠ (k : F)

theorem delegate_complete (T : Transcript F) (threads : ℕ) (ht : 0 < threads) (hchar : ∀ k : ℕ, 0 < k → k ≤ 3 → (k : F) ≠ 0)
    (w s : F) (rx : List F) (full : Bool) (hneg : w ^ 2 ^ (rx.length - 1) = -1) (l : ℕ) (hl : l < rx.length) (prev : List F)
    (hp : prev.length = l + 1) (ts : T.State) :
    ∃ ps cs ts', delegateLoop threads T (twiddles w (2 ^ rx.length)) rx full (phiMid w s rx (rx.length - 1)) l prev ts = some (ps, cs, ts') ∧
      ps.length = l ∧
      ((∀ p ∈ ps, Generic p) → ∀ (rand : List F) (claims : List (List F)), (∀ i < rx.length - 1, rand[i]? = rx[i]?) →
        claims.drop (rx.length - 1 - l) = cs →
        ∃ p0, delegation T (rx.length - 1) (List.iterate (fun x : F => x * x) w (rx.length - 1)) rand (!full) claims (rx.length - 1 - l) ps
          (mle ((List.range (2 ^ (l + 1))).map (phiTab w s rx full (l + 1))) prev) prev ts
            = some (mle ((List.range 2).map (phiTab w s rx full 1)) [p0], [p0], ts')) := by
  induction l generalizing prev ts with
  | zero =>
    refine ⟨[], [], ts, rfl, rfl, ?_⟩
    intro _ rand claims _ _
    match prev, hp with
    | [p0], _ => exact ⟨p0, by simp [delegation]⟩
  | succ l ih =>
    obtain ⟨q, p, rfl⟩ : ∃ q p, prev = q ++ [p] := by
      have hne : prev ≠ [] := by intro h; simp [h] at hp
      exact ⟨prev.dropLast, prev.getLast hne, (List.dropLast_append_getLast hne).symm⟩
    have hq : q.length = l + 1 := by simpa using hp
    obtain ⟨phi, hphi⟩ : ∃ phi, phi = (List.range (2 ^ (l + 1))).map
      (phiFactor w (rx.getD (rx.length - 2 - l) 0) p (!full && l + 2 == rx.length) (rx.length - 2 - l)) := ⟨_, rfl⟩
    obtain ⟨f, hf⟩ : ∃ f, f = (List.range (2 ^ (l + 1))).map (phiG w s rx (l + 1)) := ⟨_, rfl⟩
    have lphi : phi.length = 2 ^ (l + 1) := by rw [hphi]; simp
    have lf : f.length = 2 ^ (l + 1) := by rw [hf]; simp
    have lb : (computeBetas q).length = 2 ^ (l + 1) := by rw [computeBetas_length, hq]
    obtain ⟨proof, ts1, h1, h2, h3⟩ := prove_three T threads ht (l + 1) hchar (computeBetas q) phi f lb lphi lf ts
    obtain ⟨ps, cs, ts', i1, i2, i3⟩ := ih (by omega) proof.point h2 ts1
    refine ⟨proof :: ps, [mle (computeBetas q) proof.point, mle phi proof.point, mle f proof.point] :: cs, ts', ?_, by simp [i2], ?_⟩
    · have hmid : (phiMid w s rx (rx.length - 1))[l]? = some f := by
        rw [phiMid, List.getElem?_map, List.getElem?_range (by omega), hf]; rfl
      have hlm : (phiMid w s rx (rx.length - 1)).length = rx.length - 1 := by simp [phiMid]
      rw [delegateLoop, hmid]
      simp only [Option.bind_eq_bind, Option.bind_some, List.getLast?_concat, hlm, lf, delegatePhi_eq w rx full l hl p, ← hphi, List.dropLast_concat,
        List.length_append, List.length_singleton, Nat.add_sub_cancel, hq, lphi, Nat.log2_two_pow, ofEvals_some _ _ lb, ofEvals_some _ _ lphi,
        ofEvals_some _ _ lf, h1, i1]
    · intro hgen rand claims hrand hcl
      have hi : rx.length - 1 - (l + 1) + 1 = rx.length - 1 - l := by omega
      have hlt : rx.length - 1 - (l + 1) < claims.length := by
        by_contra hge
        rw [List.drop_eq_nil_of_le (by omega)] at hcl
        exact absurd hcl (by simp)
      rw [List.drop_eq_getElem_cons hlt] at hcl
      obtain ⟨hc0, hc1⟩ := List.cons.inj hcl
      rw [hi] at hc1
      obtain ⟨p0, hdel⟩ := i3 (fun p hp => hgen p (List.mem_cons_of_mem _ hp)) rand claims hrand hc1
      refine ⟨p0, ?_⟩
      rw [delegation, delegationVars, if_pos (by omega), show rx.length - 1 - (rx.length - 1 - (l + 1)) = l + 1 by omega]
      have hv := h3 (hgen proof (by simp))
      have hsum : (cubeSum (l + 1) fun pt => mle (computeBetas q) pt * mle phi pt * mle f pt)
          = mle ((List.range (2 ^ (l + 1 + 1))).map (phiTab w s rx full (l + 1 + 1))) (q ++ [p]) := by
        rw [phiTab_step w s rx full hneg l hl q p hq, ← hphi, ← hf, ← sum_beta_product q phi f (by rw [lphi, hq]) (by rw [lf, hq]), hq]
        apply cubeSum_congr
        intro pt hpt
        rw [mle_computeBetas q pt (by omega)]
      rw [hsum] at hv
      have hr1 : rand[rx.length - 1 - (l + 1)]? = some (rx.getD (rx.length - 2 - l) 0) := by
        rw [hrand _ (by omega), show rx.length - 1 - (l + 1) = rx.length - 2 - l by omega, getElem?_of_lt rx _ 0 (by omega)]
      have hfirst : (!full && rx.length - 1 - (l + 1) == 0) = (!full && l + 2 == rx.length) := by
        congr 1
        by_cases h : l + 2 = rx.length
        · rw [h]; simp; omega
        · have e1 : (rx.length - 1 - (l + 1) == 0) = false := by simp; omega
          have e2 : (l + 2 == rx.length) = false := by simp [h]
          rw [e1, e2]
      have hphiE := phiEval_eq w (rx.getD (rx.length - 2 - l) 0) p (!full && l + 2 == rx.length) (rx.length - 1) (rx.length - 2 - l) proof.point
        (by rw [h2]; omega)
      rw [h2, ← hphi] at hphiE
      simp only [Option.bind_eq_bind, Option.bind_some, hv, List.getElem?_eq_getElem hlt, hc0, List.getElem?_cons_zero, List.getElem?_cons_succ, hr1,
        List.getLast?_concat, hfirst, hphiE]
      have hid : identityEval proof.point (q ++ [p]) = mle (computeBetas q) proof.point := by
        rw [identityEval_eq, mle_computeBetas q proof.point (by omega), List.length_append, List.length_singleton, hq, h2, min_eq_left (by omega),
          List.take_of_length_le (by omega), List.take_left' hq, eqPoly_comm']
      rw [if_pos ⟨hid, trivial⟩, hi]
      have hfm : f = (List.range (2 ^ (l + 1))).map (phiTab w s rx full (l + 1)) := by
        rw [hf]
        apply List.map_congr_left
        intro b _
        rw [phiTab, if_pos (Or.inr (Or.inl hl))]
      rw [hfm]
      exact hdel

end Lemmas
