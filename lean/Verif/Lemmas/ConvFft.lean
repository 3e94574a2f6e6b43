import Verif.Lemmas.ConvDelegate

/-!
The Fourier provers are accepted: the sumcheck of the transform and its delegation.
-/

namespace Lemmas

open Spec Model

variable {F : Type} [Field F] [DecidableEq F]

omit [DecidableEq F] in
theorem root_neg (w : F) (L : ℕ) (h : IsPrimitiveRoot w (2 ^ (L + 1))) (full : Bool) : (if full then w⁻¹ else w) ^ 2 ^ L = -1 := by
  cases full
  · simpa using primitive_neg w L h
  · simpa using primitive_neg w⁻¹ L h.inv

omit [DecidableEq F] in
theorem cubeSum_tables (n : ℕ) (f g : List F) (hf : f.length = 2 ^ n) :
    (cubeSum n fun pt => mle f pt * mle g pt) = ∑ b ∈ Finset.range (2 ^ n), f.getD b 0 * g.getD b 0 := by
  unfold cubeSum
  apply Finset.sum_congr rfl
  intro b hb
  have hb' := Finset.mem_range.mp hb
  beta_reduce
  rw [mle_bitsPoint _ _ b hb', mle_bitsPoint _ _ b hb']

theorem proveFft_complete (T : Transcript F) (threads : ℕ) (ht : 0 < threads) (hchar : ∀ k : ℕ, 0 < k → k ≤ 3 → (k : F) ≠ 0)
    (A : ℕ) (g : F) (L : ℕ) (hL : 1 ≤ L) (w : F) (hw : rootOfUnity A g (L + 1) = some w) (hp : IsPrimitiveRoot w (2 ^ (L + 1)))
    (full : Bool) (s : F) (rx : List F) (hrx : rx.length = L + 1) (fm : List F) (hfm : fm.length = 2 ^ (L + 1)) (ts : T.State) :
    ∃ p ts1 ts' red, proveFft threads T A g full s rx ⟨L + 1, fm⟩ ts = some (p, ts') ∧
      p.claims = [mle fm p.proof.point, red] ∧ p.proof.point.length = L + 1 ∧ p.delegation.length = L ∧
      (Generic p.proof → ∃ v, verify T (∑ b ∈ Finset.range (2 ^ (L + 1)), fm.getD b 0 * phiTab (if full then w⁻¹ else w) s rx full (L + 1) b)
        p.proof 2 (L + 1) ts = some (v, ts1)) ∧
      ((∀ q ∈ p.delegation, Generic q) → ∀ rand : List F, (∀ i < L, rand[i]? = rx[i]?) →
        ∃ p0, delegation T L (List.iterate (fun x : F => x * x) (if full then w⁻¹ else w) L) rand (!full) p.delegationClaims 0 p.delegation
          red p.proof.point ts1 = some (s * (1 - p0 + p0 * (1 - 2 * rx.getD L 0)), [p0], ts')) := by
  have hneg := root_neg w L hp full
  obtain ⟨v, hv⟩ : ∃ v, v = (if full then w⁻¹ else w) := ⟨_, rfl⟩
  rw [← hv] at hneg ⊢
  have hinit := phiGInit_spec A g rx s full (by omega) w (by rw [hrx]; exact hw) (by rw [← hv, hrx]; exact hneg)
  rw [← hv, hrx, Nat.add_sub_cancel] at hinit
  obtain ⟨red, hred⟩ : ∃ red, red = (List.range (2 ^ (L + 1))).map (phiTab v s rx full (L + 1)) := ⟨_, rfl⟩
  have lred : red.length = 2 ^ (L + 1) := by rw [hred]; simp
  obtain ⟨proof, ts1, h1, h2, h3⟩ := proveProduct_spec T threads ht (L + 1) (fun k h0 h => hchar k h0 (by omega)) fm red hfm lred ts
  obtain ⟨ps, cs, ts', d1, d2, d3⟩ := delegate_complete T threads ht hchar v s rx full (by rw [hrx]; exact hneg) L (by omega) proof.point h2 ts1
  simp only [hrx, Nat.add_sub_cancel] at d1 d3
  refine ⟨⟨proof, [mle fm proof.point, mle red proof.point], ps, cs⟩, ts1, ts', mle red proof.point, ?_, rfl, h2, d2, ?_, ?_⟩
  · unfold proveFft
    rw [hrx, hinit, ← hred]
    simp only [Option.bind_eq_bind, Option.bind_some, ofEvals_some _ _ lred, h1, delegateMatrix, hrx, phiPow_eq A g (L + 1) full w hw, checkedSub,
      Nat.add_sub_cancel, if_pos (show 1 ≤ L + 1 by omega), ← hv, d1]
  · intro hg
    have h4 := h3 (fun r hr k hk => hg r hr k (by omega))
    refine ⟨_, Eq.trans ?_ h4⟩
    rw [cubeSum_tables (L + 1) fm red hfm]
    congr 1
    apply Finset.sum_congr rfl
    intro b hb
    rw [hred, getD_map_range' _ _ _ _ (Finset.mem_range.mp hb)]
  · intro hg rand hrand
    obtain ⟨p0, hd⟩ := d3 hg rand cs hrand (by simp)
    refine ⟨p0, ?_⟩
    rw [Nat.sub_self, ← hred] at hd
    rw [hd]
    congr 2
    rw [show (2 : ℕ) = 2 ^ 1 from rfl, mle_map_range 1 _ [p0] rfl, pow_one, Finset.sum_range_succ, Finset.sum_range_one, chi_singleton, chi_singleton,
      if_neg (show ¬ (0 : ℕ) % 2 = 1 by omega), if_pos (show 1 % 2 = 1 by omega)]
    have ht0 : ∀ b, phiTab v s rx full 1 b = phiG v s rx 1 b := fun b => by rw [phiTab, if_pos (Or.inr (Or.inl (by omega)))]
    have hs : ∀ b, phiG v s rx 1 b = _ := fun b => phiG_succ v s rx 0 b (by omega)
    rw [ht0, ht0, hs, hs, phiG_zero, phiG_zero, hrx, show L + 1 - (0 + 1) = L by omega]
    simp only [zero_mul, pow_zero, one_mul, hneg]
    ring

/-- The verifier of a forward transform accepts its delegation. -/
theorem verifyFftDelegation_of (T : Transcript F) (A : ℕ) (g : F) (L : ℕ) (hL : 1 ≤ L) (w : F) (hw : rootOfUnity A g (L + 1) = some w)
    (rand : List F) (red : F) (proofs : List (IOPProof F)) (hlen : proofs.length = L) (claims : List (List F)) (prev : List F) (ts ts' : T.State)
    (x p0 : F) (hx : rand[L]? = some x)
    (h : delegation T L (List.iterate (fun x : F => x * x) w L) rand true claims 0 proofs red prev ts
      = some (1 * (1 - p0 + p0 * (1 - 2 * x)), [p0], ts')) :
    verifyFftDelegation T A g L rand red proofs claims prev ts = some ts' := by
  unfold verifyFftDelegation powTwoOmegas
  rw [hlen, hw]
  simp only [Option.bind_eq_bind, Option.bind_some, if_pos (show 2 ≤ L + 1 by omega), Bool.false_eq_true, if_false, Nat.add_sub_cancel, h, hx,
    List.getElem?_cons_zero]
  rw [if_pos (by ring)]

omit [DecidableEq F] in
/-- The forward transform at a point: the upper half of the input being zero. -/
theorem fft_at_point (A : ℕ) (g : F) (hg : IsPrimitiveRoot g (2 ^ A)) (L : ℕ) (hL : L + 1 ≤ A) (w : F) (hw : rootOfUnity A g (L + 1) = some w)
    (v : List F) (hl : v.length = 2 ^ (L + 1)) (hz : ∀ b, 2 ^ L ≤ b → v.getD b 0 = 0) (out : List F) (ho : fft A g false v = some out) (rx : List F)
    (hrx : rx.length = L + 1) :
    mle out rx = ∑ b ∈ Finset.range (2 ^ (L + 1)), v.getD b 0 * phiTab w 1 rx false (L + 1) b := by
  obtain ⟨out', h1, _, h3⟩ := fft_forward A g hg L hL w hw v hl
  rw [ho] at h1
  obtain rfl := Option.some.inj h1
  unfold mle
  rw [hrx, Finset.sum_congr rfl (fun k hk => by rw [h3 k (Finset.mem_range.mp hk), Finset.sum_mul]), Finset.sum_comm]
  apply Finset.sum_congr rfl
  intro b hb
  by_cases hlt : b < 2 ^ L
  · rw [phiTab, if_pos (Or.inr (Or.inr (by rw [hrx]; exact hlt))), phiG, hrx, Nat.sub_self, List.drop_zero, pow_zero, mul_one, one_mul, ← phiProd_sum,
      hrx, Finset.mul_sum]
    apply Finset.sum_congr rfl
    intro k _
    rw [← pow_mul, mul_comm k b]
    ring
  · rw [hz b (by omega), zero_mul]
    apply Finset.sum_eq_zero
    intro k _
    ring

omit [DecidableEq F] in
/-- The inverse transform at a point. -/
theorem ifft_at_point (A : ℕ) (g : F) (hg : IsPrimitiveRoot g (2 ^ A)) (L : ℕ) (hL : L + 1 ≤ A) (w : F) (hw : rootOfUnity A g (L + 1) = some w)
    (v : List F) (hl : v.length = 2 ^ (L + 1)) (out : List F) (ho : fft A g true v = some out) (rx : List F) (hrx : rx.length = L + 1) :
    mle out rx = ∑ b ∈ Finset.range (2 ^ (L + 1)), v.getD b 0 * phiTab w⁻¹ (((2 ^ (L + 1) : ℕ) : F)⁻¹) rx true (L + 1) b := by
  obtain ⟨out', h1, _, h3⟩ := fft_inverse A g hg L hL w hw v hl
  rw [ho] at h1
  obtain rfl := Option.some.inj h1
  unfold mle
  rw [hrx, Finset.sum_congr rfl (fun k hk => by rw [h3 k (Finset.mem_range.mp hk), Finset.sum_mul, Finset.sum_mul]), Finset.sum_comm]
  apply Finset.sum_congr rfl
  intro b _
  rw [phiTab, if_pos (Or.inl rfl), phiG, hrx, Nat.sub_self, List.drop_zero, pow_zero, mul_one, ← phiProd_sum,
    hrx, Finset.mul_sum, Finset.mul_sum]
  apply Finset.sum_congr rfl
  intro k _
  rw [← pow_mul, mul_comm k b]
  ring

end Lemmas
