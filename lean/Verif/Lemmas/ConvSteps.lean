import Verif.Lemmas.ConvData

/-!
The steps of the convolution proof.
-/

namespace Lemmas

open Spec Model

variable {F : Type} [Field F]

theorem chi_flip (p : List F) (b : ℕ) (h : b < 2 ^ p.length) : chi p (2 ^ p.length - 1 - b) = chi (p.map fun x => 1 - x) b := by
  induction p generalizing b with
  | nil => simp [chi_nil]
  | cons x xs ih =>
    rw [List.length_cons, pow_succ] at h ⊢
    rw [List.map_cons, chi_cons, chi_cons, show (2 ^ xs.length * 2 - 1 - b) / 2 = 2 ^ xs.length - 1 - b / 2 by omega, ih (b / 2) (by omega)]
    congr 1
    by_cases hb : b % 2 = 1
    · rw [if_pos hb, if_neg (by omega)]
    · rw [if_neg hb, if_pos (by omega)]; ring

theorem sum_flip (p : List F) (f : ℕ → F) :
    ∑ y ∈ Finset.range (2 ^ p.length), f (2 ^ p.length - 1 - y) * chi p y = ∑ y ∈ Finset.range (2 ^ p.length), f y * chi (p.map fun x => 1 - x) y := by
  rw [← Finset.sum_range_reflect]
  apply Finset.sum_congr rfl
  intro y hy
  have hy' := Finset.mem_range.mp hy
  rw [chi_flip p y hy', show 2 ^ p.length - 1 - (2 ^ p.length - 1 - y) = y by omega]

theorem mle_flatten (xs : List (List F)) (n k : ℕ) (hl : xs.length = 2 ^ k) (he : ∀ i < 2 ^ k, (xs.getD i []).length = 2 ^ n) (p q : List F)
    (hp : p.length = n) (hq : q.length = k) :
    xs.flatten.length = 2 ^ (n + k) ∧ mle xs.flatten (p ++ q) = ∑ i ∈ Finset.range (2 ^ k), chi q i * mle (xs.getD i []) p := by
  have hlen : ∀ u ∈ xs, u.length = 2 ^ n := by
    intro u hu
    obtain ⟨i, hi, rfl⟩ := List.getElem_of_mem hu
    have := he i (by omega)
    rwa [List.getD_eq_getElem _ _ hi] at this
  refine ⟨by rw [length_flatten' _ _ hlen, hl, pow_add, mul_comm], ?_⟩
  rw [mle_append_sum, hq, hp]
  apply Finset.sum_congr rfl
  intro i hi
  have hi' := Finset.mem_range.mp hi
  rw [mul_comm]
  congr 1
  unfold mle
  rw [hp]
  apply Finset.sum_congr rfl
  intro j hj
  rw [getD_flatten _ _ hlen i j 0 (by omega) (Finset.mem_range.mp hj), List.getD_eq_getElem xs [] (by omega)]

theorem flatFixed_spec (xs : List (List F)) (n k : ℕ) (hl : xs.length = 2 ^ k) (he : ∀ i < 2 ^ k, (xs.getD i []).length = 2 ^ n) (q : List F)
    (hq : q.length = k) :
    ∃ u, flatFixed xs q = some ⟨n, u⟩ ∧ u.length = 2 ^ n ∧
      (∀ p : List F, p.length = n → mle u p = ∑ i ∈ Finset.range (2 ^ k), chi q i * mle (xs.getD i []) p) ∧
      ∀ b < 2 ^ n, u.getD b 0 = ∑ i ∈ Finset.range (2 ^ k), chi q i * (xs.getD i []).getD b 0 := by
  have hfl := (mle_flatten xs n k hl he (List.replicate n 0) q (by simp) hq).1
  obtain ⟨u, h1, h2, h3⟩ := fixHigh_mle n k xs.flatten q hfl hq
  have h4 : ∀ p : List F, p.length = n → mle u p = ∑ i ∈ Finset.range (2 ^ k), chi q i * mle (xs.getD i []) p := by
    intro p hp
    rw [h3 p hp, (mle_flatten xs n k hl he p q hp hq).2]
  refine ⟨u, ?_, h2, h4, ?_⟩
  · unfold flatFixed
    rw [hfl, Nat.log2_two_pow, Mle.ofEvals, if_pos hfl]
    exact h1
  · intro b hb
    rw [← mle_bitsPoint u n b hb, h4 _ (bitsPoint_length n b)]
    apply Finset.sum_congr rfl
    intro i _
    rw [mle_bitsPoint _ n b hb]

/-- The sum behind a batched transform. -/
theorem fixed_sum (n k : ℕ) (u q : List F) (xs : List (List F)) (tab : ℕ → F) (outs : ℕ → F)
    (hu : ∀ b < 2 ^ n, u.getD b 0 = ∑ i ∈ Finset.range (2 ^ k), chi q i * (xs.getD i []).getD b 0)
    (ho : ∀ i < 2 ^ k, outs i = ∑ b ∈ Finset.range (2 ^ n), (xs.getD i []).getD b 0 * tab b) :
    ∑ b ∈ Finset.range (2 ^ n), u.getD b 0 * tab b = ∑ i ∈ Finset.range (2 ^ k), chi q i * outs i := by
  rw [Finset.sum_congr rfl (fun b hb => by rw [hu b (Finset.mem_range.mp hb), Finset.sum_mul]), Finset.sum_comm]
  apply Finset.sum_congr rfl
  intro i hi
  rw [ho i (Finset.mem_range.mp hi), Finset.mul_sum]
  apply Finset.sum_congr rfl
  intro b _
  ring

theorem ilog2_pow (n : ℕ) : ilog2 (2 ^ n) = some n := by
  rw [ilog2, if_neg (Nat.pos_iff_ne_zero.mp (Nat.two_pow_pos n)), Nat.log2_two_pow]

theorem splitPoint_append (u v : List F) (k l : ℕ) (hu : u.length = k) (hv : v.length = l) : splitPoint k l (u ++ v) = some (u, v) := by
  rw [splitPoint, if_pos (by simp; omega), List.take_left' hu, List.drop_left' hu, List.take_of_length_le (by omega)]

variable [DecidableEq F]

theorem batchIfft_complete (T : Transcript F) (threads : ℕ) (ht : 0 < threads) (hchar : ∀ k : ℕ, 0 < k → k ≤ 3 → (k : F) ≠ 0)
    (A : ℕ) (g : F) (hg : IsPrimitiveRoot g (2 ^ A)) (L : ℕ) (hL : 1 ≤ L) (hA : L + 1 ≤ A) (w : F) (hw : rootOfUnity A g (L + 1) = some w)
    (hp : IsPrimitiveRoot w (2 ^ (L + 1))) (a : ℕ) (prod output : List (List F)) (hpl : prod.length = 2 ^ a)
    (hpe : ∀ i < 2 ^ a, (prod.getD i []).length = 2 ^ (L + 1)) (hout : ∀ i < 2 ^ a, fft A g true (prod.getD i []) = some (output.getD i []))
    (rx q : List F) (hrx : rx.length = L + 1) (hlast : rx.getLast? = some 0) (hq : q.length = a) (ts : T.State) :
    ∃ p ts1 ts' red, proveBatchIfft threads T A g (rx ++ q) prod ts = some (p, ts') ∧
      p.claims = [∑ i ∈ Finset.range (2 ^ a), chi q i * mle (prod.getD i []) p.proof.point, red] ∧ p.proof.point.length = L + 1 ∧
      p.delegation.length = L ∧
      (Generic p.proof → ∃ v, verify T (∑ i ∈ Finset.range (2 ^ a), chi q i * mle (output.getD i []) rx) p.proof 2 (L + 1) ts = some (v, ts1)) ∧
      ((∀ e ∈ p.delegation, Generic e) → ∀ rand : List F, (∀ i < L, rand[i]? = rx[i]?) →
        ∃ p0, delegation T L (List.iterate (fun x : F => x * x) w⁻¹ L) rand false p.delegationClaims 0 p.delegation
          red p.proof.point ts1 = some (((2 ^ (L + 1) : ℕ) : F)⁻¹ * (1 - p0 + p0 * (1 - 2 * 0)), [p0], ts')) := by
  obtain ⟨fm, m1, m2, m3, m4⟩ := flatFixed_spec prod (L + 1) a hpl hpe q hq
  obtain ⟨p, ts1, ts', red, h1, h2, h3, h4, h5, h6⟩ := proveFft_complete T threads ht hchar A g L hL w hw hp true (((2 ^ (L + 1) : ℕ) : F)⁻¹) rx hrx fm m2 ts
  have hne := natCast_pow_ne_zero w L hp
  have hx0 : rx.getD L 0 = 0 := by
    rw [List.getLast?_eq_getElem?, hrx, Nat.add_sub_cancel] at hlast
    rw [List.getD_eq_getElem?_getD, hlast]; rfl
  refine ⟨p, ts1, ts', red, ?_, by rw [h2, m3 _ h3], h3, h4, ?_, ?_⟩
  · have hne' : prod ≠ [] := by
      intro h; rw [h] at hpl; have := Nat.two_pow_pos a; simp at hpl; omega
    have hhead : prod.head? = some (prod.getD 0 []) := by
      cases prod with
      | nil => exact absurd rfl hne'
      | cons x xs => rfl
    unfold proveBatchIfft
    simp only [hhead, Option.bind_eq_bind, Option.bind_some, hpe 0 (Nat.two_pow_pos a), hpl, ilog2_pow, splitPoint_append rx q (L + 1) a hrx hq]
    rw [if_pos ⟨hlast, hne⟩, m1, Option.bind_some]
    exact h1
  · intro hgen
    obtain ⟨v, hv⟩ := h5 hgen
    refine ⟨v, ?_⟩
    rw [fixed_sum (L + 1) a fm q prod _ (fun i => mle (output.getD i []) rx) m4 (fun i hi => by
      rw [if_pos rfl]
      exact ifft_at_point A g hg L hA w hw _ (hpe i hi) _ (hout i hi) rx hrx)] at hv
    exact hv
  · intro hgen rand hrand
    obtain ⟨p0, hd⟩ := h6 hgen rand hrand
    rw [hx0] at hd
    exact ⟨p0, hd⟩

theorem batchFft_complete (T : Transcript F) (threads : ℕ) (ht : 0 < threads) (hchar : ∀ k : ℕ, 0 < k → k ≤ 3 → (k : F) ≠ 0)
    (A : ℕ) (g : F) (hg : IsPrimitiveRoot g (2 ^ A)) (L : ℕ) (hL : 1 ≤ L) (hA : L + 1 ≤ A) (w : F) (hw : rootOfUnity A g (L + 1) = some w)
    (hp : IsPrimitiveRoot w (2 ^ (L + 1))) (c : ℕ) (input inputFft : List (List F)) (hil : input.length = 2 ^ c)
    (hie : ∀ j < 2 ^ c, (input.getD j []).length = 2 ^ L)
    (hfft : ∀ j < 2 ^ c, fft A g false (resize (2 ^ (L + 1)) 0 (input.getD j [])) = some (inputFft.getD j []))
    (u v : List F) (hu : u.length = L + 1) (hv : v.length = c) (ts : T.State) :
    ∃ p ts1 ts' red, proveBatchFft threads T A g (u ++ v) input ts = some (p, ts') ∧
      p.claims = [∑ j ∈ Finset.range (2 ^ c), chi v j * mle (resize (2 ^ (L + 1)) 0 (input.getD j [])) p.proof.point, red] ∧
      p.proof.point.length = L + 1 ∧ p.delegation.length = L ∧
      (Generic p.proof → ∃ z, verify T (∑ j ∈ Finset.range (2 ^ c), chi v j * mle (inputFft.getD j []) u) p.proof 2 (L + 1) ts = some (z, ts1)) ∧
      ((∀ e ∈ p.delegation, Generic e) →
        verifyFftDelegation T A g L (u ++ v) red p.delegation p.delegationClaims p.proof.point ts1 = some ts') := by
  have hrl : (input.map (resize (2 ^ (L + 1)) 0)).length = 2 ^ c := by rw [List.length_map, hil]
  have hrg : ∀ j < 2 ^ c, (input.map (resize (2 ^ (L + 1)) 0)).getD j [] = resize (2 ^ (L + 1)) 0 (input.getD j []) := by
    intro j hj
    rw [List.getD_eq_getElem _ _ (by omega), List.getElem_map, List.getD_eq_getElem _ _ (by omega)]
  obtain ⟨fm, m1, m2, m3, m4⟩ := flatFixed_spec (input.map (resize (2 ^ (L + 1)) 0)) (L + 1) c hrl (fun j hj => by rw [hrg j hj, length_resize]) v hv
  obtain ⟨p, ts1, ts', red, h1, h2, h3, h4, h5, h6⟩ := proveFft_complete T threads ht hchar A g L hL w hw hp false 1 u hu fm m2 ts
  refine ⟨p, ts1, ts', red, ?_, ?_, h3, h4, ?_, ?_⟩
  · have hhead : input.head? = some (input.getD 0 []) := by
      cases input with
      | nil => have := Nat.two_pow_pos c; simp at hil; omega
      | cons x xs => rfl
    unfold proveBatchFft
    have h2L : 2 * 2 ^ L = 2 ^ (L + 1) := by rw [pow_succ, mul_comm]
    simp only [hhead, Option.bind_eq_bind, Option.bind_some, hie 0 (Nat.two_pow_pos c), h2L, hrl, ilog2_pow, splitPoint_append u v (L + 1) c hu hv, m1]
    exact h1
  · rw [h2, m3 _ h3, Finset.sum_congr rfl (fun j hj => by rw [hrg j (Finset.mem_range.mp hj)])]
  · intro hgen
    obtain ⟨z, hz⟩ := h5 hgen
    refine ⟨z, ?_⟩
    rw [fixed_sum (L + 1) c fm v (input.map (resize (2 ^ (L + 1)) 0)) _ (fun j => mle (inputFft.getD j []) u) m4 (fun j hj => by
      rw [if_neg (by simp), hrg j hj]
      refine fft_at_point A g hg L hA w hw _ (length_resize _ _ _) ?_ _ (hfft j hj) u hu
      intro b hb
      rw [getD_resize]
      split
      · rw [List.getD_eq_default]; rw [hie j hj]; exact hb
      · rfl)] at hz
    exact hz
  · intro hgen
    obtain ⟨p0, hd⟩ := h6 hgen (u ++ v) (fun i hi => by rw [List.getElem?_append_left (by omega)])
    exact verifyFftDelegation_of T A g L hL w hw (u ++ v) red p.delegation h4 p.delegationClaims p.proof.point ts1 ts' (u.getD L 0) p0
      (by rw [List.getElem?_append_left (by omega), getElem?_of_lt u L 0 (by omega)]) hd

end Lemmas
