import Verif.Lemmas.Mle
import Verif.Lemmas.Eq
import Verif.Lemmas.Sumcheck
import Verif.Spec.Layers
import Verif.Model.Layers
import Mathlib.Tactic.LinearCombination

/-!
Helper lemmas for the linear layers.
-/

namespace Lemmas
open Spec Model Polynomial

variable {F : Type} [Field F]

theorem sum_range_mul (a b : ℕ) (f : ℕ → F) :
    ∑ o ∈ Finset.range (b * a), f o = ∑ i ∈ Finset.range b, ∑ j ∈ Finset.range a, f (i * a + j) := by
  induction b with
  | zero => simp
  | succ b ih => rw [Nat.add_mul, one_mul, Finset.sum_range_add, ih, Finset.sum_range_succ]

theorem mle_append_sum (t p q : List F) :
    mle t (p ++ q) = ∑ i ∈ Finset.range (2 ^ q.length),
      (∑ j ∈ Finset.range (2 ^ p.length), t.getD (i * 2 ^ p.length + j) 0 * chi p j) * chi q i := by
  unfold mle
  rw [List.length_append, pow_add, mul_comm, sum_range_mul]
  apply Finset.sum_congr rfl
  intro i _
  rw [Finset.sum_mul]
  apply Finset.sum_congr rfl
  intro j hj
  have hj' := Finset.mem_range.mp hj
  rw [chi_append]
  have h1 : chi p (i * 2 ^ p.length + j) = chi p j := by
    rw [add_comm, mul_comm, chi_add_mul]
  have h2 : (i * 2 ^ p.length + j) / 2 ^ p.length = i := by
    rw [mul_comm, Nat.mul_add_div (by positivity), Nat.div_eq_of_lt hj', add_zero]
  rw [h1, h2]; ring

theorem mle_bits_append (t q : List F) (n k : ℕ) (hk : k < 2 ^ n) :
    mle t (bitsPoint n k ++ q) = ∑ i ∈ Finset.range (2 ^ q.length), t.getD (i * 2 ^ n + k) 0 * chi q i := by
  rw [mle_append_sum]
  apply Finset.sum_congr rfl
  intro i _
  rw [bitsPoint_length, Finset.sum_eq_single k]
  · rw [chi_bitsPoint n k k hk hk]; simp
  · intro j hj hne
    rw [chi_bitsPoint n k j hk (Finset.mem_range.mp hj)]; simp [hne]
  · intro h; exact absurd (Finset.mem_range.mpr hk) h

theorem mle_append_bits (t p : List F) (m i : ℕ) (hi : i < 2 ^ m) :
    mle t (p ++ bitsPoint m i)
      = ∑ j ∈ Finset.range (2 ^ p.length), t.getD (i * 2 ^ p.length + j) 0 * chi p j := by
  rw [mle_append_sum, bitsPoint_length, Finset.sum_eq_single i]
  · rw [chi_bitsPoint m i i hi hi, if_pos rfl, mul_one]
  · intro j hj hne
    rw [chi_bitsPoint m i j hi (Finset.mem_range.mp hj)]; simp [hne]
  · intro h; exact absurd (Finset.mem_range.mpr hi) h

theorem mle_map_range (n : ℕ) (f : ℕ → F) (r : List F) (hr : r.length = n) :
    mle ((List.range (2 ^ n)).map f) r = ∑ i ∈ Finset.range (2 ^ n), f i * chi r i := by
  unfold mle
  rw [hr]
  apply Finset.sum_congr rfl
  intro i hi
  rw [List.getD_eq_getElem?_getD, List.getElem?_map, List.getElem?_range (Finset.mem_range.mp hi)]
  rfl

theorem dense_identity (m n : ℕ) (W x b r : List F) (hr : r.length = m) :
    mle (denseOut m n W x b) r = cubeSum n (fun pt => mle W (pt ++ r) * mle x pt) + mle b r := by
  unfold denseOut
  rw [mle_map_range m _ r hr]
  unfold cubeSum
  have h1 : ∀ k ∈ Finset.range (2 ^ n), mle W (bitsPoint n k ++ r) * mle x (bitsPoint n k)
      = ∑ i ∈ Finset.range (2 ^ m), W.getD (i * 2 ^ n + k) 0 * x.getD k 0 * chi r i := by
    intro k hk
    have hk' := Finset.mem_range.mp hk
    rw [mle_bits_append W r n k hk', mle_bitsPoint x n k hk', hr, Finset.sum_mul]
    apply Finset.sum_congr rfl
    intro i _; ring
  rw [Finset.sum_congr rfl h1, Finset.sum_comm]
  unfold mle
  rw [hr, ← Finset.sum_add_distrib]
  apply Finset.sum_congr rfl
  intro i _
  rw [add_mul, Finset.sum_mul]

theorem matmul_identity (m n c : ℕ) (tr : Bool) (L R bias rc rr : List F) (hc : rc.length = c) (hr : rr.length = m) :
    mle (matmulOut m n c tr L R bias) (rc ++ rr)
      = cubeSum n (fun pt => mle L (pt ++ rr) * mle R (if tr then pt ++ rc else rc ++ pt)) + mle bias rc := by
  have h0 : mle (matmulOut m n c tr L R bias) (rc ++ rr)
      = ∑ i ∈ Finset.range (2 ^ m), (∑ j ∈ Finset.range (2 ^ c),
          ((∑ k ∈ Finset.range (2 ^ n), L.getD (i * 2 ^ n + k) 0 *
            (if tr then R.getD (j * 2 ^ n + k) 0 else R.getD (k * 2 ^ c + j) 0)) + bias.getD j 0)
            * chi rc j) * chi rr i := by
    rw [mle_append_sum, hc, hr]
    apply Finset.sum_congr rfl
    intro i hi
    congr 1
    apply Finset.sum_congr rfl
    intro j hj
    have hi' := Finset.mem_range.mp hi
    have hj' := Finset.mem_range.mp hj
    congr 1
    unfold matmulOut
    have hlt : i * 2 ^ c + j < 2 ^ m * 2 ^ c := by
      have := Nat.mul_le_mul_right (2 ^ c) (Nat.succ_le_of_lt hi')
      rw [Nat.succ_mul] at this; omega
    rw [List.getD_eq_getElem?_getD, List.getElem?_map, List.getElem?_range hlt]
    have e1 : (i * 2 ^ c + j) / 2 ^ c = i := by
      rw [mul_comm, Nat.mul_add_div (by positivity), Nat.div_eq_of_lt hj', add_zero]
    have e2 : (i * 2 ^ c + j) % 2 ^ c = j := by
      rw [mul_comm, Nat.mul_add_mod, Nat.mod_eq_of_lt hj']
    simp only [Option.map_some, Option.getD_some, e1, e2]
  have hR : ∀ k ∈ Finset.range (2 ^ n), mle R (if tr then bitsPoint n k ++ rc else rc ++ bitsPoint n k)
      = ∑ j ∈ Finset.range (2 ^ c),
        (if tr then R.getD (j * 2 ^ n + k) 0 else R.getD (k * 2 ^ c + j) 0) * chi rc j := by
    intro k hk
    have hk' := Finset.mem_range.mp hk
    cases tr with
    | true => simp only [if_true]; rw [mle_bits_append R rc n k hk', hc]
    | false => simp only [Bool.false_eq_true, if_false]; rw [mle_append_bits R rc n k hk', hc]
  have hb : mle bias rc = (∑ i ∈ Finset.range (2 ^ m), chi rr i) * ∑ j ∈ Finset.range (2 ^ c), bias.getD j 0 * chi rc j := by
    have : ∑ i ∈ Finset.range (2 ^ m), chi rr i = 1 := by rw [← hr]; exact sum_chi rr
    rw [this, one_mul]; unfold mle; rw [hc]
  rw [h0, hb]
  unfold cubeSum
  have h1 : ∀ k ∈ Finset.range (2 ^ n),
      mle L (bitsPoint n k ++ rr) * mle R (if tr then bitsPoint n k ++ rc else rc ++ bitsPoint n k)
      = ∑ i ∈ Finset.range (2 ^ m), ∑ j ∈ Finset.range (2 ^ c), L.getD (i * 2 ^ n + k) 0 *
        (if tr then R.getD (j * 2 ^ n + k) 0 else R.getD (k * 2 ^ c + j) 0) * chi rc j * chi rr i := by
    intro k hk
    have hk' := Finset.mem_range.mp hk
    rw [hR k hk, mle_bits_append L rr n k hk', hr, Finset.sum_mul]
    apply Finset.sum_congr rfl
    intro i _
    rw [Finset.mul_sum]
    apply Finset.sum_congr rfl
    intro j _; ring
  rw [Finset.sum_congr rfl h1, Finset.sum_comm, Finset.sum_mul, ← Finset.sum_add_distrib]
  apply Finset.sum_congr rfl
  intro i _
  rw [Finset.sum_comm, Finset.mul_sum, ← Finset.sum_add_distrib, Finset.sum_mul]
  apply Finset.sum_congr rfl
  intro j _
  rw [add_mul, add_mul, Finset.sum_mul, Finset.sum_mul]
  congr 1
  ring

/-- An extension is affine in each variable. -/
theorem mle_affine (t pre post : List F) :
    ∃ P : F[X], P.natDegree ≤ 1 ∧ ∀ x, mle t (pre ++ x :: post) = P.eval x := by
  refine ⟨∑ b ∈ Finset.range (2 ^ (pre.length + (post.length + 1))), C (t.getD b 0 * chi pre b *
    chi post (b / 2 ^ pre.length / 2)) * (if b / 2 ^ pre.length % 2 = 1 then X else 1 - X), ?_, ?_⟩
  · apply natDegree_sum_le_of_forall_le
    intro b _
    refine (natDegree_C_mul_le _ _).trans ?_
    split
    · exact natDegree_X_le
    · have : (1 - X : F[X]) = C (-1) * X + C 1 := by simp; ring
      rw [this]; exact natDegree_linear_le
  · intro x
    rw [eval_finset_sum]
    unfold mle
    rw [List.length_append, List.length_cons]
    apply Finset.sum_congr rfl
    intro b _
    rw [chi_append, chi_cons]
    split <;> simp <;> ring

theorem mle_append_affine (t pre post a c : List F) :
    ∃ P : F[X], P.natDegree ≤ 1 ∧ ∀ x, mle t (a ++ (pre ++ x :: post) ++ c) = P.eval x := by
  obtain ⟨P, h1, h2⟩ := mle_affine t (a ++ pre) (post ++ c)
  exact ⟨P, h1, fun x => by rw [← h2]; simp⟩

theorem product_degree (n : ℕ) (t u a b c d : List F) :
    IndivDegreeLE n 2 (fun pt => mle t (a ++ pt ++ b) * mle u (c ++ pt ++ d)) := by
  intro pre post _
  obtain ⟨P, h1, h2⟩ := mle_append_affine t pre post a b
  obtain ⟨Q, g1, g2⟩ := mle_append_affine u pre post c d
  refine ⟨P * Q, natDegree_mul_le.trans (by omega), fun x => ?_⟩
  simp only
  rw [h2, g2, eval_mul]

theorem individual_pair (a b : F) : individualToVirtual [a, b] = a * b := by
  simp [individualToVirtual]

theorem fixHigh_mle (n m : ℕ) (t r : List F) (ht : t.length = 2 ^ (n + m)) (hr : r.length = m) :
    ∃ u, (⟨n + m, t⟩ : Mle F).fixHighVariablesInPlace r = some ⟨n, u⟩ ∧ u.length = 2 ^ n ∧
      ∀ pt, pt.length = n → mle u pt = mle t (pt ++ r) := by
  refine ⟨fixHigh t r.reverse, ?_, ?_, ?_⟩
  · rw [fixHighVariablesInPlace_eq ⟨n + m, t⟩ ht r (by simp; omega)]
    simp [hr]
  · rw [fixHigh_length t r.reverse (n + m) ht (by simp; omega)]
    simp [hr]
  · intro pt hpt
    have := mle_fixHigh t pt r.reverse (by rw [ht, hpt, List.length_reverse, hr])
    rw [List.reverse_reverse] at this
    exact this.symm

theorem fixLow_mle (n m : ℕ) (t r : List F) (ht : t.length = 2 ^ (n + m)) (hr : r.length = m) :
    ∃ u, (⟨n + m, t⟩ : Mle F).fixVariablesInPlace r = some ⟨n, u⟩ ∧ u.length = 2 ^ n ∧
      ∀ pt, mle u pt = mle t (r ++ pt) := by
  refine ⟨fixLow t r, ?_, ?_, ?_⟩
  · rw [fixVariablesInPlace_eq ⟨n + m, t⟩ ht r (by simp; omega)]
    simp [hr]
  · rw [fixLow_length t r (n + m) ht (by omega)]
    simp [hr]
  · intro pt
    exact (mle_append t r pt (n + m) ht (by omega)).symm

end Lemmas
