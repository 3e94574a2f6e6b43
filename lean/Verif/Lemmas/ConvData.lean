import Verif.Lemmas.ConvFft
import Verif.Lemmas.Conv

/-!
The data the convolution records for its proof.
-/

namespace Lemmas

open Spec Model

variable {F : Type} [Field F]

theorem mapM_getD {α β : Type} (f : α → Option β) (d : α) (d' : β) (l : List α) (P : ℕ → β → Prop)
    (h : ∀ i < l.length, ∃ o, f (l.getD i d) = some o ∧ P i o) :
    ∃ os, l.mapM f = some os ∧ os.length = l.length ∧ ∀ i < l.length, P i (os.getD i d') := by
  induction l generalizing P with
  | nil => exact ⟨[], rfl, rfl, by simp⟩
  | cons a l ih =>
    obtain ⟨o, h1, h2⟩ := h 0 (by simp)
    obtain ⟨os, o1, o2, o3⟩ := ih (fun i => P (i + 1)) (fun i hi => by simpa using h (i + 1) (by simpa using hi))
    rw [List.getD_cons_zero] at h1
    refine ⟨o :: os, ?_, by simp [o2], ?_⟩
    · rw [List.mapM_cons, h1, o1]; rfl
    · intro i hi
      cases i with
      | zero => simpa using h2
      | succ i => simpa using o3 i (by simpa using hi)

theorem mapM_range_getD {β : Type} (f : ℕ → Option β) (d' : β) (n : ℕ) (P : ℕ → β → Prop) (h : ∀ i < n, ∃ o, f i = some o ∧ P i o) :
    ∃ os, (List.range n).mapM f = some os ∧ os.length = n ∧ ∀ i < n, P i (os.getD i d') := by
  have := mapM_getD f 0 d' (List.range n) P (by
    intro i hi
    rw [List.length_range] at hi
    rw [List.getD_eq_getElem _ _ (by simpa using hi), List.getElem_range]
    exact h i hi)
  simpa using this

/-- The kernel of channels `i`, `j` in a frame. -/
def kernelAt (toF : ℤ → F) (data : List ℤ) (n K kx i j b : ℕ) : F :=
  if b / n < K ∧ b % n < K then toF (data.getD ((i * kx + j) * (K * K) + (b / n * K + b % n)) 0) else 0

/-- What is known about the data. -/
structure ConvFacts (A : ℕ) (g : F) (toF : ℤ → F) (w : F) (filter x : List ℤ) (n L K kw kx : ℕ) (d : ConvData F) : Prop where
  inLen : d.input.length = kx
  inEach : ∀ j < kx, (d.input.getD j []).length = 2 ^ L ∧
    ∀ b < 2 ^ L, (d.input.getD j []).getD b 0 = toF (x.getD (j * 2 ^ L + (2 ^ L - 1 - b)) 0)
  fftLen : d.inputFft.length = kx
  fftEach : ∀ j < kx, fft A g false (resize (2 ^ (L + 1)) 0 (d.input.getD j [])) = some (d.inputFft.getD j []) ∧
    (d.inputFft.getD j []).length = 2 ^ (L + 1)
  prodLen : d.prod.length = kw
  prodEach : ∀ i < kw, (d.prod.getD i []).length = 2 ^ (L + 1) ∧ ∀ k < 2 ^ (L + 1), (d.prod.getD i []).getD k 0
    = ∑ j ∈ Finset.range kx, (d.inputFft.getD j []).getD k 0 * ∑ b ∈ Finset.range (2 ^ (L + 1)), w ^ (k * b) * kernelAt toF filter n K kx i j b
  outLen : d.output.length = kw
  outEach : ∀ i < kw, fft A g true (d.prod.getD i []) = some (d.output.getD i []) ∧ (d.output.getD i []).length = 2 ^ (L + 1)

theorem fftConvData_spec (A : ℕ) (g : F) (hg : IsPrimitiveRoot g (2 ^ A)) (toF : ℤ → F) (toE : F → ℤ) (m : ℕ) (hm : 2 * m + 1 ≤ A)
    (w : F) (hw : rootOfUnity A g (2 * m + 1) = some w)
    (f : FftFilter) (x : Tensor ℤ) (kw kx K : ℕ) (hxs : x.shape = [kx, 2 ^ m, 2 ^ m]) (hxl : x.data.length = kx * (2 ^ m * 2 ^ m))
    (hfs : f.shape = [kw, kx, 2 ^ m, 2 ^ m]) (hfo : f.ogShape = [kw, kx, K, K]) (hfl : f.data.length = kw * kx * K * K) :
    ∃ d us, fftConvData A g toF toE f x = some d ∧ ConvFacts A g toF w f.data x.data (2 ^ m) (2 * m) K kw kx d ∧
      d.output.mapM (fun u => indexU u (2 ^ m)) = some us ∧ d.outputAsElement = us.flatten.map toE ∧
      fftConvField A g toF f x = some (2 ^ m, d.output) := by
  obtain ⟨n, hn⟩ : ∃ n, n = 2 ^ m := ⟨_, rfl⟩
  have hnpos : 0 < n := by rw [hn]; exact Nat.two_pow_pos _
  have hL : n * n = 2 ^ (2 * m) := by rw [hn, two_mul m, pow_add]
  have hN : 2 * n * n = 2 ^ (2 * m + 1) := by rw [hn, pow_succ, two_mul m, pow_add]; ring
  have hnp : nextPow2 n = n := by rw [hn]; exact nextPow2_pow m
  rw [← hn] at hxs hxl hfs ⊢
  have hnn : 0 < n * n := Nat.mul_pos hnpos hnpos
  obtain ⟨input, hin⟩ : ∃ input, input = (chunks (n * n) (x.data.map toF)).map List.reverse := ⟨_, rfl⟩
  have hcl : (x.data.map toF).length = n * n * kx := by rw [List.length_map, hxl, mul_comm]
  have hinLen : input.length = kx := by rw [hin, chunks_eq (n * n) kx hnn _ hcl]; simp
  have hinEach : ∀ j < kx, (input.getD j []).length = n * n ∧
      ∀ b < n * n, (input.getD j []).getD b 0 = toF (x.data.getD (j * (n * n) + (n * n - 1 - b)) 0) := by
    intro j hj
    have hchl : (((x.data.map toF).drop (n * n * j)).take (n * n)).length = n * n := by
      rw [List.length_take, List.length_drop, hcl]
      have : n * n * j + n * n ≤ n * n * kx := by rw [← Nat.mul_succ]; exact Nat.mul_le_mul_left _ hj
      omega
    have he : input.getD j [] = (((x.data.map toF).drop (n * n * j)).take (n * n)).reverse := by
      rw [hin, chunks_eq (n * n) kx hnn _ hcl, List.map_map, getD_map_range' _ _ _ _ hj]; rfl
    rw [he]
    refine ⟨by rw [List.length_reverse, hchl], ?_⟩
    intro b hb
    rw [getD_reverse' _ _ _ (by rw [hchl]; exact hb), hchl]
    simp only [List.getD_eq_getElem?_getD, List.getElem?_take, List.getElem?_drop, List.getElem?_map]
    rw [if_pos (by omega), mul_comm (n * n) j]
    have : j * (n * n) + (n * n - 1 - b) < x.data.length := by rw [hxl]; exact mul_add_lt hj (by omega)
    rw [List.getElem?_eq_getElem this]
    rfl
  -- transforms of the input
  obtain ⟨xf, xf1, xf2, xf3⟩ := mapM_getD (fun c => fft A g false (resize (2 * n * n) 0 c)) [] [] input
    (fun j o => fft A g false (resize (2 ^ (2 * m + 1)) 0 (input.getD j [])) = some o ∧ o.length = 2 ^ (2 * m + 1)) (by
      intro j _
      obtain ⟨o, o1, o2, _⟩ := fft_forward A g hg (2 * m) hm w hw (resize (2 ^ (2 * m + 1)) 0 (input.getD j [])) (length_resize _ _ _)
      exact ⟨o, by rw [hN, o1], o1, o2⟩)
  rw [hinLen] at xf2 xf3
  -- kernels
  have hrange : ∀ i j, i < kw → j < kx → i * kx * K * K + (j + 1) * K * K ≤ f.data.length := by
    intro i j hi hj
    rw [hfl]
    have h1 : i * kx + (j + 1) ≤ kw * kx := mul_add_lt hi hj
    calc i * kx * K * K + (j + 1) * K * K = (i * kx + (j + 1)) * (K * K) := by ring
      _ ≤ kw * kx * (K * K) := Nat.mul_le_mul_right _ h1
      _ = kw * kx * K * K := by ring
  have hker : ∀ i j, i < kw → j < kx → ∃ ws wk wf, slice? f.data (i * kx * K * K + j * K * K) (i * kx * K * K + (j + 1) * K * K) = some ws ∧
      indexW toF ws K n (2 * n * n) = some wk ∧ fft A g false wk = some wf ∧ wf.length = 2 * n * n ∧
      ∀ k, k < 2 * n * n → wf.getD k 0 = ∑ b ∈ Finset.range (2 ^ (2 * m + 1)), w ^ (k * b) * kernelAt toF f.data n K kx i j b := by
    intro i j hi hj
    have hKK : i * kx * K * K + (j + 1) * K * K - (i * kx * K * K + j * K * K) = K * K := by
      have : (j + 1) * K * K = j * K * K + K * K := by ring
      omega
    obtain ⟨ws, s1, s2, s3⟩ := slice_spec f.data (i * kx * K * K + j * K * K) (i * kx * K * K + (j + 1) * K * K) 0
      (by have : (j + 1) * K * K = j * K * K + K * K := by ring
          omega) (hrange i j hi hj)
    rw [hKK] at s2 s3
    obtain ⟨wk, w1, w2, w3⟩ := indexW_spec toF ws K n (2 * n * n) s2
    obtain ⟨wf, f1, f2, f3⟩ := fft_forward A g hg (2 * m) hm w hw wk (by rw [w2, hN])
    refine ⟨ws, wk, wf, s1, w1, f1, by rw [f2, hN], ?_⟩
    intro k hk
    rw [f3 k (by omega)]
    apply Finset.sum_congr rfl
    intro b hb
    rw [w3 b (by have := Finset.mem_range.mp hb; omega), kernelAt]
    by_cases h : b / n < K ∧ b % n < K
    · rw [if_pos h, if_pos h, s3 _ (mul_add_lt h.1 h.2)]
      congr 3
      ring
    · rw [if_neg h, if_neg h]
  -- products
  have hchan : ∀ i, i < kw → ∃ o, (List.range kx).foldlM (convStep A g toF f xf kx n K i) (List.replicate (2 * n * n) 0) = some o ∧
      (o.length = 2 ^ (2 * m + 1) ∧ ∀ k < 2 ^ (2 * m + 1), o.getD k 0
        = ∑ j ∈ Finset.range kx, (xf.getD j []).getD k 0 * ∑ b ∈ Finset.range (2 ^ (2 * m + 1)), w ^ (k * b) * kernelAt toF f.data n K kx i j b) := by
    intro i hi
    have hfold : ∀ c, c ≤ kx → ∃ o, (List.range c).foldlM (convStep A g toF f xf kx n K i) (List.replicate (2 * n * n) 0) = some o ∧
        o.length = 2 * n * n ∧ ∀ k, k < 2 * n * n → o.getD k 0
          = ∑ j ∈ Finset.range c, (xf.getD j []).getD k 0 * ∑ b ∈ Finset.range (2 ^ (2 * m + 1)), w ^ (k * b) * kernelAt toF f.data n K kx i j b := by
      intro c
      induction c with
      | zero =>
        intro _
        refine ⟨_, rfl, by simp, ?_⟩
        intro k hk
        simp [List.getD_eq_getElem?_getD, List.getElem?_replicate, hk]
      | succ c ih =>
        intro hc
        obtain ⟨o, o1, o2, o3⟩ := ih (by omega)
        obtain ⟨ws, wk, wf, w1, w2, w3, w4, w5⟩ := hker i c hi (by omega)
        obtain ⟨x1, x2⟩ := xf3 c (by omega)
        obtain ⟨o', a1, a2, a3⟩ := accumulate_spec (2 * n * n) o (xf.getD c []) wf o2 (by omega) (by omega)
        rw [List.range_succ, List.foldlM_append, o1]
        refine ⟨o', ?_, a2, ?_⟩
        · simp only [Option.bind_eq_bind, Option.bind_some, List.foldlM_cons, List.foldlM_nil, convStep, w1, w2, w3]
          rw [getElem?_of_lt xf c [] (by omega), Option.bind_some, a1]
          rfl
        · intro k hk
          rw [a3 k hk, o3 k hk, Finset.sum_range_succ, w5 k hk]
    obtain ⟨o, o1, o2, o3⟩ := hfold kx le_rfl
    exact ⟨o, o1, by rw [o2, hN], fun k hk => o3 k (by omega)⟩
  obtain ⟨prod, p1, p2, p3'⟩ := mapM_range_getD
    (fun i => (List.range kx).foldlM (convStep A g toF f xf kx n K i) (List.replicate (2 * n * n) 0)) [] kw
    (fun i o => (List.range kx).foldlM (convStep A g toF f xf kx n K i) (List.replicate (2 * n * n) 0) = some o ∧
      (o.length = 2 ^ (2 * m + 1) ∧ ∀ k < 2 ^ (2 * m + 1), o.getD k 0
        = ∑ j ∈ Finset.range kx, (xf.getD j []).getD k 0 * ∑ b ∈ Finset.range (2 ^ (2 * m + 1)), w ^ (k * b) * kernelAt toF f.data n K kx i j b))
    (fun i hi => by obtain ⟨o, h1, h2⟩ := hchan i hi; exact ⟨o, h1, h1, h2⟩)
  have p3 := fun i hi => (p3' i hi).2
  obtain ⟨output, q1, q2, q3⟩ := mapM_getD (fft A g true) [] [] prod
    (fun i o => fft A g true (prod.getD i []) = some o ∧ o.length = 2 ^ (2 * m + 1)) (by
      intro i hi
      obtain ⟨o, o1, o2, _⟩ := fft_inverse A g hg (2 * m) hm w hw (prod.getD i []) (p3 i (by omega)).1
      exact ⟨o, o1, o1, o2⟩)
  rw [p2] at q2 q3
  obtain ⟨us, u1, _, _⟩ := mapM_getD (fun u => indexU u n) [] [] output (fun _ _ => True) (by
    intro i hi
    obtain ⟨o, e1, _⟩ := indexU_spec (output.getD i []) n (by rw [(q3 i (by omega)).2, hN])
    exact ⟨o, e1, trivial⟩)
  refine ⟨⟨input, xf, prod, output, us.flatten.map toE⟩, us, ?_, ?_, u1, rfl, ?_⟩
  · unfold fftConvData
    simp only [hxs, hfs, hfo, List.getElem?_cons_succ, List.getElem?_cons_zero, Option.bind_eq_bind, Option.bind_some, hnp, ← hin, xf1, p1, q1, u1]
  · exact ⟨hinLen, fun j hj => by rw [← hL]; exact hinEach j hj, xf2, xf3, p2, p3, q2, q3⟩
  · unfold fftConvField
    have h1 : (chunks (n * n) (x.data.map toF)).mapM (fftInput A g (2 * n * n)) = some xf := by
      rw [hin, List.mapM_map] at xf1
      exact xf1
    have h2 : ((List.range kw).mapM fun i => do
        let o ← (List.range kx).foldlM (convStep A g toF f xf kx n K i) (List.replicate (2 * n * n) 0)
        fft A g true o) = some output := by
      obtain ⟨os, e1, e2, e3⟩ := mapM_range_getD (fun i => do
        let o ← (List.range kx).foldlM (convStep A g toF f xf kx n K i) (List.replicate (2 * n * n) 0)
        fft A g true o) [] kw (fun i o => o = output.getD i []) (by
          intro i hi
          exact ⟨_, by simp only [(p3' i hi).1, Option.bind_eq_bind, Option.bind_some]; exact (q3 i hi).1, rfl⟩)
      rw [e1]
      congr 1
      exact list_ext_getD [] _ _ (by rw [e2, q2]) (fun i hi => e3 i (by omega))
    simp only [hxs, hfs, hfo, List.getElem?_cons_succ, List.getElem?_cons_zero, Option.bind_eq_bind, Option.bind_some, hnp]
    rw [h1, Option.bind_some]
    simp only [Option.bind_eq_bind] at h2
    rw [h2]
    rfl

end Lemmas
