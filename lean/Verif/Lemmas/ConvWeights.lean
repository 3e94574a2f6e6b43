import Verif.Lemmas.ConvSteps

/-!
The steps of the convolution proof about the filter: the entrywise products and the transform of the weights.
-/

namespace Lemmas

open Spec Model

variable {F : Type} [Field F]

theorem weightedKernels_spec (toF : ℤ → F) (data : List ℤ) (size count : ℕ) (start : ℕ → ℕ) (beta : ℕ → Option F) (B : ℕ → F)
    (hb : ∀ i < count, beta i = some (B i)) (hs : ∀ i < count, start i + size ≤ data.length) :
    ∃ o, weightedKernels toF data size count start beta = some o ∧ o.length = size ∧
      ∀ k < size, o.getD k 0 = ∑ i ∈ Finset.range count, B i * toF (data.getD (start i + k) 0) := by
  refine ⟨(List.range size).map fun k => ∑ i ∈ Finset.range count, B i * toF (data.getD (start i + k) 0), ?_, by simp, ?_⟩
  · unfold weightedKernels
    apply mapM_some'
    intro k hk
    have hk' : k < size := by simpa using hk
    rw [mapM_some' _ (fun i => B i * toF (data.getD (start i + k) 0))]
    · simp only [Option.bind_eq_bind, Option.bind_some]
      rw [← List.sum_eq_foldl, sum_map_range]
    · intro i hi
      have hi' : i < count := by simpa using hi
      have := hs i hi'
      simp only [hb i hi', Option.bind_eq_bind, Option.bind_some, getElem?_of_lt data (start i + k) 0 (by omega)]
  · intro k hk
    rw [getD_map_range' _ _ _ _ hk]

theorem indexWf_spec (v : List F) (K n len : ℕ) (hv : v.length = K * K) :
    ∃ o, indexWf v K n len = some o ∧ o.length = len ∧
      ∀ b < len, o.getD b 0 = if b / n < K ∧ b % n < K then v.getD (b / n * K + b % n) 0 else 0 := by
  refine ⟨(List.range len).map fun b => if b / n < K ∧ b % n < K then v.getD (b / n * K + b % n) 0 else 0, ?_, by simp, ?_⟩
  · unfold indexWf
    apply mapM_some'
    intro b _
    by_cases h : b / n < K ∧ b % n < K
    · rw [if_pos h, if_pos h, getElem?_of_lt v _ 0 (by rw [hv]; exact mul_add_lt h.1 h.2)]
    · rw [if_neg h, if_neg h]
  · intro b hb
    rw [getD_map_range' _ _ _ _ hb]

/-- The kernels of input channel `j`, weighted over the output channels. -/
def aggKernel (toF : ℤ → F) (data : List ℤ) (n K a kx : ℕ) (q : List F) (j b : ℕ) : F :=
  ∑ i ∈ Finset.range (2 ^ a), chi q i * kernelAt toF data n K kx i j b

theorem computeBetas_getElem (q : List F) (i : ℕ) (h : i < 2 ^ q.length) : (computeBetas q)[i]? = some (chi q i) := by
  rw [computeBetas_spec, List.getElem?_map, List.getElem?_range h]; rfl

theorem aggregatedFilter_spec (A : ℕ) (g : F) (hg : IsPrimitiveRoot g (2 ^ A)) (toF : ℤ → F) (data : List ℤ) (n K L a c : ℕ) (hA : L + 1 ≤ A) (w : F)
    (hw : rootOfUnity A g (L + 1) = some w) (hN : 2 * n * n = 2 ^ (L + 1)) (hd : data.length = 2 ^ a * 2 ^ c * (K * K)) (q : List F) (hq : q.length = a) :
    ∃ agg, aggregatedFilter A g toF data (2 ^ a) (2 ^ c) n K (computeBetas q) = some agg ∧ agg.length = 2 ^ c ∧
      ∀ j < 2 ^ c, ∃ v : List F, v.length = 2 ^ (L + 1) ∧ (∀ b < 2 ^ (L + 1), v.getD b 0 = aggKernel toF data n K a (2 ^ c) q j b) ∧
        fft A g false v = some (agg.getD j []) ∧ (agg.getD j []).length = 2 ^ (L + 1) ∧
        ∀ k < 2 ^ (L + 1), (agg.getD j []).getD k 0
          = ∑ i ∈ Finset.range (2 ^ a), chi q i * ∑ b ∈ Finset.range (2 ^ (L + 1)), w ^ (k * b) * kernelAt toF data n K (2 ^ c) i j b := by
  unfold aggregatedFilter
  refine mapM_range_getD _ [] (2 ^ c) (fun j o => ∃ v : List F, v.length = 2 ^ (L + 1) ∧
    (∀ b < 2 ^ (L + 1), v.getD b 0 = aggKernel toF data n K a (2 ^ c) q j b) ∧ fft A g false v = some o ∧ o.length = 2 ^ (L + 1) ∧
    ∀ k < 2 ^ (L + 1), o.getD k 0
      = ∑ i ∈ Finset.range (2 ^ a), chi q i * ∑ b ∈ Finset.range (2 ^ (L + 1)), w ^ (k * b) * kernelAt toF data n K (2 ^ c) i j b) ?_
  intro j hj
  obtain ⟨o, o1, o2, o3⟩ := weightedKernels_spec toF data (K * K) (2 ^ a) (fun i => i * 2 ^ c * (K * K) + j * (K * K)) (fun i => (computeBetas q)[i]?)
    (chi q) (fun i hi => computeBetas_getElem q i (by rw [hq]; exact hi)) (by
      intro i hi
      rw [hd]
      have h1 : i * 2 ^ c + (j + 1) ≤ 2 ^ a * 2 ^ c := mul_add_lt hi hj
      calc i * 2 ^ c * (K * K) + j * (K * K) + K * K = (i * 2 ^ c + (j + 1)) * (K * K) := by ring
        _ ≤ 2 ^ a * 2 ^ c * (K * K) := Nat.mul_le_mul_right _ h1)
  obtain ⟨v, v1, v2, v3⟩ := indexWf_spec o K n (2 * n * n) o2
  obtain ⟨f, f1, f2, f3⟩ := fft_forward A g hg L hA w hw v (by rw [v2, hN])
  have hv : ∀ b < 2 ^ (L + 1), v.getD b 0 = aggKernel toF data n K a (2 ^ c) q j b := by
    intro b hb
    rw [v3 b (by omega), aggKernel]
    unfold kernelAt
    by_cases h : b / n < K ∧ b % n < K
    · simp only [if_pos h]
      rw [o3 _ (mul_add_lt h.1 h.2)]
      apply Finset.sum_congr rfl
      intro i _
      congr 3
      ring
    · simp only [if_neg h, mul_zero, Finset.sum_const_zero]
  refine ⟨f, ?_, v, by rw [v2, hN], hv, f1, f2, ?_⟩
  · simp only [Option.bind_eq_bind, o1, Option.bind_some, v1, f1]
  · intro k hk
    rw [f3 k hk, Finset.sum_congr rfl (fun b hb => by rw [hv b (Finset.mem_range.mp hb), aggKernel, Finset.mul_sum]), Finset.sum_comm]
    apply Finset.sum_congr rfl
    intro i _
    rw [Finset.mul_sum]
    apply Finset.sum_congr rfl
    intro b _
    ring

theorem cubeSum_three (n : ℕ) (f g h : List F) :
    (cubeSum n fun pt => mle f pt * mle g pt * mle h pt) = ∑ b ∈ Finset.range (2 ^ n), f.getD b 0 * g.getD b 0 * h.getD b 0 := by
  unfold cubeSum
  apply Finset.sum_congr rfl
  intro b hb
  have hb' := Finset.mem_range.mp hb
  beta_reduce
  rw [mle_bitsPoint _ _ b hb', mle_bitsPoint _ _ b hb', mle_bitsPoint _ _ b hb']

theorem flatten_getD (xs : List (List F)) (n k : ℕ) (hl : xs.length = k) (he : ∀ i < k, (xs.getD i []).length = n) (i b : ℕ) (hi : i < k) (hb : b < n) :
    xs.flatten.getD (i * n + b) 0 = (xs.getD i []).getD b 0 := by
  have hlen : ∀ u ∈ xs, u.length = n := by
    intro u hu
    obtain ⟨i, hi, rfl⟩ := List.getElem_of_mem hu
    have := he i (by omega)
    rwa [List.getD_eq_getElem _ _ hi] at this
  rw [getD_flatten _ _ hlen i b 0 (by omega) hb, List.getD_eq_getElem xs [] (by omega)]

/-- The sum behind the sumcheck of the products. -/
theorem products_sum (L a c : ℕ) (agg xf prod : List (List F)) (q ip : List F) (wf : ℕ → ℕ → ℕ → F) (betas : List (List F))
    (hal : agg.length = 2 ^ c) (hae : ∀ j < 2 ^ c, (agg.getD j []).length = 2 ^ (L + 1))
    (hav : ∀ j < 2 ^ c, ∀ k < 2 ^ (L + 1), (agg.getD j []).getD k 0 = ∑ i ∈ Finset.range (2 ^ a), chi q i * wf i j k)
    (hxl : xf.length = 2 ^ c) (hxe : ∀ j < 2 ^ c, (xf.getD j []).length = 2 ^ (L + 1))
    (hbl : betas.length = 2 ^ c) (hbe : ∀ j < 2 ^ c, betas.getD j [] = computeBetas ip)
    (hip : ip.length = L + 1)
    (hpv : ∀ i < 2 ^ a, ∀ k < 2 ^ (L + 1), (prod.getD i []).getD k 0 = ∑ j ∈ Finset.range (2 ^ c), (xf.getD j []).getD k 0 * wf i j k) :
    (cubeSum (L + 1 + c) fun pt => mle agg.flatten pt * mle xf.flatten pt * mle betas.flatten pt)
      = ∑ i ∈ Finset.range (2 ^ a), chi q i * mle (prod.getD i []) ip := by
  rw [cubeSum_three, pow_add, mul_comm, sum_range_mul']
  have h1 : ∀ j ∈ Finset.range (2 ^ c), ∑ k ∈ Finset.range (2 ^ (L + 1)), agg.flatten.getD (j * 2 ^ (L + 1) + k) 0 * xf.flatten.getD (j * 2 ^ (L + 1) + k) 0
      * betas.flatten.getD (j * 2 ^ (L + 1) + k) 0
      = ∑ i ∈ Finset.range (2 ^ a), ∑ k ∈ Finset.range (2 ^ (L + 1)), chi q i * (chi ip k * ((xf.getD j []).getD k 0 * wf i j k)) := by
    intro j hj
    have hj' := Finset.mem_range.mp hj
    rw [Finset.sum_comm]
    apply Finset.sum_congr rfl
    intro k hk
    have hk' := Finset.mem_range.mp hk
    rw [flatten_getD agg _ _ hal hae j k hj' hk', flatten_getD xf _ _ hxl hxe j k hj' hk',
      flatten_getD betas (2 ^ (L + 1)) _ hbl (fun j hj => by rw [hbe j hj, computeBetas_spec, List.length_map, List.length_range, hip]) j k hj' hk', hbe j hj', hav j hj' k hk',
      List.getD_eq_getElem?_getD (l := computeBetas ip), computeBetas_getElem ip k (by rw [hip]; exact hk'), Option.getD_some, Finset.sum_mul, Finset.sum_mul]
    apply Finset.sum_congr rfl
    intro i _
    ring
  rw [Finset.sum_congr rfl h1, Finset.sum_comm]
  apply Finset.sum_congr rfl
  intro i hi
  have hi' := Finset.mem_range.mp hi
  unfold mle
  rw [hip, Finset.mul_sum, Finset.sum_comm]
  apply Finset.sum_congr rfl
  intro k hk
  rw [hpv i hi' k (Finset.mem_range.mp hk), Finset.sum_mul, Finset.mul_sum]
  apply Finset.sum_congr rfl
  intro j _
  ring

variable [DecidableEq F]

theorem products_complete (T : Transcript F) (threads : ℕ) (ht : 0 < threads) (hchar : ∀ k : ℕ, 0 < k → k ≤ 3 → (k : F) ≠ 0)
    (A : ℕ) (g : F) (hg : IsPrimitiveRoot g (2 ^ A)) (toF : ℤ → F) (f : FftFilter) (n K L a c : ℕ) (hA : L + 1 ≤ A) (w : F)
    (hw : rootOfUnity A g (L + 1) = some w) (hN : 2 * n * n = 2 ^ (L + 1)) (hd : f.data.length = 2 ^ a * 2 ^ c * (K * K)) (q : List F) (hq : q.length = a)
    (x : List ℤ) (d : ConvData F) (hf : ConvFacts A g toF w f.data x n L K (2 ^ a) (2 ^ c) d) (ip : List F) (hip : ip.length = L + 1) (ts : T.State) :
    ∃ (agg : List (List F)) (had : IOPProof F) (claims : List F) (ts' : T.State), (agg.length = 2 ^ c ∧
      ∀ j < 2 ^ c, ∃ v : List F, v.length = 2 ^ (L + 1) ∧ (∀ b < 2 ^ (L + 1), v.getD b 0 = aggKernel toF f.data n K a (2 ^ c) q j b) ∧
        fft A g false v = some (agg.getD j [])) ∧
      proveConvProducts threads T A g toF f (2 ^ a) (2 ^ c) n K d.inputFft q ip ts = some (had, claims, ts') ∧ had.point.length = L + 1 + c ∧
      claims = [∑ j ∈ Finset.range (2 ^ c), chi (had.point.drop (L + 1)) j * mle (agg.getD j []) (had.point.take (L + 1)),
        ∑ j ∈ Finset.range (2 ^ c), chi (had.point.drop (L + 1)) j * mle (d.inputFft.getD j []) (had.point.take (L + 1)),
        identityEval ip had.point] ∧
      (Generic had → ∃ v, verify T (∑ i ∈ Finset.range (2 ^ a), chi q i * mle (d.prod.getD i []) ip) had 3 (L + 1 + c) ts = some (v, ts')) := by
  obtain ⟨agg, a1, a2, a3⟩ := aggregatedFilter_spec A g hg toF f.data n K L a c hA w hw hN hd q hq
  have hae : ∀ j < 2 ^ c, (agg.getD j []).length = 2 ^ (L + 1) := fun j hj => by obtain ⟨_, _, _, _, h, _⟩ := a3 j hj; exact h
  have hxe : ∀ j < 2 ^ c, (d.inputFft.getD j []).length = 2 ^ (L + 1) := fun j hj => (hf.fftEach j hj).2
  have hbe : ∀ j < 2 ^ c, (List.replicate (2 ^ c) (computeBetas ip)).getD j [] = computeBetas ip := by
    intro j hj
    rw [List.getD_eq_getElem _ _ (by simpa using hj), List.getElem_replicate]
  have hbe' : ∀ j < 2 ^ c, ((List.replicate (2 ^ c) (computeBetas ip)).getD j []).length = 2 ^ (L + 1) := by
    intro j hj; rw [hbe j hj, computeBetas_length, hip]
  have l1 := (mle_flatten agg (L + 1) c a2 hae (List.replicate (L + 1) 0) (List.replicate c 0) (by simp) (by simp)).1
  have l2 := (mle_flatten d.inputFft (L + 1) c hf.fftLen hxe (List.replicate (L + 1) 0) (List.replicate c 0) (by simp) (by simp)).1
  have l3 := (mle_flatten (List.replicate (2 ^ c) (computeBetas ip)) (L + 1) c (by simp) hbe' (List.replicate (L + 1) 0) (List.replicate c 0)
    (by simp) (by simp)).1
  obtain ⟨had, ts', h1, h2, h3⟩ := prove_three T threads ht (L + 1 + c) hchar agg.flatten d.inputFft.flatten
    (List.replicate (2 ^ c) (computeBetas ip)).flatten l1 l2 l3 ts
  have hsplit : had.point = had.point.take (L + 1) ++ had.point.drop (L + 1) := (List.take_append_drop _ _).symm
  have hlt : (had.point.take (L + 1)).length = L + 1 := by rw [List.length_take]; omega
  have hld : (had.point.drop (L + 1)).length = c := by rw [List.length_drop]; omega
  refine ⟨agg, had, _, ts', ⟨a2, fun j hj => ?_⟩, ?_, h2, rfl, ?_⟩
  · obtain ⟨v, v1, v2, v3, _⟩ := a3 j hj
    exact ⟨v, v1, v2, v3⟩
  · unfold proveConvProducts
    simp only [a1, Option.bind_eq_bind, Option.bind_some, l1, l2, l3, Nat.log2_two_pow, ofEvals_some _ _ l1, ofEvals_some _ _ l2, ofEvals_some _ _ l3, h1]
    rw [hsplit, (mle_flatten agg (L + 1) c a2 hae _ _ hlt hld).2, (mle_flatten d.inputFft (L + 1) c hf.fftLen hxe _ _ hlt hld).2,
      (mle_flatten (List.replicate (2 ^ c) (computeBetas ip)) (L + 1) c (by simp) hbe' _ _ hlt hld).2, ← hsplit]
    congr 5
    rw [Finset.sum_congr rfl (fun j hj => by rw [hbe j (Finset.mem_range.mp hj)]), ← Finset.sum_mul]
    have hchi := sum_chi (had.point.drop (L + 1))
    rw [hld] at hchi
    rw [hchi, one_mul, mle_computeBetas _ _ (by rw [hlt, hip]), identityEval_eq, hip, h2, min_eq_left (by omega), List.take_of_length_le (l := ip) (by omega)]
  · intro hgen
    refine ⟨_, Eq.trans ?_ (h3 hgen)⟩
    rw [products_sum L a c agg d.inputFft d.prod q ip
      (fun i j k => ∑ b ∈ Finset.range (2 ^ (L + 1)), w ^ (k * b) * kernelAt toF f.data n K (2 ^ c) i j b) (List.replicate (2 ^ c) (computeBetas ip))
      a2 hae (fun j hj k hk => by obtain ⟨_, _, _, _, _, h⟩ := a3 j hj; exact h k hk) hf.fftLen hxe (by simp) hbe hip
      (fun i hi k hk => (hf.prodEach i hi).2 k hk)]

theorem weights_complete (T : Transcript F) (threads : ℕ) (ht : 0 < threads) (hchar : ∀ k : ℕ, 0 < k → k ≤ 3 → (k : F) ≠ 0)
    (A : ℕ) (g : F) (hg : IsPrimitiveRoot g (2 ^ A)) (toF : ℤ → F) (data : List ℤ) (n K L a c : ℕ) (hL : 1 ≤ L) (hA : L + 1 ≤ A) (w : F)
    (hw : rootOfUnity A g (L + 1) = some w) (hp : IsPrimitiveRoot w (2 ^ (L + 1))) (hN : 2 * n * n = 2 ^ (L + 1)) (hn : n * n = 2 ^ L) (hK : K ≤ n)
    (hd : data.length = 2 ^ a * 2 ^ c * (K * K)) (u v q : List F) (hu : u.length = L + 1) (hv : v.length = c) (hq : q.length = a)
    (agg : List (List F)) (hagg : ∀ j < 2 ^ c, ∃ o : List F, o.length = 2 ^ (L + 1) ∧
      (∀ b < 2 ^ (L + 1), o.getD b 0 = aggKernel toF data n K a (2 ^ c) q j b) ∧ fft A g false o = some (agg.getD j [])) (ts : T.State) :
    ∃ (p : FftProof F) (pe wl : List F) (ts1 ts' : T.State) (red : F), proveFftWeights threads T A g toF data (2 ^ a) (2 ^ c) n K (u ++ v ++ q) ts = some (p, pe, ts') ∧
      pe.length = K * K ∧ (∀ k < K * K, pe.getD k 0 = ∑ t ∈ Finset.range (2 ^ a * 2 ^ c), chi (v ++ q) t * toF (data.getD (t * (K * K) + k) 0)) ∧
      (wl.length = 2 ^ (L + 1) ∧ ∀ b < 2 ^ (L + 1), wl.getD b 0 = if b / n < K ∧ b % n < K then pe.getD (b / n * K + b % n) 0 else 0) ∧
      p.claims = [mle wl p.proof.point, red] ∧ p.proof.point.length = L + 1 ∧ p.delegation.length = L ∧
      (Generic p.proof → ∃ z, verify T (∑ j ∈ Finset.range (2 ^ c), chi v j * mle (agg.getD j []) u) p.proof 2 (L + 1) ts = some (z, ts1)) ∧
      ((∀ e ∈ p.delegation, Generic e) →
        verifyFftDelegation T A g L (u ++ v) red p.delegation p.delegationClaims p.proof.point ts1 = some ts') := by
  obtain ⟨pe, e1, e2, e3⟩ := weightedKernels_spec toF data (K * K) (2 ^ a * 2 ^ c) (fun i => i * (K * K)) (fun i => (computeBetas (v ++ q))[i]?)
    (chi (v ++ q)) (fun i hi => computeBetas_getElem (v ++ q) i (by rw [List.length_append, hv, hq, pow_add, mul_comm]; exact hi)) (by
      intro i hi
      rw [hd, ← Nat.succ_mul]
      exact Nat.mul_le_mul_right _ hi)
  obtain ⟨wl, w1, w2, w3⟩ := indexWf_spec pe K n (2 * n * n) e2
  rw [hN] at w1 w2 w3
  obtain ⟨p, ts1, ts', red, h1, h2, h3, h4, h5, h6⟩ := proveFft_complete T threads ht hchar A g L hL w hw hp false 1 u hu wl w2 ts
  have hnpos : 0 < n := by
    rcases Nat.eq_zero_or_pos n with h | h
    · rw [h] at hn; have := Nat.two_pow_pos L; omega
    · exact h
  have hzero : ∀ b, 2 ^ L ≤ b → ¬ (b / n < K ∧ b % n < K) := by
    intro b hb h
    have : n ≤ b / n := (Nat.le_div_iff_mul_le hnpos).2 (by rw [hn]; exact hb)
    omega
  refine ⟨p, pe, wl, ts1, ts', red, ?_, e2, e3, ⟨w2, w3⟩, h2, h3, h4, ?_, ?_⟩
  · unfold proveFftWeights
    rw [List.append_assoc]
    simp only [hN, ilog2_pow, Option.bind_eq_bind, Option.bind_some, checkedSub, List.length_append, hu, hv, hq,
      if_pos (show L + 1 ≤ L + 1 + (c + a) by omega), Nat.add_sub_cancel_left,
      splitPoint_append u (v ++ q) (L + 1) (c + a) hu (by rw [List.length_append, hv, hq]), e1, w1, w2, Nat.log2_two_pow, ofEvals_some _ _ w2, h1]
  · intro hgen
    obtain ⟨z, hz⟩ := h5 hgen
    refine ⟨z, ?_⟩
    rw [← hz]
    congr 1
    have hagg' : ∀ j ∈ Finset.range (2 ^ c), chi v j * mle (agg.getD j []) u
        = ∑ b ∈ Finset.range (2 ^ (L + 1)), chi v j * aggKernel toF data n K a (2 ^ c) q j b * phiTab w 1 u false (L + 1) b := by
      intro j hj
      obtain ⟨o, o1, o2, o3⟩ := hagg j (Finset.mem_range.mp hj)
      rw [fft_at_point A g hg L hA w hw o o1 (by
        intro b hb
        by_cases hlt : b < 2 ^ (L + 1)
        · rw [o2 b hlt, aggKernel]
          apply Finset.sum_eq_zero
          intro i _
          rw [kernelAt, if_neg (hzero b hb), mul_zero]
        · rw [List.getD_eq_default]; omega) _ o3 u hu, Finset.mul_sum]
      apply Finset.sum_congr rfl
      intro b hb
      rw [o2 b (Finset.mem_range.mp hb), mul_assoc]
    rw [Finset.sum_congr rfl hagg', Finset.sum_comm]
    apply Finset.sum_congr rfl
    intro b hb
    rw [← Finset.sum_mul, if_neg (by simp)]
    congr 1
    rw [w3 b (Finset.mem_range.mp hb)]
    unfold aggKernel kernelAt
    by_cases h : b / n < K ∧ b % n < K
    · simp only [if_pos h]
      rw [e3 _ (mul_add_lt h.1 h.2), sum_range_mul']
      conv_rhs => rw [Finset.sum_comm]
      apply Finset.sum_congr rfl
      intro j hj
      have hj' := Finset.mem_range.mp hj
      rw [Finset.mul_sum]
      apply Finset.sum_congr rfl
      intro i _
      rw [chi_append, hv, add_comm (i * 2 ^ c) j, mul_comm i (2 ^ c), ← hv, chi_add_mul v j i, hv, Nat.add_mul_div_left j i (Nat.two_pow_pos c),
        Nat.div_eq_of_lt hj', zero_add]
      rw [add_comm j (2 ^ c * i), mul_comm (2 ^ c) i]
      ring
    · simp only [if_neg h, mul_zero, Finset.sum_const_zero]
  · intro hgen
    obtain ⟨p0, hd⟩ := h6 hgen (u ++ v) (fun i hi => by rw [List.getElem?_append_left (by omega)])
    exact verifyFftDelegation_of T A g L hL w hw (u ++ v) red p.delegation h4 p.delegationClaims p.proof.point ts1 ts' (u.getD L 0) p0
      (by rw [List.getElem?_append_left (by omega), getElem?_of_lt u L 0 (by omega)]) hd

end Lemmas
