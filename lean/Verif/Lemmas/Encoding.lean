import Verif.Model.Encoding
import Verif.Lemmas.Fft
import Verif.Lemmas.Merkle
import Verif.Lemmas.Mle
import Verif.Spec.Encoding

namespace Lemmas

open Model Spec

variable {F : Type} [Field F]

/-! ### Loops over chunks -/

/-- A loop that replaces the pairs `(k, k + half)` of a chunk one after the other. -/
theorem pairLoop_spec (half : ℕ) (step : List F → ℕ → Option (List F)) (f g : ℕ → F → F → F)
    (hstep : ∀ (c : List F) (k : ℕ), c.length = 2 * half → k < half → ∃ c', step c k = some c' ∧ c'.length = 2 * half ∧
      c'.getD k 0 = f k (c.getD k 0) (c.getD (k + half) 0) ∧ c'.getD (k + half) 0 = g k (c.getD k 0) (c.getD (k + half) 0) ∧
      ∀ j, j ≠ k → j ≠ k + half → c'.getD j 0 = c.getD j 0)
    (chunk : List F) (hl : chunk.length = 2 * half) :
    ∃ c, (List.range half).foldlM step chunk = some c ∧ c.length = 2 * half ∧
      ∀ k, k < half → c.getD k 0 = f k (chunk.getD k 0) (chunk.getD (k + half) 0) ∧
        c.getD (k + half) 0 = g k (chunk.getD k 0) (chunk.getD (k + half) 0) := by
  have key : ∀ m, m ≤ half → ∃ c, (List.range m).foldlM step chunk = some c ∧ c.length = 2 * half ∧
      (∀ k, k < m → c.getD k 0 = f k (chunk.getD k 0) (chunk.getD (k + half) 0) ∧
        c.getD (k + half) 0 = g k (chunk.getD k 0) (chunk.getD (k + half) 0)) ∧
      (∀ k, m ≤ k → k < half → c.getD k 0 = chunk.getD k 0 ∧ c.getD (k + half) 0 = chunk.getD (k + half) 0) := by
    intro m
    induction m with
    | zero => intro _; exact ⟨chunk, rfl, hl, by omega, fun k _ _ => ⟨rfl, rfl⟩⟩
    | succ m ih =>
      intro hm
      obtain ⟨c, h1, h2, h3, h5⟩ := ih (by omega)
      obtain ⟨g1, g2⟩ := h5 m (le_refl _) (by omega)
      obtain ⟨c', e1, e2, e3, e4, e5⟩ := hstep c m h2 (by omega)
      rw [List.range_succ, List.foldlM_append, h1]
      simp only [Option.bind_eq_bind, Option.bind_some, List.foldlM_cons, List.foldlM_nil]
      rw [e1]
      refine ⟨c', rfl, e2, ?_, ?_⟩
      · intro k hk
        by_cases hkm : k = m
        · subst hkm; rw [e3, e4, g1, g2]; exact ⟨rfl, rfl⟩
        · rw [e5 k hkm (by omega), e5 (k + half) (by omega) (by omega)]
          exact h3 k (by omega)
      · intro k hk1 hk2
        rw [e5 k (by omega) (by omega), e5 (k + half) (by omega) (by omega)]
        exact h5 k (by omega) hk2
  obtain ⟨c, h1, h2, h3, _⟩ := key half (le_refl _)
  exact ⟨c, h1, h2, h3⟩

/-- A function applied to every chunk of a vector. -/
theorem chunkMap_spec (size m : ℕ) (hpos : 0 < size) (f : List F → Option (List F)) (P : List F → List F → Prop)
    (hf : ∀ c : List F, c.length = size → ∃ c', f c = some c' ∧ c'.length = size ∧ P c c') (v : List F) (hl : v.length = size * m) :
    ∃ cs, (chunks size v).mapM f = some cs ∧ cs.flatten.length = v.length ∧
      ∀ i, i < m → ∃ c c' : List F, c.length = size ∧ c'.length = size ∧ P c c' ∧ (∀ k, k < size → c.getD k 0 = v.getD (i * size + k) 0) ∧
        ∀ k, k < size → cs.flatten.getD (i * size + k) 0 = c'.getD k 0 := by
  obtain ⟨g, hg⟩ : ∃ g : List F → List F, ∀ c : List F, c.length = size → f c = some (g c) ∧ (g c).length = size ∧ P c (g c) := by
    refine ⟨fun c => (f c).getD [], ?_⟩
    intro c hc
    obtain ⟨c', h1, h2, h3⟩ := hf c hc
    beta_reduce
    rw [h1]
    exact ⟨rfl, h2, h3⟩
  have hchunk : ∀ i, i < m → ((v.drop (size * i)).take size).length = size := by
    intro i hi
    rw [List.length_take, List.length_drop, hl]
    have : size * i + size ≤ size * m := by rw [← Nat.mul_succ]; exact Nat.mul_le_mul_left _ hi
    omega
  have hmap : (chunks size v).mapM f = some ((List.range m).map fun i => g ((v.drop (size * i)).take size)) := by
    rw [mapM_some' _ g, chunks_eq size m hpos v hl, List.map_map]
    · rfl
    · intro c hc
      rw [chunks_eq size m hpos v hl] at hc
      obtain ⟨i, hi, rfl⟩ := List.mem_map.1 hc
      exact (hg _ (hchunk i (List.mem_range.1 hi))).1
  have hk : ∀ x ∈ ((List.range m).map fun i => g ((v.drop (size * i)).take size)), x.length = size := by
    intro x hx
    obtain ⟨i, hi, rfl⟩ := List.mem_map.1 hx
    exact (hg _ (hchunk i (List.mem_range.1 hi))).2.1
  refine ⟨_, hmap, ?_, ?_⟩
  · rw [length_flatten' size _ hk, hl]; simp; ring
  · intro i hi
    refine ⟨(v.drop (size * i)).take size, g ((v.drop (size * i)).take size), hchunk i hi, (hg _ (hchunk i hi)).2.1, (hg _ (hchunk i hi)).2.2,
      ?_, ?_⟩
    · intro k hk
      simp only [List.getD_eq_getElem?_getD, List.getElem?_take, if_pos hk, List.getElem?_drop]
      rw [mul_comm]
    · intro k hk'
      rw [getD_flatten size _ hk i k 0 (by simpa using hi) hk']
      simp

/-! ### Hypercube interpolation -/

theorem getD_set_eq (c : List F) (i : ℕ) (x : F) (h : i < c.length) : (c.set i x).getD i 0 = x := by
  simp [List.getD_eq_getElem?_getD, h]

theorem getD_set_ne (c : List F) (i j : ℕ) (x : F) (h : i ≠ j) : (c.set i x).getD j 0 = c.getD j 0 := by
  simp [List.getD_eq_getElem?_getD, List.getElem?_set, h]

theorem chunkDiff_spec (half : ℕ) (chunk : List F) (hl : chunk.length = 2 * half) :
    ∃ c, chunkDiff half chunk = some c ∧ c.length = 2 * half ∧
      ∀ k, k < half → c.getD k 0 = chunk.getD k 0 ∧ c.getD (k + half) 0 = chunk.getD (k + half) 0 - chunk.getD k 0 := by
  unfold chunkDiff
  refine pairLoop_spec half _ (fun _ a _ => a) (fun _ a b => b - a) ?_ chunk hl
  intro c k hc hk
  refine ⟨c.set (k + half) (c.getD (k + half) 0 - c.getD k 0), ?_, by simpa using hc, ?_, ?_, ?_⟩
  · rw [getElem?_of_lt c (k + half) 0 (by omega), getElem?_of_lt c k 0 (by omega)]
    simp [set?, hc, show k + half < 2 * half by omega]
  · rw [getD_set_ne _ _ _ _ (by omega)]
  · rw [getD_set_eq _ _ _ (by omega)]
  · intro j _ h2
    rw [getD_set_ne _ _ _ _ (by omega)]

/-- One pass of the interpolation, over bit `s`. -/
theorem hypercubePass_spec (s m : ℕ) (v : List F) (hl : v.length = 2 ^ (s + 1) * m) :
    ∃ v', hypercubePass v (s + 1) = some v' ∧ v'.length = v.length ∧ ∀ c k, c < m → k < 2 ^ s →
      v'.getD (c * 2 ^ (s + 1) + k) 0 = v.getD (c * 2 ^ (s + 1) + k) 0 ∧
      v'.getD (c * 2 ^ (s + 1) + (k + 2 ^ s)) 0 = v.getD (c * 2 ^ (s + 1) + (k + 2 ^ s)) 0 - v.getD (c * 2 ^ (s + 1) + k) 0 := by
  have hhalf : 2 ^ (s + 1) >>> 1 = 2 ^ s := by rw [Nat.shiftRight_one, pow_succ]; omega
  have h2 : 2 * 2 ^ s = 2 ^ (s + 1) := by rw [pow_succ]; ring
  obtain ⟨cs, h1, h3, h4⟩ := chunkMap_spec (2 ^ (s + 1)) m (Nat.two_pow_pos _) (chunkDiff (2 ^ s))
    (fun c c' => ∀ k, k < 2 ^ s → c'.getD k 0 = c.getD k 0 ∧ c'.getD (k + 2 ^ s) 0 = c.getD (k + 2 ^ s) 0 - c.getD k 0)
    (fun c hc => by rw [← h2] at hc ⊢; exact chunkDiff_spec _ c hc) v hl
  refine ⟨cs.flatten, ?_, h3, ?_⟩
  · unfold hypercubePass
    rw [hhalf, h1]; rfl
  · intro c k hc hk
    obtain ⟨a, b, _, _, h5, h6, h7⟩ := h4 c hc
    rw [h7 k (by omega), h7 _ (by omega), ← h6 k (by omega), ← h6 _ (by omega)]
    exact h5 k hk

theorem pairDiff_eq (c : List F) (hc : c.length = 2) : pairDiff c = chunkDiff 1 c := by
  match c, hc with
  | [a, b], _ => rfl

theorem interpolate_passes (n : ℕ) (hn : 0 < n) (v : List F) (hl : v.length = 2 ^ n) :
    interpolateHypercube v = ((List.range n).map (· + 1)).foldlM hypercubePass v := by
  unfold interpolateHypercube
  rw [hl, log2Strict_pow]
  obtain ⟨k, rfl⟩ : ∃ k, n = k + 1 := ⟨n - 1, by omega⟩
  simp only [Option.bind_eq_bind, Option.bind_some]
  have h1 : (chunks 2 v).mapM pairDiff = (chunks (2 ^ 1) v).mapM (chunkDiff (2 ^ 1 >>> 1)) := by
    have hc : ∀ c ∈ chunks 2 v, c.length = 2 := by
      intro c hc
      rw [chunks_eq 2 (2 ^ k) (by omega) v (by rw [hl, pow_succ]; ring)] at hc
      obtain ⟨i, hi, rfl⟩ := List.mem_map.1 hc
      have := List.mem_range.1 hi
      rw [List.length_take, List.length_drop, hl, pow_succ]; omega
    show List.mapM pairDiff (chunks 2 v) = List.mapM (chunkDiff 1) (chunks 2 v)
    revert hc
    generalize chunks 2 v = l
    intro hc
    induction l with
    | nil => rfl
    | cons a l ih =>
      rw [List.mapM_cons, List.mapM_cons, pairDiff_eq a (hc a (by simp)), ih (fun c h => hc c (by simp [h]))]
  have h2 : (List.range (k + 1)).map (· + 1) = 1 :: List.range' 2 (k + 1 + 1 - 2) := by
    rw [List.range_eq_range', List.range'_succ]
    simp only [List.map_cons, zero_add, List.map_add_range', show k + 1 + 1 - 2 = k by omega]
    congr 1
    rw [show (fun x : ℕ => x + 1) = (1 + ·) by funext x; omega, List.map_add_range']
  rw [h1, h2, List.foldlM_cons]
  unfold hypercubePass
  simp only [Option.bind_eq_bind, Option.bind_assoc, Option.bind_some]

/-- Weight of index `i` when the first `s` variables are in coefficient form. -/
def mixWeight (s : ℕ) (x : List F) (i : ℕ) : F :=
  ∏ j : Fin x.length, if i.testBit j then x[j] else if (j : ℕ) < s then 1 else 1 - x[j]

theorem mixWeight_step (s : ℕ) (x : List F) (hs : s < x.length) (c k : ℕ) (hk : k < 2 ^ s) :
    mixWeight s x (c * 2 ^ (s + 1) + k) = (1 - x[s]) * mixWeight (s + 1) x (c * 2 ^ (s + 1) + k) ∧
    mixWeight s x (c * 2 ^ (s + 1) + (k + 2 ^ s)) = x[s] * mixWeight (s + 1) x (c * 2 ^ (s + 1) + k) ∧
    mixWeight (s + 1) x (c * 2 ^ (s + 1) + (k + 2 ^ s)) = x[s] * mixWeight (s + 1) x (c * 2 ^ (s + 1) + k) := by
  have e0 : c * 2 ^ (s + 1) + k = 2 ^ s * (2 * c) + k := by rw [pow_succ]; ring
  have e1 : c * 2 ^ (s + 1) + (k + 2 ^ s) = 2 ^ s * (2 * c + 1) + k := by rw [pow_succ]; ring
  have b0 : (c * 2 ^ (s + 1) + k).testBit s = false := by
    rw [e0, Nat.testBit_two_pow_mul_add _ hk]; simp
  have b1 : (c * 2 ^ (s + 1) + (k + 2 ^ s)).testBit s = true := by
    rw [e1, Nat.testBit_two_pow_mul_add _ hk]; simp
  have bne : ∀ j, j ≠ s → (c * 2 ^ (s + 1) + (k + 2 ^ s)).testBit j = (c * 2 ^ (s + 1) + k).testBit j := by
    intro j hj
    rw [e0, e1, Nat.testBit_two_pow_mul_add _ hk, Nat.testBit_two_pow_mul_add _ hk]
    split
    · rfl
    · obtain ⟨m, hm⟩ : ∃ m, j - s = m + 1 := ⟨j - s - 1, by omega⟩
      rw [hm, Nat.testBit_succ, Nat.testBit_succ]
      congr 1; omega
  have hsplit : ∀ (t : ℕ) (i : ℕ), mixWeight t x i = (if i.testBit s then x[s] else if s < t then 1 else 1 - x[s]) *
      ∏ j ∈ Finset.univ.erase (⟨s, hs⟩ : Fin x.length), if i.testBit j then x[j] else if (j : ℕ) < t then 1 else 1 - x[j] := by
    intro t i
    unfold mixWeight
    rw [← Finset.mul_prod_erase Finset.univ _ (Finset.mem_univ (⟨s, hs⟩ : Fin x.length))]
    rfl
  obtain ⟨A, hA⟩ : ∃ A, A = ∏ j ∈ Finset.univ.erase (⟨s, hs⟩ : Fin x.length),
      if (c * 2 ^ (s + 1) + k).testBit j then x[j] else if (j : ℕ) < s then 1 else 1 - x[j] := ⟨_, rfl⟩
  have hjs : ∀ j ∈ Finset.univ.erase (⟨s, hs⟩ : Fin x.length), (j : ℕ) ≠ s := by
    intro j hj h
    exact (Finset.mem_erase.1 hj).1 (Fin.ext h)
  have r1 : mixWeight s x (c * 2 ^ (s + 1) + k) = (1 - x[s]) * A := by
    rw [hsplit, b0, hA]; simp
  have r2 : mixWeight s x (c * 2 ^ (s + 1) + (k + 2 ^ s)) = x[s] * A := by
    rw [hsplit, b1, hA, if_pos rfl]
    congr 1
    exact Finset.prod_congr rfl fun j hj => by rw [bne j (hjs j hj)]
  have r3 : mixWeight (s + 1) x (c * 2 ^ (s + 1) + k) = A := by
    rw [hsplit, b0, hA]
    simp only [Bool.false_eq_true, if_false, Nat.lt_succ_self, if_true, one_mul]
    exact Finset.prod_congr rfl fun j hj => by
      have := hjs j hj
      congr 1
      simp only [show ((j : ℕ) < s + 1) = ((j : ℕ) < s) by simp; omega]
  have r4 : mixWeight (s + 1) x (c * 2 ^ (s + 1) + (k + 2 ^ s)) = x[s] * A := by
    rw [hsplit, b1, hA, if_pos rfl]
    congr 1
    exact Finset.prod_congr rfl fun j hj => by
      have := hjs j hj
      rw [bne j this]
      congr 1
      simp only [show ((j : ℕ) < s + 1) = ((j : ℕ) < s) by simp; omega]
  exact ⟨by rw [r1, r3], by rw [r2, r3], by rw [r4, r3]⟩

theorem sum_pairs (s n : ℕ) (hs : s < n) (f : ℕ → F) :
    ∑ i ∈ Finset.range (2 ^ n), f i = ∑ c ∈ Finset.range (2 ^ (n - s - 1)), ∑ k ∈ Finset.range (2 ^ s),
      (f (c * 2 ^ (s + 1) + k) + f (c * 2 ^ (s + 1) + (k + 2 ^ s))) := by
  have h1 : 2 ^ n = 2 ^ (n - s - 1) * 2 ^ (s + 1) := by rw [← pow_add]; congr 1; omega
  rw [h1, sum_range_mul' (2 ^ (s + 1)) f (2 ^ (n - s - 1))]
  refine Finset.sum_congr rfl fun c _ => ?_
  rw [show 2 ^ (s + 1) = 2 ^ s + 2 ^ s by rw [pow_succ]; ring, Finset.sum_range_add, Finset.sum_add_distrib]
  congr 1
  exact Finset.sum_congr rfl fun k _ => by rw [add_comm k]

theorem passes_spec (n : ℕ) (v : List F) (hl : v.length = 2 ^ n) : ∀ s, s ≤ n →
    ∃ v', ((List.range s).map (· + 1)).foldlM hypercubePass v = some v' ∧ v'.length = 2 ^ n ∧
      ∀ x : List F, x.length = n →
        ∑ i ∈ Finset.range (2 ^ n), v'.getD i 0 * mixWeight s x i = ∑ i ∈ Finset.range (2 ^ n), v.getD i 0 * mixWeight 0 x i := by
  intro s
  induction s with
  | zero => intro _; exact ⟨v, rfl, hl, fun x _ => rfl⟩
  | succ s ih =>
    intro hs
    obtain ⟨w, h1, h2, h3⟩ := ih (by omega)
    have h4 : w.length = 2 ^ (s + 1) * 2 ^ (n - s - 1) := by rw [h2, ← pow_add]; congr 1; omega
    obtain ⟨w', g1, g2, g3⟩ := hypercubePass_spec s (2 ^ (n - s - 1)) w h4
    refine ⟨w', ?_, by rw [g2, h2], ?_⟩
    · rw [List.range_succ, List.map_append, List.foldlM_append, h1]
      simp only [Option.bind_eq_bind, Option.bind_some, List.map_cons, List.map_nil, List.foldlM_cons, List.foldlM_nil, g1]
      rfl
    · intro x hx
      rw [← h3 x hx, sum_pairs s n (by omega), sum_pairs s n (by omega)]
      refine Finset.sum_congr rfl fun c hc => Finset.sum_congr rfl fun k hk => ?_
      obtain ⟨m1, m2, m3⟩ := mixWeight_step s x (by omega) c k (Finset.mem_range.1 hk)
      obtain ⟨q1, q2⟩ := g3 c k (Finset.mem_range.1 hc) (Finset.mem_range.1 hk)
      rw [q1, q2, m1, m2, m3]
      ring

theorem interpolate_spec (n : ℕ) (hn : 0 < n) (v : List F) (hl : v.length = 2 ^ n) :
    ∃ c, interpolateHypercube v = some c ∧ c.length = 2 ^ n ∧ ∀ x : List F, x.length = n → coeffForm c x = mle v x := by
  obtain ⟨c, h1, h2, h3⟩ := passes_spec n v hl n (le_refl _)
  refine ⟨c, by rw [interpolate_passes n hn v hl, h1], h2, ?_⟩
  intro x hx
  have h4 := h3 x hx
  unfold coeffForm mle
  rw [hx]
  convert h4 using 2
  · congr 1
    unfold monomial mixWeight
    exact Finset.prod_congr rfl fun j _ => by
      rw [if_pos (show (j : ℕ) < n by have := j.2; omega)]
  · congr 1

end Lemmas
