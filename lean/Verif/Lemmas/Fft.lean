import Verif.Model.Fft
import Verif.Lemmas.TensorOps
import Verif.Lemmas.TensorPad
import Mathlib.RingTheory.RootsOfUnity.PrimitiveRoots
import Mathlib.Tactic.LinearCombination
import Mathlib.Tactic.FieldSimp

namespace Lemmas

open Model Spec

/-! ### Bit reversal -/

/-- Reversal of the lowest `s` bits. -/
def revBits : ℕ → ℕ → ℕ
  | 0, _ => 0
  | s + 1, i => i % 2 * 2 ^ s + revBits s (i / 2)

theorem revBits_lt : ∀ (s i : ℕ), revBits s i < 2 ^ s := by
  intro s
  induction s with
  | zero => intro i; simp [revBits]
  | succ s ih =>
    intro i
    rw [revBits]
    have h1 := ih (i / 2)
    have h2 : i % 2 < 2 := Nat.mod_lt _ (by omega)
    have h3 : i % 2 * 2 ^ s ≤ 1 * 2 ^ s := Nat.mul_le_mul_right _ (by omega)
    rw [pow_succ]
    omega

theorem revBits_succ' : ∀ (s i : ℕ), revBits (s + 1) i = 2 * revBits s i + i / 2 ^ s % 2 := by
  intro s
  induction s with
  | zero => intro i; simp [revBits]
  | succ s ih =>
    intro i
    rw [revBits, ih (i / 2), revBits, Nat.div_div_eq_div_mul, show 2 * 2 ^ s = 2 ^ (s + 1) by ring]
    ring

theorem revBits_mod : ∀ (s i : ℕ), revBits s (i % 2 ^ s) = revBits s i := by
  intro s
  induction s with
  | zero => intro i; rfl
  | succ s ih =>
    intro i
    rw [revBits, revBits]
    have h1 : i % 2 ^ (s + 1) % 2 = i % 2 := Nat.mod_mod_of_dvd _ ⟨2 ^ s, by ring⟩
    have h2 : i % 2 ^ (s + 1) / 2 = i / 2 % 2 ^ s := by
      rw [pow_succ, mul_comm, Nat.mod_mul_right_div_self]
    rw [h1, h2, ih]

theorem revBits_revBits : ∀ (s i : ℕ), i < 2 ^ s → revBits s (revBits s i) = i := by
  intro s
  induction s with
  | zero => intro i h; simp at h; simp [revBits, h]
  | succ s ih =>
    intro i h
    rw [revBits_succ' s i, revBits]
    have hb : i / 2 ^ s % 2 < 2 := Nat.mod_lt _ (by omega)
    have h1 : (2 * revBits s i + i / 2 ^ s % 2) % 2 = i / 2 ^ s % 2 := by omega
    have h2 : (2 * revBits s i + i / 2 ^ s % 2) / 2 = revBits s i := by omega
    rw [h1, h2, ← revBits_mod s i, ih _ (Nat.mod_lt _ (Nat.two_pow_pos s))]
    have h3 : i / 2 ^ s < 2 := by
      rw [Nat.div_lt_iff_lt_mul (Nat.two_pow_pos s)]; rw [pow_succ] at h; omega
    rw [Nat.mod_eq_of_lt h3, mul_comm]
    exact Nat.div_add_mod i (2 ^ s)

theorem revBits_half (L i : ℕ) (h : i < 2 ^ L) : revBits (L + 1) i / 2 = revBits L i := by
  rw [revBits_succ', Nat.div_eq_of_lt h]; omega

theorem revTable_eq (L n : ℕ) (hn : n ≤ 2 ^ (L + 1)) (h0 : 0 < n) :
    revTable (L + 1) n = (List.range n).map (revBits (L + 1)) := by
  unfold revTable
  have key : ∀ k, k + 1 ≤ n → (List.range' 1 k).foldl (fun rev i => rev ++ [(rev.getD (i >>> 1) 0 >>> 1) |||
      ((i &&& 1) <<< (L + 1 - 1))]) [0] = (List.range (k + 1)).map (revBits (L + 1)) := by
    intro k
    induction k with
    | zero =>
      intro _
      have : revBits (L + 1) 0 = 0 := by
        have : ∀ s, revBits s 0 = 0 := by
          intro s; induction s with
          | zero => rfl
          | succ s ih => rw [revBits]; simp [ih]
        exact this _
      simp [this]
    | succ k ih =>
      intro hk
      rw [List.range'_1_concat, List.foldl_append, ih (by omega), List.range_succ (n := k + 1), List.map_append]
      simp only [List.foldl_cons, List.foldl_nil, List.map_cons, List.map_nil]
      congr 2
      rw [Nat.add_comm 1 k, Nat.shiftRight_one, getD_map_range' _ _ _ _ (by omega), Nat.shiftRight_one, Nat.and_one_is_mod,
        Nat.add_sub_cancel]
      have h1 : (k + 1) / 2 < 2 ^ L := by
        rw [Nat.div_lt_iff_lt_mul (by omega)]; rw [pow_succ] at hn; omega
      rw [revBits_half L _ h1, Nat.or_comm, ← Nat.shiftLeft_add_eq_or_of_lt (revBits_lt L _), Nat.shiftLeft_eq, revBits]
  have := key (n - 1) (by omega)
  rwa [show n - 1 + 1 = n by omega] at this

/-- The conditional swaps. -/
theorem bitReversal_spec {α : Type} (L : ℕ) (v : List α) (z : α) (hl : v.length = 2 ^ (L + 1)) :
    ∃ v', bitReversal (revTable (L + 1) v.length) v = some v' ∧ v'.length = v.length ∧
      ∀ p, p < v.length → v'.getD p z = v.getD (revBits (L + 1) p) z := by
  obtain ⟨n, hn⟩ : ∃ n, n = v.length := ⟨_, rfl⟩
  obtain ⟨R, hR⟩ : ∃ R, R = revBits (L + 1) := ⟨_, rfl⟩
  have hRlt : ∀ p, R p < n := by intro p; rw [hR, hn, hl]; exact revBits_lt _ _
  have hRR : ∀ p, p < n → R (R p) = p := by intro p hp; rw [hR]; exact revBits_revBits _ _ (by omega)
  unfold bitReversal
  rw [← hn, revTable_eq L n (by omega) (by rw [hn, hl]; exact Nat.two_pow_pos _), ← hR]
  have key : ∀ k, k ≤ n → ∃ v', ((List.range k).filter fun i => ((List.range n).map R).getD i 0 < i).foldlM
      (fun v i => swap? v i (((List.range n).map R).getD i 0)) v = some v' ∧ v'.length = n ∧
      ∀ p, p < n → v'.getD p z = if max p (R p) < k then v.getD (R p) z else v.getD p z := by
    intro k
    induction k with
    | zero => intro _; exact ⟨v, rfl, hn.symm, fun p _ => by rw [if_neg (by omega)]⟩
    | succ k ih =>
      intro hk
      obtain ⟨v1, h1, h2, h3⟩ := ih (by omega)
      rw [List.range_succ, List.filter_append, List.foldlM_append, h1]
      simp only [Option.bind_eq_bind, Option.bind_some]
      have hg : ((List.range n).map R).getD k 0 = R k := getD_map_range' _ _ _ _ (by omega)
      by_cases hlt : R k < k
      · rw [List.filter_cons_of_pos (by rw [hg]; simpa using hlt), List.filter_nil, List.foldlM_cons, hg]
        obtain ⟨v2, e1, e2, e3⟩ := getD_swap v1 k (R k) z (by omega) (by have := hRlt k; omega)
        rw [e1]
        refine ⟨v2, rfl, by omega, ?_⟩
        intro p hp
        rw [e3]
        by_cases hp1 : p = R k
        · subst hp1
          rw [if_pos rfl, h3 k (by omega), hRR k (by omega), if_neg (by omega), if_pos (by omega)]
        · rw [if_neg hp1]
          by_cases hp2 : p = k
          · subst hp2
            rw [if_pos rfl, h3 _ (hRlt p), hRR p hp, if_neg (by omega), if_pos (by omega)]
          · rw [if_neg hp2, h3 p hp]
            have hne : R p ≠ k := fun h => hp1 (by rw [← h, hRR p hp])
            by_cases hc : max p (R p) < k
            · rw [if_pos hc, if_pos (by omega)]
            · rw [if_neg hc, if_neg (by omega)]
      · rw [List.filter_cons_of_neg (by rw [hg]; simpa using hlt), List.filter_nil, List.foldlM_nil]
        refine ⟨v1, rfl, h2, ?_⟩
        intro p hp
        rw [h3 p hp]
        by_cases hc : max p (R p) < k
        · rw [if_pos hc, if_pos (by omega)]
        · rw [if_neg hc]
          by_cases hc' : max p (R p) < k + 1
          · rw [if_pos hc']
            by_cases hpk : p = k
            · subst hpk
              rw [show R p = p by omega]
            · have : R p = k := by omega
              have h4 := hRR p hp
              rw [this] at h4
              omega
          · rw [if_neg hc']
  obtain ⟨v', h1, h2, h3⟩ := key n (le_refl _)
  refine ⟨v', h1, h2, ?_⟩
  intro p hp
  rw [h3 p hp, if_pos]
  have := hRlt p
  omega

/-! ### Butterflies -/

variable {F : Type} [Field F]

theorem twiddles_getElem (w1 : F) (n i : ℕ) (h : i < n) : (twiddles w1 n)[i]? = some (w1 ^ i) := by
  have : ∀ (n i : ℕ) (a : F), i < n → (List.iterate (· * w1) a n)[i]? = some (a * w1 ^ i) := by
    intro n
    induction n with
    | zero => intro i a h; omega
    | succ n ih =>
      intro i a h
      cases i with
      | zero => simp [List.iterate]
      | succ i =>
        rw [List.iterate, List.getElem?_cons_succ, ih i _ (by omega), pow_succ]
        congr 1
        ring
  rw [twiddles, this n i 1 h, one_mul]

theorem butterfly_spec (w : List F) (w1 : F) (step half : ℕ) (chunk : List F) (hl : chunk.length = 2 * half)
    (hw : ∀ k, k < half → w[step * k]? = some (w1 ^ (step * k))) :
    ∃ c, butterfly w step half chunk = some c ∧ c.length = 2 * half ∧
      (∀ k, k < half → c.getD k 0 = chunk.getD k 0 + chunk.getD (k + half) 0 * w1 ^ (step * k)) ∧
      (∀ k, k < half → c.getD (k + half) 0 = chunk.getD k 0 - chunk.getD (k + half) 0 * w1 ^ (step * k)) := by
  unfold butterfly
  have key : ∀ m, m ≤ half → ∃ c, (List.range m).foldlM (butterflyStep w step half) chunk = some c ∧ c.length = 2 * half ∧
      (∀ k, k < m → c.getD k 0 = chunk.getD k 0 + chunk.getD (k + half) 0 * w1 ^ (step * k)) ∧
      (∀ k, k < m → c.getD (k + half) 0 = chunk.getD k 0 - chunk.getD (k + half) 0 * w1 ^ (step * k)) ∧
      (∀ k, m ≤ k → k < half → c.getD k 0 = chunk.getD k 0 ∧ c.getD (k + half) 0 = chunk.getD (k + half) 0) := by
    intro m
    induction m with
    | zero => intro _; exact ⟨chunk, rfl, hl, by omega, by omega, fun k _ _ => ⟨rfl, rfl⟩⟩
    | succ m ih =>
      intro hm
      obtain ⟨c, h1, h2, h3, h4, h5⟩ := ih (by omega)
      obtain ⟨g1, g2⟩ := h5 m (le_refl _) (by omega)
      rw [List.range_succ, List.foldlM_append, h1]
      simp only [Option.bind_eq_bind, Option.bind_some, List.foldlM_cons, List.foldlM_nil]
      have e : butterflyStep w step half c m = some ((c.set m (c.getD m 0 + c.getD (m + half) 0 * w1 ^ (step * m))).set (m + half)
          (c.getD m 0 - c.getD (m + half) 0 * w1 ^ (step * m))) := by
        unfold butterflyStep
        rw [getElem?_of_lt c m 0 (by omega), getElem?_of_lt c (m + half) 0 (by omega), hw m (by omega)]
        simp [set?, h2, show m < 2 * half by omega, show m + half < 2 * half by omega]
      rw [e]
      refine ⟨_, rfl, by simp [h2], ?_, ?_, ?_⟩
      · intro k hk
        by_cases hkm : k = m
        · subst hkm
          simp only [List.getD_eq_getElem?_getD, List.getElem?_set, List.length_set]
          rw [if_neg (by omega), if_pos (by trivial), if_pos (by omega)]
          simp only [Option.getD_some, ← List.getD_eq_getElem?_getD, g1, g2]
        · simp only [List.getD_eq_getElem?_getD, List.getElem?_set, List.length_set]
          rw [if_neg (by omega), if_neg (by omega)]
          simp only [← List.getD_eq_getElem?_getD]
          exact h3 k (by omega)
      · intro k hk
        by_cases hkm : k = m
        · subst hkm
          simp only [List.getD_eq_getElem?_getD, List.getElem?_set, List.length_set]
          rw [if_pos (by trivial), if_pos (by omega)]
          simp only [Option.getD_some, ← List.getD_eq_getElem?_getD, g1, g2]
        · simp only [List.getD_eq_getElem?_getD, List.getElem?_set, List.length_set]
          rw [if_neg (by omega), if_neg (by omega)]
          simp only [← List.getD_eq_getElem?_getD]
          exact h4 k (by omega)
      · intro k hk1 hk2
        obtain ⟨q1, q2⟩ := h5 k (by omega) hk2
        simp only [List.getD_eq_getElem?_getD, List.getElem?_set, List.length_set]
        rw [if_neg (by omega), if_neg (by omega), if_neg (by omega), if_neg (by omega)]
        simp only [← List.getD_eq_getElem?_getD]
        exact ⟨q1, q2⟩
  obtain ⟨c, h1, h2, h3, h4, _⟩ := key half (le_refl _)
  exact ⟨c, h1, h2, h3, h4⟩

/-- One pass over the whole vector. -/
theorem fftStage_spec (w : List F) (w1 : F) (n half m : ℕ) (v : List F) (hl : v.length = 2 * half * m) (hpos : 0 < half)
    (hw : ∀ k, k < half → w[n / (2 * half) * k]? = some (w1 ^ (n / (2 * half) * k))) :
    ∃ v', fftStage w n v (2 * half) = some v' ∧ v'.length = v.length ∧
      ∀ c k, c < m → k < half →
        v'.getD (c * (2 * half) + k) 0 = v.getD (c * (2 * half) + k) 0
          + v.getD (c * (2 * half) + (k + half)) 0 * w1 ^ (n / (2 * half) * k) ∧
        v'.getD (c * (2 * half) + (k + half)) 0 = v.getD (c * (2 * half) + k) 0
          - v.getD (c * (2 * half) + (k + half)) 0 * w1 ^ (n / (2 * half) * k) := by
  have hhalf : (2 * half) >>> 1 = half := by rw [Nat.shiftRight_one]; omega
  obtain ⟨g, hg⟩ : ∃ g : List F → List F, ∀ chunk : List F, chunk.length = 2 * half →
      butterfly w (n / (2 * half)) half chunk = some (g chunk) ∧ (g chunk).length = 2 * half ∧
      (∀ k, k < half → (g chunk).getD k 0 = chunk.getD k 0 + chunk.getD (k + half) 0 * w1 ^ (n / (2 * half) * k)) ∧
      (∀ k, k < half → (g chunk).getD (k + half) 0 = chunk.getD k 0 - chunk.getD (k + half) 0 * w1 ^ (n / (2 * half) * k)) := by
    refine ⟨fun chunk => (butterfly w (n / (2 * half)) half chunk).getD [], ?_⟩
    intro chunk hc
    obtain ⟨c, h1, h2, h3, h4⟩ := butterfly_spec w w1 (n / (2 * half)) half chunk hc hw
    beta_reduce
    rw [h1]
    exact ⟨rfl, h2, h3, h4⟩
  have hchunk : ∀ i, i < m → ((v.drop (2 * half * i)).take (2 * half)).length = 2 * half := by
    intro i hi
    rw [List.length_take, List.length_drop, hl]
    have : 2 * half * i + 2 * half ≤ 2 * half * m := by rw [← Nat.mul_succ]; exact Nat.mul_le_mul_left _ hi
    omega
  have hmap : (chunks (2 * half) v).mapM (butterfly w (n / (2 * half)) ((2 * half) >>> 1))
      = some ((List.range m).map fun i => g ((v.drop (2 * half * i)).take (2 * half))) := by
    rw [hhalf, mapM_some' _ g, chunks_eq (2 * half) m (by omega) v hl, List.map_map]
    · rfl
    · intro c hc
      rw [chunks_eq (2 * half) m (by omega) v hl] at hc
      obtain ⟨i, hi, rfl⟩ := List.mem_map.1 hc
      exact (hg _ (hchunk i (List.mem_range.1 hi))).1
  have hk : ∀ x ∈ ((List.range m).map fun i => g ((v.drop (2 * half * i)).take (2 * half))), x.length = 2 * half := by
    intro x hx
    obtain ⟨i, hi, rfl⟩ := List.mem_map.1 hx
    exact (hg _ (hchunk i (List.mem_range.1 hi))).2.1
  have hget : ∀ c r, c < m → r < 2 * half → ((v.drop (2 * half * c)).take (2 * half)).getD r 0 = v.getD (c * (2 * half) + r) 0 := by
    intro c r _ hr
    simp only [List.getD_eq_getElem?_getD, List.getElem?_take, if_pos hr, List.getElem?_drop]
    rw [mul_comm]
  refine ⟨_, by unfold fftStage; rw [hmap]; rfl, ?_, ?_⟩
  · rw [length_flatten' (2 * half) _ hk, hl]; simp; ring
  · intro c k hc hk'
    rw [getD_flatten (2 * half) _ hk c _ 0 (by simpa using hc) (by omega), getD_flatten (2 * half) _ hk c _ 0 (by simpa using hc) (by omega)]
    simp only [List.getElem_map, List.getElem_range]
    obtain ⟨_, _, h3, h4⟩ := hg _ (hchunk c hc)
    rw [h3 k hk', h4 k hk', hget c k hc (by omega), hget c (k + half) hc (by omega)]
    exact ⟨rfl, rfl⟩

theorem sum_even_odd {R : Type} [Semiring R] (m : ℕ) (f : ℕ → R) :
    ∑ j ∈ Finset.range (2 * m), f j = ∑ j ∈ Finset.range m, f (2 * j) + ∑ j ∈ Finset.range m, f (2 * j + 1) := by
  induction m with
  | zero => simp
  | succ m ih =>
    rw [show 2 * (m + 1) = 2 * m + 1 + 1 by ring, Finset.sum_range_succ, Finset.sum_range_succ, ih, Finset.sum_range_succ,
      Finset.sum_range_succ]
    abel

/-- All passes: the vector after `s` of them. -/
theorem fftLoop_spec (L : ℕ) (w1 : F) (hw1 : w1 ^ (2 ^ (L + 1)) = 1) (hneg : w1 ^ (2 ^ L) = -1) (v : List F)
    (hl : v.length = 2 ^ (L + 1)) : ∀ s, s ≤ L + 1 →
    ∃ v', ((List.range s).map fun s => 2 ^ (s + 1)).foldlM (fftStage (twiddles w1 (2 ^ (L + 1))) (2 ^ (L + 1))) v = some v' ∧
      v'.length = 2 ^ (L + 1) ∧ ∀ c k, c < 2 ^ (L + 1 - s) → k < 2 ^ s →
        v'.getD (c * 2 ^ s + k) 0 = ∑ j ∈ Finset.range (2 ^ s), w1 ^ (2 ^ (L + 1 - s) * (k * j)) * v.getD (c * 2 ^ s + revBits s j) 0 := by
  intro s
  induction s with
  | zero =>
    intro _
    refine ⟨v, rfl, hl, ?_⟩
    intro c k _ hk
    simp at hk
    subst hk
    simp [revBits]
  | succ s ih =>
    intro hs
    obtain ⟨v1, h1, h2, h3⟩ := ih (by omega)
    rw [List.range_succ, List.map_append, List.foldlM_append, h1]
    simp only [Option.bind_eq_bind, Option.bind_some, List.map_cons, List.map_nil, List.foldlM_cons, List.foldlM_nil]
    obtain ⟨e, he⟩ : ∃ e, L + 1 - (s + 1) = e := ⟨_, rfl⟩
    have he1 : L + 1 - s = e + 1 := by omega
    have hLe : L + 1 = (s + 1) + e := by omega
    have hdiv : 2 ^ (L + 1) / (2 * 2 ^ s) = 2 ^ e := by
      rw [hLe, pow_add, show (2 : ℕ) * 2 ^ s = 2 ^ (s + 1) by ring]
      exact Nat.mul_div_cancel_left _ (Nat.two_pow_pos _)
    obtain ⟨v2, g1, g2, g3⟩ := fftStage_spec (twiddles w1 (2 ^ (L + 1))) w1 (2 ^ (L + 1)) (2 ^ s) (2 ^ e) v1
      (by rw [h2, hLe, pow_add]; ring) (Nat.two_pow_pos _) (by
        intro k hk
        apply twiddles_getElem
        rw [hdiv, hLe, pow_add, pow_succ]
        have : 2 ^ e * k < 2 ^ e * 2 ^ s := Nat.mul_lt_mul_of_pos_left hk (Nat.two_pow_pos _)
        calc 2 ^ e * k < 2 ^ e * 2 ^ s := this
          _ = 2 ^ s * 2 ^ e := by ring
          _ ≤ 2 ^ s * 2 * 2 ^ e := by
            have : 0 < 2 ^ s * 2 ^ e := Nat.mul_pos (Nat.two_pow_pos _) (Nat.two_pow_pos _)
            nlinarith)
    rw [show (2 : ℕ) ^ (s + 1) = 2 * 2 ^ s by ring, g1]
    refine ⟨v2, rfl, by omega, ?_⟩
    rw [he]
    have hw1' : w1 ^ (2 ^ e * (2 * 2 ^ s)) = 1 := by
      rw [← hw1, hLe]; congr 1; ring
    have hneg' : w1 ^ (2 ^ e * 2 ^ s) = -1 := by
      rw [← hneg]; congr 1; rw [← pow_add]; congr 1; omega
    -- the two halves of the sum
    have hsplit : ∀ c k, ∑ j ∈ Finset.range (2 * 2 ^ s), w1 ^ (2 ^ e * (k * j)) * v.getD (c * (2 * 2 ^ s) + revBits (s + 1) j) 0
        = ∑ j ∈ Finset.range (2 ^ s), w1 ^ (2 ^ (e + 1) * (k * j)) * v.getD (2 * c * 2 ^ s + revBits s j) 0
          + w1 ^ (2 ^ e * k) * ∑ j ∈ Finset.range (2 ^ s), w1 ^ (2 ^ (e + 1) * (k * j)) * v.getD ((2 * c + 1) * 2 ^ s + revBits s j) 0 := by
      intro c k
      rw [sum_even_odd, Finset.mul_sum]
      congr 1
      · apply Finset.sum_congr rfl
        intro j _
        have : revBits (s + 1) (2 * j) = revBits s j := by
          rw [revBits, Nat.mul_mod_right, Nat.mul_div_cancel_left _ (by omega)]; simp
        rw [this]
        congr 2
        · ring
        · ring
      · apply Finset.sum_congr rfl
        intro j _
        have : revBits (s + 1) (2 * j + 1) = 2 ^ s + revBits s j := by
          rw [revBits, show (2 * j + 1) % 2 = 1 by omega, show (2 * j + 1) / 2 = j by omega, one_mul]
        rw [this, ← mul_assoc (w1 ^ (2 ^ e * k)), ← pow_add]
        congr 2
        · ring
        · ring
    intro c k hc hk
    have hc2 : 2 * c < 2 ^ (L + 1 - s) := by rw [he1, pow_succ]; omega
    have hc3 : 2 * c + 1 < 2 ^ (L + 1 - s) := by rw [he1, pow_succ]; omega
    rw [hsplit c k]
    rcases Nat.lt_or_ge k (2 ^ s) with hk1 | hk1
    · have := (g3 c k hc hk1).1
      rw [this, hdiv]
      have q1 := h3 (2 * c) k hc2 hk1
      have q2 := h3 (2 * c + 1) k hc3 hk1
      rw [he1] at q1 q2
      rw [← q1, ← q2, show c * (2 * 2 ^ s) + k = 2 * c * 2 ^ s + k by ring,
        show c * (2 * 2 ^ s) + (k + 2 ^ s) = (2 * c + 1) * 2 ^ s + k by ring]
      ring
    · obtain ⟨k', rfl⟩ : ∃ k', k = k' + 2 ^ s := ⟨k - 2 ^ s, by omega⟩
      have hk2 : k' < 2 ^ s := by omega
      have := (g3 c k' hc hk2).2
      rw [this, hdiv]
      have q1 := h3 (2 * c) k' hc2 hk2
      have q2 := h3 (2 * c + 1) k' hc3 hk2
      rw [he1] at q1 q2
      have hper : ∀ j, w1 ^ (2 ^ (e + 1) * ((k' + 2 ^ s) * j)) = w1 ^ (2 ^ (e + 1) * (k' * j)) := by
        intro j
        rw [show 2 ^ (e + 1) * ((k' + 2 ^ s) * j) = 2 ^ (e + 1) * (k' * j) + 2 ^ e * (2 * 2 ^ s) * j by ring, pow_add, pow_mul w1 _ j,
          hw1', one_pow, mul_one]
      simp only [hper]
      rw [← q1, ← q2, show 2 ^ e * (k' + 2 ^ s) = 2 ^ e * k' + 2 ^ e * 2 ^ s by ring, pow_add, hneg',
        show c * (2 * 2 ^ s) + k' = 2 * c * 2 ^ s + k' by ring,
        show c * (2 * 2 ^ s) + (k' + 2 ^ s) = (2 * c + 1) * 2 ^ s + k' by ring]
      ring

theorem iterate_square (g : F) (k : ℕ) : (fun r : F => r * r)^[k] g = g ^ (2 ^ k) := by
  induction k with
  | zero => simp
  | succ k ih => rw [Function.iterate_succ_apply', ih, pow_succ, pow_mul, sq]

theorem primitive_neg (w : F) (L : ℕ) (h : IsPrimitiveRoot w (2 ^ (L + 1))) : w ^ (2 ^ L) = -1 := by
  have h1 : (w ^ (2 ^ L) - 1) * (w ^ (2 ^ L) + 1) = 0 := by
    have := h.pow_eq_one
    rw [pow_succ, pow_mul] at this
    linear_combination this
  rcases mul_eq_zero.1 h1 with h2 | h2
  · exfalso
    have h3 := h.dvd_of_pow_eq_one _ (sub_eq_zero.1 h2)
    have := Nat.le_of_dvd (Nat.two_pow_pos _) h3
    rw [pow_succ] at this
    have := Nat.two_pow_pos L
    omega
  · exact eq_neg_of_add_eq_zero_left h2

theorem primitive_of_square (A : ℕ) (g : F) (hg : IsPrimitiveRoot g (2 ^ A)) (L : ℕ) (hL : L ≤ A) :
    ∃ w, rootOfUnity A g L = some w ∧ IsPrimitiveRoot w (2 ^ L) := by
  refine ⟨g ^ (2 ^ (A - L)), ?_, ?_⟩
  · unfold rootOfUnity
    rw [checkedSub, if_pos hL]
    simp [iterate_square]
  · apply hg.pow (Nat.two_pow_pos _)
    rw [← pow_add]
    congr 1
    omega

theorem log2_pow (L : ℕ) : Nat.clog 2 (2 ^ L) = L ∧ Nat.log 2 (2 ^ L) = L :=
  ⟨Nat.clog_pow 2 L (by omega), Nat.log_pow (by omega) L⟩

/-- The transform. -/
theorem fft_forward (A : ℕ) (g : F) (hg : IsPrimitiveRoot g (2 ^ A)) (L : ℕ) (hL : L + 1 ≤ A) (w : F)
    (hw : rootOfUnity A g (L + 1) = some w) (v : List F) (hl : v.length = 2 ^ (L + 1)) :
    ∃ out, fft A g false v = some out ∧ out.length = 2 ^ (L + 1) ∧
      ∀ k, k < 2 ^ (L + 1) → out.getD k 0 = ∑ j ∈ Finset.range (2 ^ (L + 1)), w ^ (k * j) * v.getD j 0 := by
  obtain ⟨w', hw', hp⟩ := primitive_of_square A g hg (L + 1) hL
  rw [hw] at hw'
  obtain rfl : w = w' := Option.some.inj hw'
  have hneg := primitive_neg w L hp
  obtain ⟨v1, b1, b2, b3⟩ := bitReversal_spec L v 0 hl
  obtain ⟨v2, s1, s2, s3⟩ := fftLoop_spec L w hp.pow_eq_one hneg v1 (by omega) (L + 1) (le_refl _)
  have h2 : ¬ v.length < 2 := by
    rw [hl, pow_succ]
    have := Nat.two_pow_pos L
    omega
  refine ⟨v2, ?_, s2, ?_⟩
  · unfold fft
    rw [if_neg h2]
    rw [hl] at b1 ⊢
    simp only [(log2_pow (L + 1)).1, (log2_pow (L + 1)).2, hw, Option.bind_eq_bind, Option.bind_some, b1, s1]
    simp only [Bool.false_eq_true, if_false, s1, Option.bind_some]
  · intro k hk
    have := s3 0 k (Nat.two_pow_pos _) hk
    simp only [Nat.sub_self, pow_zero, one_mul, zero_mul, zero_add] at this
    rw [this]
    apply Finset.sum_congr rfl
    intro j hj
    rw [Finset.mem_range] at hj
    rw [b3 _ (by rw [hl]; exact revBits_lt _ _), revBits_revBits _ _ hj]

theorem fft_inverse (A : ℕ) (g : F) (hg : IsPrimitiveRoot g (2 ^ A)) (L : ℕ) (hL : L + 1 ≤ A) (w : F)
    (hw : rootOfUnity A g (L + 1) = some w) (v : List F) (hl : v.length = 2 ^ (L + 1)) :
    ∃ out, fft A g true v = some out ∧ out.length = 2 ^ (L + 1) ∧
      ∀ k, k < 2 ^ (L + 1) → out.getD k 0
        = (∑ j ∈ Finset.range (2 ^ (L + 1)), w⁻¹ ^ (k * j) * v.getD j 0) * ((2 ^ (L + 1) : ℕ) : F)⁻¹ := by
  obtain ⟨w', hw', hp⟩ := primitive_of_square A g hg (L + 1) hL
  rw [hw] at hw'
  obtain rfl : w = w' := Option.some.inj hw'
  have hp' := hp.inv
  have hneg := primitive_neg w⁻¹ L hp'
  obtain ⟨v1, b1, b2, b3⟩ := bitReversal_spec L v 0 hl
  obtain ⟨v2, s1, s2, s3⟩ := fftLoop_spec L w⁻¹ hp'.pow_eq_one hneg v1 (by omega) (L + 1) (le_refl _)
  have h2 : ¬ v.length < 2 := by
    rw [hl, pow_succ]
    have := Nat.two_pow_pos L
    omega
  refine ⟨v2.map (· * ((2 ^ (L + 1) : ℕ) : F)⁻¹), ?_, by simpa using s2, ?_⟩
  · unfold fft
    rw [if_neg h2]
    rw [hl] at b1 ⊢
    simp only [(log2_pow (L + 1)).1, (log2_pow (L + 1)).2, hw, Option.bind_eq_bind, Option.bind_some, b1, if_true]
    rw [s1, Option.bind_some]
  · intro k hk
    have := s3 0 k (Nat.two_pow_pos _) hk
    simp only [Nat.sub_self, pow_zero, one_mul, zero_mul, zero_add] at this
    rw [List.getD_eq_getElem _ _ (by simpa [s2] using hk), List.getElem_map, ← List.getD_eq_getElem v2 0 (by omega), this]
    congr 1
    apply Finset.sum_congr rfl
    intro j hj
    rw [Finset.mem_range] at hj
    rw [b3 _ (by rw [hl]; exact revBits_lt _ _), revBits_revBits _ _ hj]

/-- Orthogonality. -/
theorem sum_root (w : F) (n : ℕ) (hp : IsPrimitiveRoot w n) (a b : ℕ) (ha : a < n) (hb : b < n) :
    ∑ k ∈ Finset.range n, w⁻¹ ^ (a * k) * w ^ (k * b) = if a = b then (n : F) else 0 := by
  have hw0 : w ≠ 0 := hp.ne_zero (by omega)
  have hterm : ∀ k, w⁻¹ ^ (a * k) * w ^ (k * b) = (w⁻¹ ^ a * w ^ b) ^ k := by
    intro k; rw [mul_pow, ← pow_mul, ← pow_mul, mul_comm k b]
  simp only [hterm]
  split
  · rename_i h
    subst h
    rw [← mul_pow, inv_mul_cancel₀ hw0, one_pow]
    simp
  · rename_i h
    have hne : w⁻¹ ^ a * w ^ b ≠ 1 := by
      intro he
      apply h
      have : w ^ b = w ^ a := by
        have h2 : w ^ a * (w⁻¹ ^ a * w ^ b) = w ^ a := by rw [he, mul_one]
        rwa [← mul_assoc, ← mul_pow, mul_inv_cancel₀ hw0, one_pow, one_mul] at h2
      exact (hp.pow_inj hb ha this).symm
    have hpow : (w⁻¹ ^ a * w ^ b) ^ n = 1 := by
      rw [mul_pow, ← pow_mul, ← pow_mul, mul_comm a n, mul_comm b n, pow_mul, pow_mul, inv_pow, hp.pow_eq_one]
      simp
    have := geom_sum_mul (w⁻¹ ^ a * w ^ b) n
    rw [hpow, sub_self] at this
    exact (mul_eq_zero.1 this).resolve_right (sub_ne_zero.2 hne)

end Lemmas
