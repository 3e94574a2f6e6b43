import Verif.Lemmas.Encoding

namespace Lemmas

open Model Spec

/-! ### Bit reversal of a vector -/

theorem reverseBits_eq : ∀ k n, reverseBits k n = revBits k n := by
  intro k
  induction k with
  | zero => intro n; rfl
  | succ k ih => intro n; rw [reverseBits, revBits, ih]

/-- The vector with its indices bit-reversed. -/
def bitrev {α : Type} (z : α) (k : ℕ) (v : List α) : List α := (List.range (2 ^ k)).map fun i => v.getD (revBits k i) z

theorem bitrev_length {α : Type} (z : α) (k : ℕ) (v : List α) : (bitrev z k v).length = 2 ^ k := by simp [bitrev]

theorem bitrev_getD {α : Type} (z : α) (k : ℕ) (v : List α) (i : ℕ) (hi : i < 2 ^ k) : (bitrev z k v).getD i z = v.getD (revBits k i) z := by
  simp [bitrev, List.getD_eq_getElem?_getD, hi]

theorem reverseIndexBits_eq {α : Type} (z : α) (k : ℕ) (v : List α) (hl : v.length = 2 ^ k) : reverseIndexBits v = some (bitrev z k v) := by
  unfold reverseIndexBits bitrev
  rw [hl, log2Strict_pow]
  simp only [Option.bind_eq_bind, Option.bind_some]
  apply mapM_some'
  intro i hi
  rw [reverseBits_eq]
  exact getElem?_of_lt v _ z (by rw [hl]; exact revBits_lt _ _)

theorem bitrev_bitrev {α : Type} (z : α) (k : ℕ) (v : List α) (hl : v.length = 2 ^ k) : bitrev z k (bitrev z k v) = v := by
  apply List.ext_getElem?
  intro i
  by_cases hi : i < 2 ^ k
  · rw [getElem?_of_lt _ i z (by rw [bitrev_length]; exact hi), bitrev_getD _ _ _ _ hi, bitrev_getD _ _ _ _ (revBits_lt _ _),
      revBits_revBits _ _ hi, getElem?_of_lt v i z (by omega)]
  · rw [List.getElem?_eq_none (by rw [bitrev_length]; omega), List.getElem?_eq_none (by omega)]

variable {F : Type} [Field F]

/-! ### The Fourier transform with a zero factor -/

theorem copyLow_spec (r : ℕ) (v : List F) :
    ∃ w, copyLow r v = some w ∧ w.length = v.length ∧ ∀ i, i < v.length → w.getD i 0 = v.getD (i / 2 ^ r * 2 ^ r) 0 := by
  unfold copyLow
  by_cases hr : 0 < r
  · rw [if_pos hr]
    have key : ∀ m, m ≤ v.length → ∃ w, (List.range m).foldlM (fun (w : List F) i => do
        let x ← w[i / 2 ^ r * 2 ^ r]?
        set? w i x) v = some w ∧ w.length = v.length ∧ (∀ i, i < m → w.getD i 0 = v.getD (i / 2 ^ r * 2 ^ r) 0) ∧
        ∀ i, m ≤ i → w.getD i 0 = v.getD i 0 := by
      intro m
      induction m with
      | zero => intro _; exact ⟨v, rfl, rfl, by omega, fun _ _ => rfl⟩
      | succ m ih =>
        intro hm
        obtain ⟨w, h1, h2, h3, h4⟩ := ih (by omega)
        have hle : m / 2 ^ r * 2 ^ r ≤ m := Nat.div_mul_le_self _ _
        have hval : w.getD (m / 2 ^ r * 2 ^ r) 0 = v.getD (m / 2 ^ r * 2 ^ r) 0 := by
          rcases Nat.lt_or_ge (m / 2 ^ r * 2 ^ r) m with hlt | hge
          · rw [h3 _ hlt, Nat.mul_div_cancel _ (Nat.two_pow_pos r)]
          · exact h4 _ hge
        rw [List.range_succ, List.foldlM_append, h1]
        simp only [Option.bind_eq_bind, Option.bind_some, List.foldlM_cons, List.foldlM_nil]
        rw [getElem?_of_lt w _ 0 (by omega)]
        refine ⟨w.set m (v.getD (m / 2 ^ r * 2 ^ r) 0), ?_, by simpa using h2, ?_, ?_⟩
        · rw [hval]
          simp [set?, h2, show m < v.length by omega]
        · intro i hi
          by_cases him : i = m
          · subst him; rw [getD_set_eq _ _ _ (by omega)]
          · rw [getD_set_ne _ _ _ _ (by omega), h3 i (by omega)]
        · intro i hi
          rw [getD_set_ne _ _ _ _ (by omega), h4 i (by omega)]
    obtain ⟨w, h1, h2, h3, _⟩ := key v.length (le_refl _)
    exact ⟨w, h1, h2, h3⟩
  · rw [if_neg hr]
    refine ⟨v, rfl, rfl, ?_⟩
    intro i _
    rw [show r = 0 by omega]; simp

/-- The rows of a table hold the powers of a tower of roots of unity. -/
structure RootTable (n : ℕ) (ω : ℕ → F) (table : List (List F)) : Prop where
  len : table.length = n
  sq : ∀ k, k < n → ω (k + 1) ^ 2 = ω k
  neg : ∀ k, k < n → ω (k + 1) ^ 2 ^ k = -1
  row : ∀ k, k < n → ∃ row, table[k]? = some row ∧ ∀ j, j < 2 ^ k → row[j]? = some (ω (k + 1) ^ j)

theorem RootTable.one {n : ℕ} {ω : ℕ → F} {table : List (List F)} (h : RootTable n ω table) (k : ℕ) (hk : k < n) :
    ω (k + 1) ^ 2 ^ (k + 1) = 1 := by
  rw [pow_succ, pow_mul, h.neg k hk]; ring

theorem fftRound_spec (s m : ℕ) (ω : F) (row v : List F) (hl : v.length = 2 ^ (s + 1) * m) (hrow : ∀ j, j < 2 ^ s → row[j]? = some (ω ^ j)) :
    ∃ v', fftRound v (s, row) = some v' ∧ v'.length = v.length ∧ ∀ c k, c < m → k < 2 ^ s →
      v'.getD (c * 2 ^ (s + 1) + k) 0 = v.getD (c * 2 ^ (s + 1) + k) 0 + v.getD (c * 2 ^ (s + 1) + (k + 2 ^ s)) 0 * ω ^ k ∧
      v'.getD (c * 2 ^ (s + 1) + (k + 2 ^ s)) 0 = v.getD (c * 2 ^ (s + 1) + k) 0 - v.getD (c * 2 ^ (s + 1) + (k + 2 ^ s)) 0 * ω ^ k := by
  have hhalf : 2 ^ (s + 1) / 2 = 2 ^ s := by rw [pow_succ]; omega
  have h2 : 2 * 2 ^ s = 2 ^ (s + 1) := by rw [pow_succ]; ring
  obtain ⟨cs, h1, h3, h4⟩ := chunkMap_spec (2 ^ (s + 1)) m (Nat.two_pow_pos _) (butterfly row 1 (2 ^ s))
    (fun c c' => ∀ k, k < 2 ^ s → c'.getD k 0 = c.getD k 0 + c.getD (k + 2 ^ s) 0 * ω ^ k ∧
      c'.getD (k + 2 ^ s) 0 = c.getD k 0 - c.getD (k + 2 ^ s) 0 * ω ^ k)
    (fun c hc => by
      rw [← h2] at hc ⊢
      obtain ⟨c', e1, e2, e3, e4⟩ := butterfly_spec row ω 1 (2 ^ s) c hc (fun k hk => by rw [one_mul]; exact hrow k hk)
      refine ⟨c', e1, e2, fun k hk => ?_⟩
      rw [e3 k hk, e4 k hk, one_mul]
      exact ⟨rfl, rfl⟩) v hl
  refine ⟨cs.flatten, ?_, h3, ?_⟩
  · unfold fftRound
    simp only [hhalf, h1]; rfl
  · intro c k hc hk
    obtain ⟨a, b, _, _, h5, h6, h7⟩ := h4 c hc
    rw [h7 k (by omega), h7 _ (by omega), ← h6 k (by omega), ← h6 _ (by omega)]
    exact h5 k hk

/-- The state of the transform after the passes `r, …, s - 1`. -/
def FftState (n : ℕ) (ω : ℕ → F) (v0 v : List F) (s : ℕ) : Prop :=
  v.length = 2 ^ n ∧ ∀ c k, c < 2 ^ (n - s) → k < 2 ^ s →
    v.getD (c * 2 ^ s + k) 0 = ∑ j ∈ Finset.range (2 ^ s), ω s ^ (k * j) * v0.getD (c * 2 ^ s + revBits s j) 0

theorem fftState_step (n : ℕ) (ω : ℕ → F) (table : List (List F)) (h : RootTable n ω table) (v0 v row : List F) (s : ℕ) (hs : s < n)
    (hst : FftState n ω v0 v s) (hrow : table[s]? = some row) :
    ∃ v', fftRound v (s, row) = some v' ∧ FftState n ω v0 v' (s + 1) := by
  obtain ⟨h2, h3⟩ := hst
  obtain ⟨row', hr1, hr2⟩ := h.row s hs
  rw [hrow] at hr1
  obtain rfl := Option.some.inj hr1
  obtain ⟨e, he⟩ : ∃ e, n - (s + 1) = e := ⟨_, rfl⟩
  have he1 : n - s = e + 1 := by omega
  obtain ⟨v2, g1, g2, g3⟩ := fftRound_spec s (2 ^ e) (ω (s + 1)) row v (by rw [h2, ← pow_add]; congr 1; omega) hr2
  refine ⟨v2, g1, by rw [g2, h2], ?_⟩
  rw [he]
  have hsq := h.sq s hs
  have hone := h.one s hs
  have hneg := h.neg s hs
  have hsplit : ∀ c k, ∑ j ∈ Finset.range (2 ^ (s + 1)), ω (s + 1) ^ (k * j) * v0.getD (c * 2 ^ (s + 1) + revBits (s + 1) j) 0
      = ∑ j ∈ Finset.range (2 ^ s), ω s ^ (k * j) * v0.getD (2 * c * 2 ^ s + revBits s j) 0
        + ω (s + 1) ^ k * ∑ j ∈ Finset.range (2 ^ s), ω s ^ (k * j) * v0.getD ((2 * c + 1) * 2 ^ s + revBits s j) 0 := by
    intro c k
    have h2s : (2 : ℕ) ^ (s + 1) = 2 * 2 ^ s := by rw [pow_succ]; ring
    rw [h2s, sum_even_odd, Finset.mul_sum]
    congr 1
    · refine Finset.sum_congr rfl fun j _ => ?_
      have : revBits (s + 1) (2 * j) = revBits s j := by
        rw [revBits, Nat.mul_mod_right, Nat.mul_div_cancel_left _ (by omega)]; simp
      rw [this, ← hsq, ← pow_mul]
      congr 2
      · ring
      · ring
    · refine Finset.sum_congr rfl fun j _ => ?_
      have : revBits (s + 1) (2 * j + 1) = 2 ^ s + revBits s j := by
        rw [revBits, show (2 * j + 1) % 2 = 1 by omega, show (2 * j + 1) / 2 = j by omega, one_mul]
      rw [this, ← hsq, ← pow_mul, show k * (2 * j + 1) = k + 2 * (k * j) by ring, pow_add,
        show c * (2 * 2 ^ s) + (2 ^ s + revBits s j) = (2 * c + 1) * 2 ^ s + revBits s j by ring, mul_assoc]
  intro c k hc hk
  have hc2 : 2 * c < 2 ^ (n - s) := by rw [he1, pow_succ]; omega
  have hc3 : 2 * c + 1 < 2 ^ (n - s) := by rw [he1, pow_succ]; omega
  have e0 : ∀ k, c * 2 ^ (s + 1) + k = 2 * c * 2 ^ s + k := by intro k; rw [pow_succ]; ring
  have e1 : ∀ k, c * 2 ^ (s + 1) + (k + 2 ^ s) = (2 * c + 1) * 2 ^ s + k := by intro k; rw [pow_succ]; ring
  rw [hsplit c k]
  rcases Nat.lt_or_ge k (2 ^ s) with hk1 | hk1
  · rw [(g3 c k hc hk1).1, e0, e1, h3 (2 * c) k hc2 hk1, h3 (2 * c + 1) k hc3 hk1]
    ring
  · obtain ⟨k', rfl⟩ : ∃ k', k = k' + 2 ^ s := ⟨k - 2 ^ s, by omega⟩
    have hk2 : k' < 2 ^ s := by rw [pow_succ] at hk; omega
    rw [(g3 c k' hc hk2).2, e0, e1, h3 (2 * c) k' hc2 hk2, h3 (2 * c + 1) k' hc3 hk2]
    have hper : ∀ j, ω s ^ ((k' + 2 ^ s) * j) = ω s ^ (k' * j) := by
      intro j
      rw [add_mul, pow_add, ← hsq, ← pow_mul, ← pow_mul, show 2 * (2 ^ s * j) = 2 ^ (s + 1) * j by rw [pow_succ]; ring,
        pow_mul _ (2 ^ (s + 1)) j, hone, one_pow, mul_one]
    simp only [hper]
    rw [pow_add, hneg]
    ring

theorem fftInner_list (n r : ℕ) (table : List (List F)) (hl : table.length = n) :
    (((List.range table.length).zip table).take n).drop r = (List.range' r (n - r)).map fun s => (s, table.getD s []) := by
  apply List.ext_getElem?
  intro i
  rw [List.getElem?_drop, List.getElem?_map]
  by_cases hi : r + i < n
  · rw [List.getElem?_take_of_lt hi, List.getElem?_range' (by omega)]
    have : ((List.range table.length).zip table)[r + i]? = some (r + i, table.getD (r + i) []) := by
      rw [List.getElem?_zip_eq_some]
      exact ⟨by simp [hl, hi], getElem?_of_lt table (r + i) [] (by omega)⟩
    rw [this]; simp
  · rw [List.getElem?_eq_none (by simp; omega), List.getElem?_eq_none (by simp; omega)]; rfl

theorem fftInner_spec (n r : ℕ) (hr : r ≤ n) (ω : ℕ → F) (table : List (List F)) (h : RootTable n ω table) (v0 v : List F)
    (hst : FftState n ω v0 v r) : ∃ v', fftInner v r n table = some v' ∧ FftState n ω v0 v' n := by
  unfold fftInner
  rw [fftInner_list n r table h.len]
  have key : ∀ t, r + t ≤ n → ∃ v', ((List.range' r t).map fun s => (s, table.getD s [])).foldlM fftRound v = some v' ∧
      FftState n ω v0 v' (r + t) := by
    intro t
    induction t with
    | zero => intro _; exact ⟨v, rfl, hst⟩
    | succ t ih =>
      intro ht
      obtain ⟨w, h1, h2⟩ := ih (by omega)
      obtain ⟨w', g1, g2⟩ := fftState_step n ω table h v0 w (table.getD (r + t) []) (r + t) (by omega) h2
        (getElem?_of_lt table (r + t) [] (by rw [h.len]; omega))
      refine ⟨w', ?_, g2⟩
      rw [List.range'_1_concat, List.map_append, List.foldlM_append, h1]
      simp only [Option.bind_eq_bind, Option.bind_some, List.map_cons, List.map_nil, List.foldlM_cons, List.foldlM_nil, g1]
      rfl
  obtain ⟨v', h1, h2⟩ := key (n - r) (by omega)
  rw [show r + (n - r) = n by omega] at h2
  exact ⟨v', h1, h2⟩

theorem revBits_low : ∀ (r s i : ℕ), i < 2 ^ s → 0 < i → r ≤ s → i % 2 ^ r ≠ 0 → 2 ^ (s - r) ≤ revBits s i := by
  intro r
  induction r with
  | zero => intro s i _ _ _ h; simp [Nat.mod_one] at h
  | succ r ih =>
    intro s i hi h0 hr h
    obtain ⟨s, rfl⟩ : ∃ k, s = k + 1 := ⟨s - 1, by omega⟩
    rw [revBits]
    by_cases hodd : i % 2 = 1
    · rw [hodd, one_mul]
      have : 2 ^ (s + 1 - (r + 1)) ≤ 2 ^ s := Nat.pow_le_pow_right (by omega) (by omega)
      omega
    · have h1 : i / 2 % 2 ^ r ≠ 0 := by
        intro h2
        apply h
        rw [pow_succ, mul_comm, Nat.mod_mul, h2]; omega
      have := ih s (i / 2) (by rw [pow_succ] at hi; omega) (by omega) (by omega) h1
      rw [show s + 1 - (r + 1) = s - r by omega]
      omega

theorem fftRs_spec (n r : ℕ) (hr : r ≤ n) (ω : ℕ → F) (table : List (List F)) (h : RootTable n ω table) (v : List F) (hl : v.length = 2 ^ n)
    (hz : ∀ i, 2 ^ (n - r) ≤ i → v.getD i 0 = 0) :
    ∃ v', fftRs v r table = some v' ∧ v'.length = 2 ^ n ∧
      ∀ k, k < 2 ^ n → v'.getD k 0 = ∑ j ∈ Finset.range (2 ^ n), ω n ^ (k * j) * v.getD j 0 := by
  unfold fftRs
  rw [reverseIndexBits_eq 0 n v hl]
  simp only [Option.bind_eq_bind, Option.bind_some]
  rw [bitrev_length, log2Strict_pow]
  simp only [Option.bind_some, if_pos h.len]
  obtain ⟨w, h1, h2, h3⟩ := copyLow_spec r (bitrev 0 n v)
  rw [bitrev_length] at h2 h3
  rw [h1]
  simp only [Option.bind_some]
  obtain ⟨v', g1, g2, g3⟩ := fftInner_spec n r hr ω table h (bitrev 0 n v) w (by
    refine ⟨h2, ?_⟩
    intro c k hc hk
    have hnr : 2 ^ (n - r) * 2 ^ r = 2 ^ n := by rw [← pow_add]; congr 1; omega
    have hlt : ∀ k, k < 2 ^ r → c * 2 ^ r + k < 2 ^ n := by
      intro k hk
      have : (c + 1) * 2 ^ r ≤ 2 ^ (n - r) * 2 ^ r := Nat.mul_le_mul_right _ hc
      rw [add_mul, one_mul] at this
      omega
    rw [h3 _ (hlt k hk), mul_add_div' hk]
    rw [Finset.sum_eq_single 0]
    · have : revBits r 0 = 0 := by
        have : ∀ r, revBits r 0 = 0 := by
          intro r
          induction r with
          | zero => rfl
          | succ r ih => rw [revBits]; simp [ih]
        exact this r
      rw [this]; simp
    · intro j hj hj0
      have hj' := Finset.mem_range.1 hj
      have hrev : revBits r j ≠ 0 := by
        intro hh
        apply hj0
        rw [← revBits_revBits r j hj', hh]
        have : ∀ r, revBits r 0 = 0 := by
          intro r
          induction r with
          | zero => rfl
          | succ r ih => rw [revBits]; simp [ih]
        exact this r
      have hrl := revBits_lt r j
      rw [bitrev_getD _ _ _ _ (hlt _ hrl), hz _, mul_zero]
      apply revBits_low r n _ (hlt _ hrl) (by omega) hr
      rw [mul_add_mod' hrl]
      exact hrev
    · intro hh
      exact absurd (Finset.mem_range.2 (Nat.two_pow_pos r)) hh)
  refine ⟨v', g1, g2, ?_⟩
  intro k hk
  have := g3 0 k (by simp) hk
  simp only [zero_mul, zero_add] at this
  rw [this]
  refine Finset.sum_congr rfl fun j hj => ?_
  rw [bitrev_getD _ _ _ _ (revBits_lt _ _), revBits_revBits _ _ (Finset.mem_range.1 hj)]

/-! ### The root table -/

theorem iterate_len {α : Type} (f : α → α) : ∀ (n : ℕ) (a : α), (List.iterate f a n).length = n := by
  intro n
  induction n with
  | zero => intro a; rfl
  | succ n ih => intro a; rw [List.iterate, List.length_cons, ih]

theorem iterate_sq_getElem (g : F) (n i : ℕ) (h : i < n) : (List.iterate (fun b : F => b * b) g n)[i]? = some (g ^ 2 ^ i) := by
  have : ∀ (n i : ℕ) (a : F), i < n → (List.iterate (fun b : F => b * b) a n)[i]? = some (a ^ 2 ^ i) := by
    intro n
    induction n with
    | zero => intro i a h; omega
    | succ n ih =>
      intro i a h
      cases i with
      | zero => simp [List.iterate]
      | succ i =>
        rw [List.iterate, List.getElem?_cons_succ, ih i _ (by omega), ← sq, ← pow_mul, pow_succ, mul_comm]
  exact this n i g h

/-- The tower of roots. -/
def rootTower (g : F) (lg k : ℕ) : F := g ^ 2 ^ (lg - k)

theorem fftRootTable_spec (gen : ℕ → F) (lg : ℕ) (hg : IsPrimitiveRoot (gen lg) (2 ^ lg)) :
    ∃ table, fftRootTable gen lg = some table ∧ RootTable lg (rootTower (gen lg) lg) table ∧
      ∀ k row, table[k]? = some row → row[1]? = some (rootTower (gen lg) lg (k + 1)) := by
  have hrows : fftRootTable gen lg = some ((List.range lg).map fun i => twiddles (rootTower (gen lg) lg (i + 1)) (max (2 ^ i) 2)) := by
    unfold fftRootTable
    apply mapM_some'
    intro i hi
    have := List.mem_range.1 hi
    rw [iterate_sq_getElem _ _ _ (by omega)]
    rfl
  refine ⟨_, hrows, ⟨by simp, ?_, ?_, ?_⟩, ?_⟩
  · intro k hk
    unfold rootTower
    rw [← pow_mul, ← pow_succ]
    congr 2; omega
  · intro k hk
    unfold rootTower
    rw [← pow_mul, ← pow_add, show lg - (k + 1) + k = lg - 1 by omega]
    obtain ⟨l, rfl⟩ : ∃ l, lg = l + 1 := ⟨lg - 1, by omega⟩
    exact primitive_neg _ _ hg
  · intro k hk
    refine ⟨_, by rw [List.getElem?_map, List.getElem?_range hk]; rfl, ?_⟩
    intro j hj
    exact twiddles_getElem _ _ _ (by omega)
  · intro k row h
    rw [List.getElem?_map, Option.map_eq_some_iff] at h
    obtain ⟨a, h1, h2⟩ := h
    have : a = k := by
      rw [List.getElem?_range] at h1
      · exact (Option.some.inj h1).symm
      · by_contra hh
        rw [List.getElem?_eq_none (by simpa using hh)] at h1
        cases h1
    subst this
    rw [← h2, twiddles_getElem _ _ _ (by omega), pow_one]

theorem RootTable.take {n : ℕ} {ω : ℕ → F} {table : List (List F)} (h : RootTable n ω table) (m : ℕ) (hm : m ≤ n) :
    RootTable m ω (table.take m) := by
  refine ⟨by rw [List.length_take, h.len]; omega, fun k hk => h.sq k (by omega), fun k hk => h.neg k (by omega), ?_⟩
  intro k hk
  obtain ⟨row, h1, h2⟩ := h.row k (by omega)
  exact ⟨row, by rw [List.getElem?_take_of_lt hk, h1], h2⟩

/-! ### Encoding -/

theorem rsEncodeInternal_spec (spec : RsSpec) (gamma : F) (ω : ℕ → F) (table : List (List F)) (full k : ℕ) (coeffs : List F)
    (hl : coeffs.length = 2 ^ k) (hk : k ≤ full) (htl : k + spec.rateLog ≤ table.length) (h : RootTable (k + spec.rateLog) ω (table.take (k + spec.rateLog))) :
    ∃ v, rsEncodeInternal spec gamma table coeffs full = some v ∧ v.length = 2 ^ (k + spec.rateLog) ∧
      ∀ i, i < 2 ^ (k + spec.rateLog) → v.getD i 0 = polyEval coeffs (gamma ^ 2 ^ (full - k) * ω (k + spec.rateLog) ^ i) := by
  unfold rsEncodeInternal
  rw [hl, log2Strict_pow]
  simp only [Option.bind_eq_bind, Option.bind_some]
  rw [if_pos ⟨htl, hk⟩, iterate_square]
  unfold cosetFft
  have hlen : (coeffs ++ List.replicate (2 ^ k * (2 ^ spec.rateLog - 1)) (0 : F)).length = 2 ^ (k + spec.rateLog) := by
    rw [List.length_append, hl, List.length_replicate, pow_add]
    have := Nat.two_pow_pos spec.rateLog
    obtain ⟨r, hr⟩ : ∃ r, 2 ^ spec.rateLog = r + 1 := ⟨2 ^ spec.rateLog - 1, by omega⟩
    rw [hr]; simp; ring
  rw [hlen]
  obtain ⟨s, hs⟩ : ∃ s, s = gamma ^ 2 ^ (full - k) := ⟨_, rfl⟩
  rw [← hs]
  have hget : ∀ j, j < 2 ^ (k + spec.rateLog) →
      (List.zipWith (· * ·) (coeffs ++ List.replicate (2 ^ k * (2 ^ spec.rateLog - 1)) (0 : F)) (twiddles s (2 ^ (k + spec.rateLog)))).getD j 0
        = coeffs.getD j 0 * s ^ j := by
    intro j hj
    rw [List.getD_eq_getElem?_getD, List.getElem?_zipWith, twiddles_getElem _ _ _ hj, getElem?_of_lt _ j 0 (by omega)]
    simp only [Option.getD_some]
    congr 1
    rw [List.getD_eq_getElem?_getD, List.getD_eq_getElem?_getD, List.getElem?_append]
    split
    · rfl
    · rw [List.getElem?_eq_none (l := coeffs) (by omega), List.getElem?_replicate]
      split <;> rfl
  have hlen2 : (List.zipWith (· * ·) (coeffs ++ List.replicate (2 ^ k * (2 ^ spec.rateLog - 1)) (0 : F))
      (twiddles s (2 ^ (k + spec.rateLog)))).length = 2 ^ (k + spec.rateLog) := by
    rw [List.length_zipWith, hlen, twiddles, iterate_len]; simp
  obtain ⟨v, h1, h2, h3⟩ := fftRs_spec (k + spec.rateLog) spec.rateLog (by omega) ω _ h _ hlen2 (by
    intro i hi
    rw [show k + spec.rateLog - spec.rateLog = k by omega] at hi
    by_cases hi2 : i < 2 ^ (k + spec.rateLog)
    · rw [hget i hi2, List.getD_eq_getElem?_getD, List.getElem?_eq_none (by omega)]; simp
    · rw [List.getD_eq_getElem?_getD, List.getElem?_eq_none (by omega)]; rfl)
  refine ⟨v, h1, h2, ?_⟩
  intro i hi
  rw [h3 i hi]
  unfold polyEval
  rw [hl]
  have hsub : Finset.range (2 ^ k) ⊆ Finset.range (2 ^ (k + spec.rateLog)) := by
    apply Finset.range_subset_range.2
    exact Nat.pow_le_pow_right (by omega) (by omega)
  rw [← Finset.sum_subset hsub]
  · refine Finset.sum_congr rfl fun j hj => ?_
    rw [hget j (Finset.mem_range.1 (hsub hj)), mul_pow, ← pow_mul]
    ring
  · intro j hj hj2
    rw [hget j (Finset.mem_range.1 hj), List.getD_eq_getElem?_getD, List.getElem?_eq_none (by
      rw [Finset.mem_range] at hj2; omega)]
    simp

/-! ### Folding -/

theorem foldMessage_eq (k : ℕ) (m : List F) (hl : m.length = 2 ^ (k + 1)) (c : F) :
    foldMessage m c = some ((List.range (2 ^ k)).map fun i => m.getD (2 * i) 0 + m.getD (2 * i + 1) 0 * c) := by
  unfold foldMessage
  rw [hl, show 2 ^ (k + 1) / 2 = 2 ^ k by rw [pow_succ]; omega]
  apply mapM_some'
  intro i hi
  have := List.mem_range.1 hi
  have h2 : 2 ^ (k + 1) = 2 * 2 ^ k := by rw [pow_succ]; ring
  rw [getElem?_of_lt m (2 * i) 0 (by omega), getElem?_of_lt m (2 * i + 1) 0 (by omega)]
  rfl

theorem foldCodeword_eq (S : CodeScheme F) (n : ℕ) (v : List F) (hl : v.length = 2 ^ (n + 1)) (x : ℕ → F × F × F)
    (hx : ∀ i, i < 2 ^ n → S.proverCoeffs n i = some (x i)) (c : F) :
    foldCodeword S v c = some ((List.range (2 ^ n)).map fun i =>
      interpolate2Weights (x i).1 (v.getD (2 * i) 0) (x i).2.1 (v.getD (2 * i + 1) 0) (x i).2.2 c) := by
  unfold foldCodeword
  rw [hl, log2Strict_pow]
  simp only [Option.bind_eq_bind, Option.bind_some, checkedSub, show (1 ≤ n + 1) by omega, if_true, Nat.add_sub_cancel]
  rw [show 2 ^ (n + 1) / 2 = 2 ^ n by rw [pow_succ]; omega]
  apply mapM_some'
  intro i hi
  have := List.mem_range.1 hi
  have h2 : 2 ^ (n + 1) = 2 * 2 ^ n := by rw [pow_succ]; ring
  rw [getElem?_of_lt v (2 * i) 0 (by omega), getElem?_of_lt v (2 * i + 1) 0 (by omega), hx i this]
  rfl

theorem polyEval_split (k : ℕ) (m : List F) (hl : m.length = 2 ^ (k + 1)) (c x : F) :
    polyEval m x = (∑ i ∈ Finset.range (2 ^ k), m.getD (2 * i) 0 * (x ^ 2) ^ i)
      + x * ∑ i ∈ Finset.range (2 ^ k), m.getD (2 * i + 1) 0 * (x ^ 2) ^ i := by
  unfold polyEval
  rw [hl, show 2 ^ (k + 1) = 2 * 2 ^ k by rw [pow_succ]; ring, sum_even_odd, Finset.mul_sum]
  congr 1
  · refine Finset.sum_congr rfl fun i _ => ?_
    rw [pow_mul]
  · refine Finset.sum_congr rfl fun i _ => ?_
    rw [pow_succ, pow_mul]; ring

theorem polyEval_fold (k : ℕ) (m : List F) (c x : F) :
    polyEval ((List.range (2 ^ k)).map fun i => m.getD (2 * i) 0 + m.getD (2 * i + 1) 0 * c) x
      = (∑ i ∈ Finset.range (2 ^ k), m.getD (2 * i) 0 * x ^ i) + c * ∑ i ∈ Finset.range (2 ^ k), m.getD (2 * i + 1) 0 * x ^ i := by
  unfold polyEval
  rw [List.length_map, List.length_range, Finset.mul_sum, ← Finset.sum_add_distrib]
  refine Finset.sum_congr rfl fun i hi => ?_
  rw [List.getD_eq_getElem?_getD, List.getElem?_map, List.getElem?_range (Finset.mem_range.1 hi)]
  simp only [Option.map_some, Option.getD_some]
  ring

/-- Interpolating the line through `(x, P(x))` and `(-x, P(-x))` folds the even and odd part. -/
theorem interpolate_line (a b x c : F) (hx : x ≠ 0) (h2 : (2 : F) ≠ 0) :
    interpolate2Weights x (a + x * b) (-x) (a + -x * b) (-(2 * x)⁻¹) c = a + c * b := by
  unfold interpolate2Weights
  field_simp
  ring

/-! ### Foldable codes -/

/-- The message the commitment encodes for the coefficients `coeffs` (basefold.rs:126-134). -/
def codeMessage (S : CodeScheme F) (k : ℕ) (coeffs : List F) : List F := if S.leftRight then coeffs else bitrev 0 k coeffs

/-- Coefficients of the polynomial with its last variable fixed to `c`. -/
def topFold (k : ℕ) (coeffs : List F) (c : F) : List F := (List.range (2 ^ k)).map fun i => coeffs.getD i 0 + coeffs.getD (i + 2 ^ k) 0 * c

/-- What the protocol needs of a coding scheme: `word k coeffs` is the bit-reversed codeword. -/
structure GoodCode (S : CodeScheme F) (word : ℕ → List F → List F) : Prop where
  length : ∀ k coeffs, S.basecodeLog ≤ k → k ≤ S.maxLog → coeffs.length = 2 ^ k → (word k coeffs).length = 2 ^ (k + S.rateLog)
  encode : ∀ k coeffs, S.basecodeLog ≤ k → k ≤ S.maxLog → coeffs.length = 2 ^ k →
    ∃ v, S.encode (codeMessage S k coeffs) = some v ∧ v.length = 2 ^ (k + S.rateLog) ∧ bitrev 0 (k + S.rateLog) v = word k coeffs
  small : ∀ coeffs, coeffs.length = 2 ^ S.basecodeLog →
    ∃ v, S.encodeSmall (codeMessage S S.basecodeLog coeffs) = some v ∧ v.length = 2 ^ (S.basecodeLog + S.rateLog) ∧
      bitrev 0 (S.basecodeLog + S.rateLog) v = word S.basecodeLog coeffs
  fold : ∀ k coeffs c, S.basecodeLog ≤ k → k + 1 ≤ S.maxLog → coeffs.length = 2 ^ (k + 1) →
    foldCodeword S (word (k + 1) coeffs) c = some (word k (topFold k coeffs c))
  coeffs : ∀ level i, S.basecodeLog + S.rateLog ≤ level → level < S.maxLog + S.rateLog → i < 2 ^ level →
    ∃ x, S.proverCoeffs level i = some x ∧ S.verifierCoeffs level i = some x

theorem revBits_even (s j : ℕ) : revBits (s + 1) (2 * j) = revBits s j := by
  rw [revBits, Nat.mul_mod_right, Nat.mul_div_cancel_left _ (by omega)]; simp

theorem revBits_odd (s j : ℕ) : revBits (s + 1) (2 * j + 1) = revBits s j + 2 ^ s := by
  rw [revBits, show (2 * j + 1) % 2 = 1 by omega, show (2 * j + 1) / 2 = j by omega, one_mul, add_comm]

theorem bitrev_topFold (k : ℕ) (coeffs : List F) (c : F) :
    (List.range (2 ^ k)).map (fun i => (bitrev 0 (k + 1) coeffs).getD (2 * i) 0 + (bitrev 0 (k + 1) coeffs).getD (2 * i + 1) 0 * c)
      = bitrev 0 k (topFold k coeffs c) := by
  unfold bitrev
  apply List.map_congr_left
  intro i hi
  have hi := List.mem_range.1 hi
  have h2 : 2 ^ (k + 1) = 2 * 2 ^ k := by rw [pow_succ]; ring
  have e1 := bitrev_getD (0 : F) (k + 1) coeffs (2 * i) (by omega)
  have e2 := bitrev_getD (0 : F) (k + 1) coeffs (2 * i + 1) (by omega)
  unfold bitrev at e1 e2
  rw [e1, e2, revBits_even, revBits_odd]
  simp [topFold, List.getD_eq_getElem?_getD, revBits_lt k i]

/-- The bit-reversed Reed-Solomon codeword. -/
def rsWord (rate : ℕ) (gamma : F) (ω : ℕ → F) (full k : ℕ) (coeffs : List F) : List F :=
  bitrev 0 (k + rate) ((List.range (2 ^ (k + rate))).map fun i => polyEval (bitrev 0 k coeffs) (gamma ^ 2 ^ (full - k) * ω (k + rate) ^ i))

theorem rsWord_length (rate : ℕ) (gamma : F) (ω : ℕ → F) (full k : ℕ) (coeffs : List F) :
    (rsWord rate gamma ω full k coeffs).length = 2 ^ (k + rate) := bitrev_length _ _ _

theorem rsWord_getD (rate : ℕ) (gamma : F) (ω : ℕ → F) (full k : ℕ) (coeffs : List F) (i : ℕ) (hi : i < 2 ^ (k + rate)) :
    (rsWord rate gamma ω full k coeffs).getD i 0
      = polyEval (bitrev 0 k coeffs) (gamma ^ 2 ^ (full - k) * ω (k + rate) ^ revBits (k + rate) i) := by
  unfold rsWord
  rw [bitrev_getD _ _ _ _ hi]
  simp [List.getD_eq_getElem?_getD, revBits_lt]

/-- The abscissa of a position. -/
def rsPoint (spec : RsSpec) (gamma : F) (ω : ℕ → F) (full level i : ℕ) : F :=
  ω (level + 1) ^ revBits level i * gamma ^ 2 ^ (full + spec.rateLog - (level + 1))

theorem inv_root {n : ℕ} {ω : ℕ → F} {table : List (List F)} (h : RootTable n ω table) (level i : ℕ) (hl : level < n) (hi : i ≤ 2 ^ level)
    : -(ω (level + 1) ^ (2 ^ level - i)) = (ω (level + 1) ^ i)⁻¹ := by
  have h1 := h.neg level hl
  have h2 : ω (level + 1) ^ i * ω (level + 1) ^ (2 ^ level - i) = -1 := by
    rw [← pow_add, ← h1]; congr 1; omega
  apply eq_inv_of_mul_eq_one_left
  linear_combination (-1) * h2

theorem root_ne_zero {n : ℕ} {ω : ℕ → F} {table : List (List F)} (h : RootTable n ω table) (level : ℕ) (hl : level < n) : ω (level + 1) ≠ 0 := by
  intro h0
  have := h.one level hl
  rw [h0, zero_pow (Nat.two_pow_pos _).ne'] at this
  exact zero_ne_one this

theorem rsTrim_spec (spec : RsSpec) (gamma : F) (ω : ℕ → F) (lg maxLog : ℕ) (table : List (List F)) (h : RootTable lg ω table)
    (hbase : ∀ k row, table[k]? = some row → row[1]? = some (ω (k + 1))) (hm : maxLog + spec.rateLog ≤ lg) (hb : spec.basecodeLog ≤ maxLog) :
    ∃ p, rsTrim spec gamma table maxLog = some p ∧ p.1.fullLog = maxLog ∧ p.2.fullLog = maxLog ∧
      p.1.table = table.take (maxLog + spec.rateLog) ∧
      p.2.table = (table.take (spec.basecodeLog + spec.rateLog))
        ++ (List.range (maxLog - spec.basecodeLog)).map (fun j => [ω (spec.basecodeLog + spec.rateLog + j + 1)]) ∧
      p.1.gammaPowers = p.2.gammaPowers ∧ p.1.gammaInvDivTwo = p.2.gammaInvDivTwo ∧
      ∀ d, d < maxLog + spec.rateLog → p.1.gammaPowers[d]? = some (gamma ^ 2 ^ d) ∧
        p.1.gammaInvDivTwo[d]? = some ((gamma ^ 2 ^ d)⁻¹ * (2 : F)⁻¹) := by
  unfold rsTrim
  rw [if_neg (by rw [h.len]; omega), if_neg (by omega)]
  have hhigh : ((table.take (maxLog + spec.rateLog)).drop (spec.basecodeLog + spec.rateLog)).mapM (fun v => do some [← v[1]?])
      = some ((List.range (maxLog - spec.basecodeLog)).map (fun j => [ω (spec.basecodeLog + spec.rateLog + j + 1)])) := by
    have e : (table.take (maxLog + spec.rateLog)).drop (spec.basecodeLog + spec.rateLog)
        = (List.range (maxLog - spec.basecodeLog)).map (fun j => table.getD (spec.basecodeLog + spec.rateLog + j) []) := by
      apply List.ext_getElem?
      intro i
      rw [List.getElem?_drop, List.getElem?_map]
      by_cases hi : i < maxLog - spec.basecodeLog
      · rw [List.getElem?_take_of_lt (by omega), List.getElem?_range hi]
        exact getElem?_of_lt table _ [] (by rw [h.len]; omega)
      · rw [List.getElem?_eq_none (by rw [List.length_take]; omega), List.getElem?_eq_none (by simpa using hi)]; rfl
    rw [e]
    have e2 : ∀ l : List ℕ, (∀ j ∈ l, j < maxLog - spec.basecodeLog) →
        (l.map (fun j => table.getD (spec.basecodeLog + spec.rateLog + j) [])).mapM (fun v : List F => do some [← v[1]?])
          = some (l.map (fun j => [ω (spec.basecodeLog + spec.rateLog + j + 1)])) := by
      intro l
      induction l with
      | nil => intro _; rfl
      | cons a l ih =>
        intro hl
        rw [List.map_cons, List.mapM_cons, ih (fun j hj => hl j (by simp [hj]))]
        have ha := hl a (by simp)
        rw [hbase _ _ (getElem?_of_lt table (spec.basecodeLog + spec.rateLog + a) [] (by rw [h.len]; omega))]
        rfl
    exact e2 _ (fun j hj => List.mem_range.1 hj)
  dsimp only
  rw [hhigh]
  refine ⟨_, rfl, rfl, rfl, rfl, ?_, rfl, rfl, ?_⟩
  · simp only [List.take_take]
    rw [show min (spec.basecodeLog + spec.rateLog) (maxLog + spec.rateLog) = spec.basecodeLog + spec.rateLog by omega]
  · intro d hd
    refine ⟨iterate_sq_getElem _ _ _ (by omega), ?_⟩
    show (List.map _ _)[d]? = _
    rw [List.getElem?_map, iterate_sq_getElem _ _ _ (by omega)]
    simp [inv_pow]

theorem rsRoot_eq (row : List F) (ω : F) (level i : ℕ) (hrow : ∀ j, j < 2 ^ level → row[j]? = some (ω ^ j)) (hi : i < 2 ^ level) :
    rsRoot row level i = some (ω ^ i) := by
  unfold rsRoot
  rw [if_pos hi, hrow i hi]

theorem rsInvRoot_eq {n : ℕ} {ω : ℕ → F} {table : List (List F)} (h : RootTable n ω table) (row : List F) (level i : ℕ) (hl : level < n)
    (hrow : ∀ j, j < 2 ^ level → row[j]? = some (ω (level + 1) ^ j)) (hi : i < 2 ^ level) :
    rsInvRoot row level i = some ((ω (level + 1) ^ i)⁻¹) := by
  unfold rsInvRoot
  by_cases h0 : i = 0
  · subst h0; simp
  · rw [if_neg h0, if_pos hi, hrow _ (by omega)]
    simp only [Option.bind_eq_bind, Option.bind_some]
    rw [inv_root h level i hl (le_of_lt hi)]

theorem rsScheme_good (spec : RsSpec) (gen : ℕ → F) (gamma : F) (setupLog maxLog : ℕ)
    (hg : IsPrimitiveRoot (gen (setupLog + spec.rateLog)) (2 ^ (setupLog + spec.rateLog))) (hgamma : gamma ≠ 0) (h2 : (2 : F) ≠ 0)
    (hm : maxLog ≤ setupLog) (hb : spec.basecodeLog ≤ maxLog) :
    ∃ S, rsScheme spec gen gamma setupLog maxLog = some S ∧ S.rateLog = spec.rateLog ∧ S.basecodeLog = spec.basecodeLog ∧ S.maxLog = maxLog ∧
      S.numQueries = spec.numQueries ∧ S.leftRight = false ∧
      GoodCode S (rsWord spec.rateLog gamma (rootTower (gen (setupLog + spec.rateLog)) (setupLog + spec.rateLog)) maxLog) := by
  obtain ⟨table, t1, t2, t3⟩ := fftRootTable_spec gen (setupLog + spec.rateLog) hg
  obtain ⟨ω, hω⟩ : ∃ ω, ω = rootTower (gen (setupLog + spec.rateLog)) (setupLog + spec.rateLog) := ⟨_, rfl⟩
  rw [← hω] at t2 t3 ⊢
  obtain ⟨p, p1, p2, p3, p4, p5, p6, p7, p8⟩ := rsTrim_spec spec gamma ω _ maxLog table t2 t3 (by omega) hb
  unfold rsScheme
  rw [t1]
  simp only [Option.bind_eq_bind, Option.bind_some]
  rw [p1]
  simp only [Option.bind_some]
  refine ⟨_, rfl, rfl, rfl, rfl, rfl, rfl, ?_⟩
  -- the prover's folding coefficients
  have hprover : ∀ level i, level < maxLog + spec.rateLog → i < 2 ^ level → rsProverCoeffs spec p.1 level i
      = some (rsPoint spec gamma ω maxLog level i, -rsPoint spec gamma ω maxLog level i, -(2 * rsPoint spec gamma ω maxLog level i)⁻¹) := by
    intro level i hl hi
    obtain ⟨row, r1, r2⟩ := t2.row level (by omega)
    obtain ⟨q1, q2⟩ := p8 (maxLog + spec.rateLog - (level + 1)) (by omega)
    have hrev := revBits_lt level i
    unfold rsProverCoeffs
    rw [p4, List.getElem?_take_of_lt hl, r1, p2]
    simp only [Option.bind_eq_bind, Option.bind_some, reverseBits_eq, checkedSub,
      show level + 1 ≤ maxLog + spec.rateLog by omega, if_true]
    rw [rsRoot_eq row _ level _ r2 hrev, q1, rsInvRoot_eq t2 row level _ (by omega) r2 hrev, q2]
    simp only [Option.bind_some]
    unfold rsPoint
    congr 3
    rw [mul_inv, mul_inv]; ring
  have hverifier : ∀ level i, level < maxLog + spec.rateLog → i < 2 ^ level → rsVerifierCoeffs spec p.2 level i
      = some (rsPoint spec gamma ω maxLog level i, -rsPoint spec gamma ω maxLog level i, -(2 * rsPoint spec gamma ω maxLog level i)⁻¹) := by
    intro level i hl hi
    obtain ⟨row, r1, r2⟩ := t2.row level (by omega)
    obtain ⟨q1, q2⟩ := p8 (maxLog + spec.rateLog - (level + 1)) (by omega)
    rw [p6] at q1
    rw [p7] at q2
    have hrev := revBits_lt level i
    unfold rsVerifierCoeffs
    by_cases hlow : level < spec.basecodeLog + spec.rateLog
    · rw [p5, List.getElem?_append_left (by rw [List.length_take, t2.len]; omega), List.getElem?_take_of_lt hlow, r1, p3]
      simp only [Option.bind_eq_bind, Option.bind_some, reverseBits_eq, checkedSub,
        show level + 1 ≤ maxLog + spec.rateLog by omega, if_true, if_pos hlow]
      rw [rsRoot_eq row _ level _ r2 hrev, q1, rsInvRoot_eq t2 row level _ (by omega) r2 hrev, q2]
      simp only [Option.bind_some]
      unfold rsPoint
      congr 3
      rw [mul_inv, mul_inv]; ring
    · have hlen : (table.take (spec.basecodeLog + spec.rateLog)).length = spec.basecodeLog + spec.rateLog := by
        rw [List.length_take, t2.len]; omega
      rw [p5, List.getElem?_append_right (by omega), hlen, List.getElem?_map, List.getElem?_range (by omega), p3]
      simp only [Option.bind_eq_bind, Option.bind_some, Option.map_some, reverseBits_eq, checkedSub,
        show level + 1 ≤ maxLog + spec.rateLog by omega, if_true, if_neg hlow, List.getElem?_cons_zero,
        show spec.basecodeLog + spec.rateLog + (level - (spec.basecodeLog + spec.rateLog)) + 1 = level + 1 by omega]
      rw [q1, q2]
      simp only [Option.bind_some]
      unfold rsPoint
      congr 3
      have : ω (level + 1) ^ (2 ^ (level + 1) - revBits level i) = (ω (level + 1) ^ revBits level i)⁻¹ := by
        apply eq_inv_of_mul_eq_one_left
        rw [← pow_add, Nat.sub_add_cancel (by rw [pow_succ]; omega)]
        exact t2.one level (by omega)
      rw [this, mul_inv, mul_inv]; ring
  have hpt : ∀ level i, level < maxLog + spec.rateLog → rsPoint spec gamma ω maxLog level i ≠ 0 := by
    intro level i hl
    exact mul_ne_zero (pow_ne_zero _ (root_ne_zero t2 level (by omega))) (pow_ne_zero _ hgamma)
  have hword : ∀ k coeffs, k ≤ maxLog → coeffs.length = 2 ^ k → ∀ v : List F, v.length = 2 ^ (k + spec.rateLog) →
      (∀ i, i < 2 ^ (k + spec.rateLog) → v.getD i 0
        = polyEval (bitrev 0 k coeffs) (gamma ^ 2 ^ (maxLog - k) * ω (k + spec.rateLog) ^ i)) →
      bitrev 0 (k + spec.rateLog) v = rsWord spec.rateLog gamma ω maxLog k coeffs := by
    intro k coeffs hk hl v hv hv2
    unfold rsWord
    congr 1
    apply list_ext_getD 0
    · simp [hv]
    · intro i hi
      rw [hv2 i (by omega)]
      simp [List.getD_eq_getElem?_getD, show i < 2 ^ (k + spec.rateLog) by omega]
  refine ⟨fun k coeffs _ _ _ => rsWord_length _ _ _ _ _ _, ?_, ?_, ?_, ?_⟩
  · intro k coeffs hk1 hk2 hl
    simp only at hk1 hk2
    have hle : (table.take (maxLog + spec.rateLog)).length = maxLog + spec.rateLog := by rw [List.length_take, t2.len]; omega
    obtain ⟨v, v1, v2, v3⟩ := rsEncodeInternal_spec spec gamma ω p.1.table maxLog k (bitrev 0 k coeffs) (bitrev_length _ _ _) hk2
      (by rw [p4, hle]; omega) (by
        rw [p4, List.take_take, show min (k + spec.rateLog) (maxLog + spec.rateLog) = k + spec.rateLog by omega]
        exact t2.take _ (by omega))
    refine ⟨v, ?_, v2, hword k coeffs hk2 hl v v2 v3⟩
    show rsEncode spec gamma p.1 (bitrev 0 k coeffs) = some v
    unfold rsEncode
    rw [bitrev_length, log2Strict_pow]
    simp only [Option.bind_eq_bind, Option.bind_some, if_pos hk1]
    rw [p2]; exact v1
  · intro coeffs hl
    obtain ⟨v, v1, v2, v3⟩ := rsEncodeInternal_spec spec gamma ω p.2.table maxLog spec.basecodeLog (bitrev 0 spec.basecodeLog coeffs)
      (bitrev_length _ _ _) hb (by rw [p5, List.length_append, List.length_take, t2.len]; omega) (by
        rw [p5, List.take_append_of_le_length (by rw [List.length_take, t2.len]; omega), List.take_take, min_self]
        exact t2.take _ (by omega))
    refine ⟨v, ?_, v2, hword _ coeffs hb hl v v2 v3⟩
    show rsEncodeSmall spec gamma p.2 (bitrev 0 spec.basecodeLog coeffs) = some v
    unfold rsEncodeSmall
    rw [p3]; exact v1
  · intro k coeffs c hk1 hk2 hl
    simp only at hk1 hk2
    have hsh : k + 1 + spec.rateLog = k + spec.rateLog + 1 := by omega
    have hlen : (rsWord spec.rateLog gamma ω maxLog (k + 1) coeffs).length = 2 ^ (k + spec.rateLog + 1) := by
      rw [rsWord_length, hsh]
    rw [foldCodeword_eq _ (k + spec.rateLog) _ hlen _ (fun i hi => hprover (k + spec.rateLog) i (by omega) hi)]
    congr 1
    apply list_ext_getD 0
    · simp [rsWord_length]
    · intro i hi
      rw [List.length_map, List.length_range] at hi
      have hp2 : 2 ^ (k + spec.rateLog + 1) = 2 * 2 ^ (k + spec.rateLog) := by rw [pow_succ]; ring
      rw [rsWord_getD _ _ _ _ _ _ _ hi, List.getD_eq_getElem?_getD, List.getElem?_map, List.getElem?_range hi]
      simp only [Option.map_some, Option.getD_some]
      rw [rsWord_getD _ _ _ _ _ _ _ (by rw [hsh]; omega), rsWord_getD _ _ _ _ _ _ _ (by rw [hsh]; omega), hsh, revBits_even, revBits_odd]
      obtain ⟨x, hx⟩ : ∃ x, x = rsPoint spec gamma ω maxLog (k + spec.rateLog) i := ⟨_, rfl⟩
      have hx0 : x ≠ 0 := by rw [hx]; exact hpt _ _ (by omega)
      have ex : gamma ^ 2 ^ (maxLog - (k + 1)) * ω (k + spec.rateLog + 1) ^ revBits (k + spec.rateLog) i = x := by
        rw [hx]; unfold rsPoint
        rw [mul_comm, show maxLog + spec.rateLog - (k + spec.rateLog + 1) = maxLog - (k + 1) by omega]
      have ex2 : gamma ^ 2 ^ (maxLog - (k + 1)) * ω (k + spec.rateLog + 1) ^ (revBits (k + spec.rateLog) i + 2 ^ (k + spec.rateLog)) = -x := by
        rw [pow_add, t2.neg _ (by omega), ← ex]; ring
      have ex3 : gamma ^ 2 ^ (maxLog - k) * ω (k + spec.rateLog) ^ revBits (k + spec.rateLog) i = x ^ 2 := by
        rw [← ex, mul_pow, ← pow_mul, ← pow_succ, show maxLog - (k + 1) + 1 = maxLog - k by omega, ← pow_mul, mul_comm _ 2, pow_mul,
          t2.sq _ (by omega)]
      rw [ex, ex2, ex3, ← hx, polyEval_split k _ (bitrev_length _ _ _) c, polyEval_split k _ (bitrev_length _ _ _) c, ← bitrev_topFold,
        polyEval_fold, show (-x) ^ 2 = x ^ 2 by ring]
      exact interpolate_line _ _ _ _ hx0 h2
  · intro level i _ hl hi
    exact ⟨_, hprover level i hl hi, hverifier level i hl hi⟩

end Lemmas
