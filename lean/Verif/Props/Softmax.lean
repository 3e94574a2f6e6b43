import Verif.Lemmas.Attention
import Verif.Lemmas.Quant
import Verif.Spec.Attention
import Mathlib.Tactic.IntervalCases

/-!
C79: the quantised softmax.
-/

namespace Props
open Spec Model Lemmas

theorem isShift_unique {scalar : ℤ} {logSum : List ℤ → ℤ} {row : List ℤ} {s t : ℤ} (hs : IsShift scalar logSum row s) (ht : IsShift scalar logSum row t) : s = t := by
  rcases hs with ⟨x, rfl, rfl⟩ | ⟨hl, m, hm, hmax, rfl⟩ <;> rcases ht with ⟨y, hy, rfl⟩ | ⟨hl', m', hm', hmax', rfl⟩
  · simp at hy; rw [hy]
  · simp at hl'
  · subst hy; simp at hl
  · rw [le_antisymm (hmax' m hm) (hmax m' hm')]

/-- C79: what is computed. On `H` heads of `n × n` scores the evaluation succeeds; every row has the shift of its visible scores, and each output is what one entry computes from the rescaled and shifted
score where the position is visible, and from minus infinity elsewhere. -/
theorem C79_evaluate (q : QuantSoftmax) (H n : ℕ) (hn : 0 < n) (shape : List ℕ) (hs : shape = [H, n, n] ∨ shape = [n, n] ∧ H = 1) (data : List ℤ) (hd : data.length = H * n * n)
    (tv : ℕ) (htv : q.tableVars = some tv) :
    ∃ run, q.evaluate ⟨shape, data⟩ = some run ∧ run.output.shape = shape ∧ run.output.data.length = H * n * n ∧
      ∀ h i, h < H → i < n → ∃ s, IsShift q.scalar q.logSum (visible n data h i) s ∧
        ∀ j, j < n → run.output.data[(h * n + i) * n + j]? = some (q.entry tv (if j ≤ i then data.getD ((h * n + i) * n + j) 0 * q.scalar + s else q.ninf)).out := by
  obtain ⟨run, sh, h1, h2, h3, _, h5, h6, h7, h8⟩ := softmax_evaluate_spec q H n hn shape hs data hd tv htv
  refine ⟨run, h1, h2, h3, ?_⟩
  intro h i hh hi
  refine ⟨_, h7 h i hh hi, ?_⟩
  intro j hj
  rw [h6, h5, List.getElem?_map, List.getElem?_map, (h8 h i j hh hi hj).2]
  simp only [Option.map_some]

/-- C79, no other shape is accepted. -/
theorem C79_shapes (q : QuantSoftmax) (t : Tensor ℤ) (run : SoftmaxRun) (h : q.evaluate t = some run) : (∃ n, t.shape = [n, n]) ∨ ∃ H n, t.shape = [H, n, n] := by
  unfold QuantSoftmax.evaluate at h
  simp only [Option.bind_eq_bind, Option.bind_eq_some_iff] at h
  obtain ⟨final, _, second, _, h⟩ := h
  split at h
  · simp only [Option.bind_eq_some_iff] at h
    obtain ⟨shift, _, mask, hm, _⟩ := h
    unfold AttentionMask.new at hm
    split at hm
    · split at hm
      · rename_i a b h1 h2
        exact Or.inl ⟨b, by rw [h1, h2]⟩
      · simp at hm
    · split at hm
      · rename_i H a b h1 h2
        exact Or.inr ⟨H, b, by rw [h1, h2]⟩
      · simp at hm
    · simp at hm
  · simp at h

/-- C79, causality and padding: the outputs in the first `n` rows and columns of the first `H` heads depend only on the scores `(h, i, j)` with `j ≤ i < n` and `h < H`. Tensors of different sizes that
agree there have the same outputs there: neither later positions nor padding influence a row. -/
theorem C79_causal (q : QuantSoftmax) (H n H' n' : ℕ) (hn : 0 < n) (hH : H ≤ H') (hnn : n ≤ n') (data data' : List ℤ) (hd : data.length = H * n * n) (hd' : data'.length = H' * n' * n')
    (hsame : ∀ h i j, h < H → i < n → j ≤ i → data'.getD ((h * n' + i) * n' + j) 0 = data.getD ((h * n + i) * n + j) 0) (tv : ℕ) (htv : q.tableVars = some tv) :
    ∃ run run', q.evaluate ⟨[H, n, n], data⟩ = some run ∧ q.evaluate ⟨[H', n', n'], data'⟩ = some run' ∧
      ∀ h i j, h < H → i < n → j < n → ∃ y, run.output.data[(h * n + i) * n + j]? = some y ∧ run'.output.data[(h * n' + i) * n' + j]? = some y := by
  obtain ⟨run, h1, _, _, h2⟩ := C79_evaluate q H n hn _ (Or.inl rfl) data hd tv htv
  obtain ⟨run', g1, _, _, g2⟩ := C79_evaluate q H' n' (by omega) _ (Or.inl rfl) data' hd' tv htv
  refine ⟨run, run', h1, g1, ?_⟩
  intro h i j hh hi hj
  obtain ⟨s, s1, s2⟩ := h2 h i hh hi
  obtain ⟨t, t1, t2⟩ := g2 h i (by omega) (by omega)
  have hvis : visible n' data' h i = visible n data h i := by
    unfold visible
    apply List.map_congr_left
    intro j hj
    exact hsame h i j hh hi (by have := List.mem_range.1 hj; omega)
  rw [hvis] at t1
  have := isShift_unique s1 t1
  subst this
  refine ⟨_, s2 j hj, ?_⟩
  rw [t2 j (by omega)]
  by_cases hji : j ≤ i
  · rw [if_pos hji, if_pos hji, hsame h i j hh hi hji]
  · rw [if_neg hji, if_neg hji]

/-- The value for one score below the capacity of the tables. -/
theorem entry_table (q : QuantSoftmax) (tv : ℕ) (hB : q.bkm / 2 ^ 16 < 2 ^ tv) (htab : ∀ k : ℕ, q.bkm ≤ 2 ^ 16 * (k : ℤ) → q.table k = 0) (x : ℤ)
    (hcap : x.natAbs < 2 ^ (16 + tv + q.zeroChunks * q.zeroVars)) : (q.entry tv x).out = q.table ((x.natAbs / 2 ^ 16 : ℕ) : ℤ) := by
  rw [entry_out q tv x hcap]
  by_cases hlt : x.natAbs / 2 ^ 16 < 2 ^ tv
  · rw [if_pos hlt]
  · rw [if_neg hlt, htab]
    obtain ⟨k, hk⟩ : ∃ k, k = x.natAbs / 2 ^ 16 := ⟨_, rfl⟩
    rw [← hk] at hlt ⊢
    push Not at hlt
    have h1 : ((2 ^ tv : ℕ) : ℤ) ≤ (k : ℤ) := by exact_mod_cast hlt
    push_cast at h1
    omega

/-- The magnitude of minus infinity. -/
theorem ninf_natAbs (q : QuantSoftmax) (hb : 0 < q.bkm) : q.ninf.natAbs = (q.bkm / 2 ^ 16).toNat * 2 ^ 16 + 2 ^ 16 := by
  unfold QuantSoftmax.ninf
  omega

/-- C79, partial: if the exponential table has room beyond the cut-off and the scores stay within the range of the tables, then a visible position gets the table's value at its shifted score (which is
at most zero, so the table reads the exponential of a non-positive number), and every other position gets exactly zero. The table is any function that is zero from the cut-off `bkm` on. Missing: the
bounds, which the code does not check; without them the claim fails, see `C79_mask_leaks_false` and `C79_wrap_false`. -/
theorem C79_softmax_partial (q : QuantSoftmax) (H n : ℕ) (hn : 0 < n) (shape : List ℕ) (hs : shape = [H, n, n] ∨ shape = [n, n] ∧ H = 1) (data : List ℤ) (hd : data.length = H * n * n)
    (tv : ℕ) (htv : q.tableVars = some tv) (hscalar : 0 ≤ q.scalar) (hlog : ∀ ds, 0 ∈ ds → 0 ≤ q.logSum ds)
    (hb : 0 < q.bkm) (hroom : q.bkm / 2 ^ 16 + 1 < 2 ^ tv) (htab : ∀ k : ℕ, q.bkm ≤ 2 ^ 16 * (k : ℤ) → q.table k = 0)
    (hcap : ∀ h i j s, h < H → i < n → j ≤ i → IsShift q.scalar q.logSum (visible n data h i) s →
      (data.getD ((h * n + i) * n + j) 0 * q.scalar + s).natAbs < 2 ^ (16 + tv + q.zeroChunks * q.zeroVars)) :
    ∃ run, q.evaluate ⟨shape, data⟩ = some run ∧ run.output.shape = shape ∧
      ∀ h i, h < H → i < n → ∃ s, IsShift q.scalar q.logSum (visible n data h i) s ∧
        (∀ j, j ≤ i → data.getD ((h * n + i) * n + j) 0 * q.scalar + s ≤ 0 ∧
          run.output.data[(h * n + i) * n + j]? = some (q.table ((data.getD ((h * n + i) * n + j) 0 * q.scalar + s).natAbs / 2 ^ 16 : ℕ))) ∧
        ∀ j, i < j → j < n → run.output.data[(h * n + i) * n + j]? = some 0 := by
  obtain ⟨run, h1, h2, _, h3⟩ := C79_evaluate q H n hn shape hs data hd tv htv
  refine ⟨run, h1, h2, ?_⟩
  intro h i hh hi
  obtain ⟨s, s1, s2⟩ := h3 h i hh hi
  refine ⟨s, s1, ?_, ?_⟩
  · intro j hj
    have hmem : data.getD ((h * n + i) * n + j) 0 ∈ visible n data h i := List.mem_map.2 ⟨j, List.mem_range.2 (by omega), rfl⟩
    constructor
    · rcases s1 with ⟨x, hx, rfl⟩ | ⟨hl, m, hm, hmax, rfl⟩
      · rw [hx] at hmem
        rw [List.mem_singleton.1 hmem]
        omega
      · have h4 := hlog ((visible n data h i).map fun x => x - m) (List.mem_map.2 ⟨m, hm, by omega⟩)
        have h5 := mul_le_mul_of_nonneg_right (hmax _ hmem) hscalar
        omega
    · rw [s2 j (by omega), if_pos hj, entry_table q tv (by omega) htab _ (hcap h i j s hh hi hj s1)]
  · intro j hj hjn
    have hN := ninf_natAbs q hb
    have hB0 : 0 ≤ q.bkm / 2 ^ 16 := by omega
    have hroom' : (q.bkm / 2 ^ 16).toNat + 1 < 2 ^ tv := by
      have : (((q.bkm / 2 ^ 16).toNat + 1 : ℕ) : ℤ) < ((2 ^ tv : ℕ) : ℤ) := by push_cast; omega
      exact_mod_cast this
    have hc : q.ninf.natAbs < 2 ^ (16 + tv + q.zeroChunks * q.zeroVars) := by
      calc q.ninf.natAbs = ((q.bkm / 2 ^ 16).toNat + 1) * 2 ^ 16 := by rw [hN]; ring
        _ < 2 ^ tv * 2 ^ 16 := Nat.mul_lt_mul_of_pos_right hroom' (by positivity)
        _ = 2 ^ (16 + tv) := by rw [pow_add]; ring
        _ ≤ _ := Nat.pow_le_pow_right (by omega) (by omega)
    rw [s2 j hjn, if_neg (by omega), entry_table q tv (by omega) htab _ hc, htab]
    have : q.ninf.natAbs / 2 ^ 16 = (q.bkm / 2 ^ 16).toNat + 1 := by omega
    rw [this]
    push_cast
    omega

/-- C79, the witness: the digits of a score within the range of the tables are in range and recombine to its magnitude. -/
theorem C79_digits (q : QuantSoftmax) (tv : ℕ) (x : ℤ) (hcap : x.natAbs < 2 ^ (16 + tv + q.zeroChunks * q.zeroVars)) :
    (q.entry tv x).low < 2 ^ 8 ∧ (q.entry tv x).high < 2 ^ 8 ∧ (q.entry tv x).expIn < 2 ^ tv ∧ (q.entry tv x).zeroIn.length = q.zeroChunks ∧ (∀ c ∈ (q.entry tv x).zeroIn, c < 2 ^ q.zeroVars) ∧
      (q.entry tv x).expOut = q.table (q.entry tv x).expIn ∧ (q.entry tv x).zeroOut = (q.entry tv x).zeroIn.map (fun c => if c = 0 then 1 else 0) ∧
      x.natAbs = (q.entry tv x).low + 2 ^ 8 * (q.entry tv x).high + 2 ^ 16 * (q.entry tv x).expIn +
        ∑ k ∈ Finset.range q.zeroChunks, 2 ^ (16 + tv + k * q.zeroVars) * (q.entry tv x).zeroIn.getD k 0 := by
  have hsum : ∀ (b K r : ℕ), r < b ^ K → ∑ k ∈ Finset.range K, b ^ k * (r / b ^ k % b) = r := by
    intro b K
    induction K with
    | zero => intro r hr; simp at hr; simp [hr]
    | succ K ih =>
      intro r hr
      rw [Finset.sum_range_succ']
      have : ∀ k ∈ Finset.range K, b ^ (k + 1) * (r / b ^ (k + 1) % b) = b * (b ^ k * (r / b / b ^ k % b)) := by
        intro k _
        rw [pow_succ', ← Nat.div_div_eq_div_mul, mul_assoc]
      rw [Finset.sum_congr rfl this, ← Finset.mul_sum, ih (r / b) (Nat.div_lt_of_lt_mul (by rw [← pow_succ']; exact hr))]
      simpa using Nat.div_add_mod r b
  refine ⟨Nat.mod_lt _ (by norm_num), Nat.mod_lt _ (by norm_num), Nat.mod_lt _ (by positivity), by simp [QuantSoftmax.entry], ?_, rfl, ?_, ?_⟩
  · intro c hc
    simp only [QuantSoftmax.entry, List.mem_map] at hc
    obtain ⟨k, _, rfl⟩ := hc
    exact Nat.mod_lt _ (by positivity)
  · simp only [QuantSoftmax.entry, ne_eq, ite_not]
  · have hr : x.natAbs / 2 ^ 16 / 2 ^ tv < (2 ^ q.zeroVars) ^ q.zeroChunks := by
      rw [Nat.div_div_eq_div_mul, ← pow_add, ← pow_mul, mul_comm q.zeroVars]
      apply Nat.div_lt_of_lt_mul
      rw [← pow_add]
      exact hcap
    have h2 : ∑ k ∈ Finset.range q.zeroChunks, 2 ^ (16 + tv + k * q.zeroVars) * (q.entry tv x).zeroIn.getD k 0 = 2 ^ (16 + tv) * (x.natAbs / 2 ^ 16 / 2 ^ tv) := by
      rw [← hsum (2 ^ q.zeroVars) q.zeroChunks _ hr, Finset.mul_sum]
      apply Finset.sum_congr rfl
      intro k hk
      have hk := Finset.mem_range.1 hk
      simp only [QuantSoftmax.entry]
      rw [List.getD_eq_getElem _ _ (by simpa using hk), List.getElem_map, List.getElem_range, pow_add _ (16 + tv), mul_comm k, pow_mul, mul_assoc]
    rw [h2]
    simp only [QuantSoftmax.entry]
    have e1 := Nat.div_add_mod (x.natAbs / 2 ^ 16) (2 ^ tv)
    have e2 : 2 ^ (16 + tv) * (x.natAbs / 2 ^ 16 / 2 ^ tv) + 2 ^ 16 * (x.natAbs / 2 ^ 16 % 2 ^ tv) = 2 ^ 16 * (x.natAbs / 2 ^ 16) := by
      rw [pow_add, mul_assoc, ← mul_add, e1]
    omega

/-- C79 is false without room beyond the cut-off: if the table's size is the cut-off plus one and there are no further chunks, then a position that is not visible gets the value of exponent zero, the
largest of the table, instead of zero. -/
theorem C79_mask_leaks_false (q : QuantSoftmax) (tv : ℕ) (hb : 0 < q.bkm) (hK : q.zeroChunks = 0) (htight : q.bkm / 2 ^ 16 + 1 = 2 ^ tv) : (q.entry tv q.ninf).out = q.table 0 := by
  have hN := ninf_natAbs q hb
  have : (q.bkm / 2 ^ 16).toNat + 1 = 2 ^ tv := by
    have : (((q.bkm / 2 ^ 16).toNat + 1 : ℕ) : ℤ) = ((2 ^ tv : ℕ) : ℤ) := by push_cast; omega
    exact_mod_cast this
  have h16 : q.ninf.natAbs / 2 ^ 16 = 2 ^ tv := by omega
  unfold QuantSoftmax.entry
  dsimp only
  rw [hK, h16]
  simp

/-- C79 is false beyond the range of the tables: a score that lies lower than another by exactly the range of the tables gets the same output. In particular a score of `-2 ^ (16 + tv + …)` gets the
output of score zero, the largest. -/
theorem C79_wrap_false (q : QuantSoftmax) (tv : ℕ) (x : ℤ) (hx : x ≤ 0) :
    (q.entry tv (x - 2 ^ (16 + tv + q.zeroChunks * q.zeroVars))).out = (q.entry tv x).out := by
  have hN : (x - 2 ^ (16 + tv + q.zeroChunks * q.zeroVars)).natAbs = x.natAbs + 2 ^ 16 * (2 ^ tv * (2 ^ q.zeroVars) ^ q.zeroChunks) := by
    have e : (2 : ℤ) ^ (16 + tv + q.zeroChunks * q.zeroVars) = ((2 ^ 16 * (2 ^ tv * (2 ^ q.zeroVars) ^ q.zeroChunks) : ℕ) : ℤ) := by
      push_cast
      rw [← pow_mul, mul_comm q.zeroVars, pow_add, pow_add]
      ring
    rw [e]
    omega
  unfold QuantSoftmax.entry
  dsimp only
  rw [hN, Nat.add_mul_div_left _ _ (by positivity), Nat.add_mul_mod_self_left, Nat.add_mul_div_left _ _ (by positivity)]
  have : ((List.range q.zeroChunks).map fun k => (x.natAbs / 2 ^ 16 / 2 ^ tv + (2 ^ q.zeroVars) ^ q.zeroChunks) / (2 ^ q.zeroVars) ^ k % 2 ^ q.zeroVars) =
      (List.range q.zeroChunks).map fun k => x.natAbs / 2 ^ 16 / 2 ^ tv / (2 ^ q.zeroVars) ^ k % 2 ^ q.zeroVars := by
    apply List.map_congr_left
    intro k hk
    have hk := List.mem_range.1 hk
    obtain ⟨d, hd⟩ : ∃ d, q.zeroChunks = k + (d + 1) := ⟨q.zeroChunks - k - 1, by omega⟩
    rw [hd, pow_add, Nat.add_mul_div_left _ _ (by positivity), pow_succ (2 ^ q.zeroVars) d, Nat.add_mul_mod_self_right]
  rw [this]

/-- C79, the number of chunks: chosen from the smallest possible score, they cover every score down to it, unless its upper part is a power of two. -/
theorem C79_chunks_partial (minInput : ℤ) (tv K zv : ℕ) (h : zeroChunkParams minInput tv = some (K, zv)) (hneg : minInput ≤ 0) (hpow : ∀ b : ℕ, minInput / 2 ^ 16 ≠ -(2 ^ b)) (x : ℤ) (hx : x ≤ 0)
    (hmin : minInput ≤ x) : x.natAbs < 2 ^ (16 + tv + K * zv) := by
  unfold zeroChunkParams at h
  simp only [Option.bind_eq_bind, Option.bind_eq_some_iff] at h
  obtain ⟨mb, hmb, h⟩ := h
  obtain ⟨h1, _⟩ := ceilLog2_spec hmb
  have h2 : (minInput / 2 ^ 16).natAbs ≠ 2 ^ mb := by
    intro he
    have : (2 ^ mb : ℤ) = (((minInput / 2 ^ 16).natAbs : ℕ) : ℤ) := by rw [he]; push_cast; rfl
    apply hpow mb
    omega
  have h3 : (minInput / 2 ^ 16).natAbs < 2 ^ mb := by omega
  have hcov : mb ≤ tv + K * zv := by
    split at h
    · split at h
      · simp at h
      · rename_i h4 h5
        simp only [Option.some.injEq, Prod.mk.injEq] at h
        obtain ⟨hK, hz⟩ := h
        rw [hK] at hz
        by_cases hK1 : K = 1
        · rw [if_pos hK1] at hz
          rw [hK1, ← hz]
          omega
        · rw [if_neg hK1] at hz
          rw [← hz]
          have h6 := Nat.lt_div_mul_add (a := mb - tv - 1) (b := tv) (by omega)
          have h7 : K * tv = (mb - tv - 1) / tv * tv + tv := by rw [← hK]; ring
          omega
    · simp only [Option.some.injEq, Prod.mk.injEq] at h
      omega
  have h8 : x.natAbs < 2 ^ mb * 2 ^ 16 := by
    have : x.natAbs ≤ (minInput / 2 ^ 16).natAbs * 2 ^ 16 := by omega
    have h9 := Nat.mul_lt_mul_of_pos_right h3 (Nat.two_pow_pos 16)
    omega
  calc x.natAbs < 2 ^ mb * 2 ^ 16 := h8
    _ = 2 ^ (16 + mb) := by rw [pow_add]; ring
    _ ≤ _ := Nat.pow_le_pow_right (by omega) (by omega)

/-- The remaining case of `C79_chunks_partial`: when the smallest score is `-2 ^ (16 + tv)`, no chunk is provided, and that score gets the largest output of the table instead of the smallest. -/
theorem C79_chunks_false (q : QuantSoftmax) (tv : ℕ) (h : zeroChunkParams (-(2 ^ (16 + tv))) tv = some (q.zeroChunks, q.zeroVars)) :
    q.zeroChunks = 0 ∧ (q.entry tv (-(2 ^ (16 + tv)))).out = q.table 0 := by
  have e1 : (-(2 ^ (16 + tv)) / 2 ^ 16 : ℤ).natAbs = 2 ^ tv := by
    have : (-(2 ^ (16 + tv)) : ℤ) = -(2 ^ tv) * 2 ^ 16 := by rw [pow_add]; ring
    rw [this, Int.mul_ediv_cancel _ (by norm_num), Int.natAbs_neg, Int.natAbs_pow]
    rfl
  unfold zeroChunkParams at h
  rw [e1, ceilLog2_pow] at h
  simp only [Option.bind_eq_bind, Option.bind_some, lt_irrefl, if_false, Option.some.injEq, Prod.mk.injEq] at h
  refine ⟨h.1.symm, ?_⟩
  have := C79_wrap_false q tv 0 (le_refl 0)
  rw [← h.1, zero_mul, add_zero, zero_sub] at this
  rw [this]
  unfold QuantSoftmax.entry
  dsimp only
  rw [← h.1]
  simp

/-- A small instance: cut-off `5 · 2 ^ 16`, a table of eight entries, one chunk of four bits. -/
def softmaxExample : QuantSoftmax := ⟨2 ^ 15, 5 * 2 ^ 16, 1, 4, fun ds => (ds.length : ℤ) * 2 ^ 14, fun k => if 5 ≤ k then 0 else 4096 / (k + 1)⟩

/-- Its evaluation on one head of size three. -/
example : (softmaxExample.evaluate ⟨[1, 3, 3], [3, 7, 7, 1, 2, 9, -5, 4, 6]⟩).map (fun r => (r.output.data, r.masked)) =
    some ([4096, 0, 0, 2048, 4096, 0, 0, 2048, 4096], [0, -393216, -393216, -65536, -32768, -393216, -409600, -114688, -49152]) := by decide +kernel

/-- The hypotheses of `C79_softmax_partial` other than the range of the scores hold of it. -/
example : softmaxExample.tableVars = some 3 ∧ 0 ≤ softmaxExample.scalar ∧ (∀ ds, 0 ∈ ds → 0 ≤ softmaxExample.logSum ds) ∧ 0 < softmaxExample.bkm ∧ softmaxExample.bkm / 2 ^ 16 + 1 < 2 ^ 3 ∧
    ∀ k : ℕ, softmaxExample.bkm ≤ 2 ^ 16 * (k : ℤ) → softmaxExample.table k = 0 := by
  refine ⟨by decide +kernel, by decide +kernel, ?_, by decide +kernel, by decide +kernel, ?_⟩
  · intro ds _
    simp only [softmaxExample]
    positivity
  · intro k hk
    simp only [softmaxExample] at hk ⊢
    rw [if_pos (by omega)]

/-- And the range of its scores: the shifts of the three rows are determined. -/
example : ∀ h i j s, h < 1 → i < 3 → j ≤ i → IsShift softmaxExample.scalar softmaxExample.logSum (visible 3 [3, 7, 7, 1, 2, 9, -5, 4, 6] h i) s →
    (([3, 7, 7, 1, 2, 9, -5, 4, 6] : List ℤ).getD ((h * 3 + i) * 3 + j) 0 * softmaxExample.scalar + s).natAbs < 2 ^ (16 + 3 + softmaxExample.zeroChunks * softmaxExample.zeroVars) := by
  intro h i j s hh hi hj hs
  have h0 : h = 0 := by omega
  subst h0
  have key : ∀ t, IsShift softmaxExample.scalar softmaxExample.logSum (visible 3 [3, 7, 7, 1, 2, 9, -5, 4, 6] 0 i) t → s = t := fun t ht => isShift_unique hs ht
  interval_cases i
  · have := key (-98304) (Or.inl ⟨3, by decide +kernel, by decide +kernel⟩)
    subst this
    interval_cases j
    decide +kernel
  · have := key (-98304) (Or.inr ⟨by decide +kernel, 2, by decide +kernel, by decide +kernel, by decide +kernel⟩)
    subst this
    interval_cases j <;> decide +kernel
  · have := key (-245760) (Or.inr ⟨by decide +kernel, 6, by decide +kernel, by decide +kernel, by decide +kernel⟩)
    subst this
    interval_cases j <;> decide +kernel

/-- The chunk computation on a realistic size: a smallest score of about `-2 ^ 40`, a table of 17 variables. -/
example : zeroChunkParams (-1099511627900) 17 = some (1, 8) ∧ zeroChunkParams (-(2 ^ 33)) 17 = some (0, 0) ∧ zeroChunkParams (-(3 * 2 ^ 60)) 17 = some (2, 17) := by decide +kernel

end Props
