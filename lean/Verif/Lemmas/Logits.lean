import Verif.Lemmas.TokenLayers

/-!
Sums behind the argmax layer, for C75.
-/

namespace Lemmas
open Spec Model

variable {F : Type} [Field F] [DecidableEq F]

omit [DecidableEq F] in
theorem getD_oneHot (cols : ℕ) (idx : List ℕ) (i k : ℕ) (hi : i < idx.length) (hk : k < cols) :
    (oneHot cols idx : List F).getD (i * cols + k) 0 = if idx.getD i 0 = k then 1 else 0 := by
  unfold oneHot
  have hlt : i * cols + k < idx.length * cols := by nlinarith
  rw [List.getD_eq_getElem _ _ (by simpa using hlt)]
  simp only [List.getElem_map, List.getElem_range, mul_add_div' hk, mul_add_mod' hk]

omit [DecidableEq F] in
theorem getD_zipWith_mul (a b : List F) (h : a.length = b.length) (i : ℕ) : (List.zipWith (· * ·) a b).getD i 0 = a.getD i 0 * b.getD i 0 := by
  by_cases hi : i < a.length
  · rw [List.getD_eq_getElem _ _ (by simp; omega), List.getD_eq_getElem _ _ hi, List.getD_eq_getElem _ _ (by omega), List.getElem_zipWith]
  · rw [List.getD_eq_default _ _ (by simp; omega), List.getD_eq_default _ _ (by omega), zero_mul]

omit [DecidableEq F] in
theorem oneHot_length (cols : ℕ) (idx : List ℕ) : (oneHot cols idx : List F).length = idx.length * cols := by simp [oneHot]

omit [DecidableEq F] in
/-- The column sums of the input restricted to the one-hot positions, along `row`. -/
theorem mle_picked (c s : ℕ) (X : List F) (hX : X.length = 2 ^ (c + s)) (idx : List ℕ) (hl : idx.length = 2 ^ s) (hidx : ∀ t ∈ idx, t < 2 ^ c) (row : List F)
    (hr : row.length = s) :
    (cubeSum c fun pt => mle (List.zipWith (· * ·) X (oneHot (2 ^ c) idx)) (pt ++ row)) = mle (pickedEntries (2 ^ c) X idx) row := by
  unfold cubeSum
  rw [Finset.sum_congr rfl (fun k hk => mle_bits_append _ row c k (Finset.mem_range.mp hk)), Finset.sum_comm]
  unfold pickedEntries
  rw [hl, mle_map_range s _ row hr, hr]
  apply Finset.sum_congr rfl
  intro i hi
  have hi' : i < idx.length := by rw [hl]; exact Finset.mem_range.mp hi
  have hlt : idx.getD i 0 < 2 ^ c := by rw [List.getD_eq_getElem _ _ hi']; exact hidx _ (List.getElem_mem _)
  rw [← Finset.sum_mul, Finset.sum_eq_single (idx.getD i 0)]
  · rw [getD_zipWith_mul _ _ (by rw [oneHot_length, hX, hl, pow_add, mul_comm]), getD_oneHot _ _ _ _ hi' hlt, if_pos rfl, mul_one]
  · intro k hk hne
    rw [getD_zipWith_mul _ _ (by rw [oneHot_length, hX, hl, pow_add, mul_comm]), getD_oneHot _ _ _ _ hi' (Finset.mem_range.mp hk), if_neg (Ne.symm hne), mul_zero]
  · intro h; exact absurd (Finset.mem_range.mpr hlt) h

omit [DecidableEq F] in
theorem mle_rowGaps (c s : ℕ) (M X : List F) (hM : M.length = 2 ^ s) (col row : List F) (hc : col.length = c) (hr : row.length = s) :
    mle (rowGaps (2 ^ c) M X) (col ++ row) = mle M row - mle X (col ++ row) := by
  rw [mle_append_sum, mle_append_sum X]
  conv_rhs => unfold mle
  rw [← Finset.sum_sub_distrib, hr, hc]
  apply Finset.sum_congr rfl
  intro i hi
  have hi' := Finset.mem_range.mp hi
  rw [← sub_mul]
  congr 1
  have h1 : M.getD i 0 = ∑ j ∈ Finset.range (2 ^ c), M.getD i 0 * chi col j := by
    rw [← Finset.mul_sum, ← hc, sum_chi, mul_one]
  rw [h1, ← Finset.sum_sub_distrib]
  apply Finset.sum_congr rfl
  intro j hj
  have hj' := Finset.mem_range.mp hj
  have hlt : i * 2 ^ c + j < M.length * 2 ^ c := by rw [hM]; nlinarith
  unfold rowGaps
  rw [List.getD_eq_getElem _ _ (by simpa using hlt)]
  simp only [List.getElem_map, List.getElem_range, mul_add_div' hj']
  ring

theorem sum_beta_single (r : List F) (v : List F) : (cubeSum r.length fun pt => eqPoly r pt * mle v pt) = mle v r := by
  unfold cubeSum
  conv_rhs => unfold mle
  apply Finset.sum_congr rfl
  intro b hb
  have hb' := Finset.mem_range.mp hb
  beta_reduce
  rw [← mle_computeBetas r _ (bitsPoint_length r.length b).symm, mle_bitsPoint _ _ b hb', mle_bitsPoint _ _ b hb', computeBetas_spec,
    List.getD_eq_getElem _ _ (by simpa using hb'), List.getElem_map, List.getElem_range, mul_comm]

omit [DecidableEq F] in
theorem reducedMax_spec (size : ℕ) (betas : List F) (idx : List ℕ) (M : List F) (ht : ∀ t ∈ idx, t < size) (hb : idx.length = betas.length) (hM : idx.length = M.length) :
    ∃ red, reducedMax size betas idx M = some red ∧ red.length = size ∧
      ∀ j, red.getD j 0 = ∑ i ∈ Finset.range idx.length, if idx.getD i 0 = j then betas.getD i 0 * M.getD i 0 else 0 := by
  have gen : ∀ (idx : List ℕ) (betas M acc : List F), idx.length = betas.length → idx.length = M.length → (∀ t ∈ idx, t < acc.length) →
      ∃ red, (betas.zip (idx.zip M)).foldlM (fun (acc : List F) x =>
        if x.2.1 < acc.length then some (acc.set x.2.1 (acc.getD x.2.1 0 + x.1 * x.2.2)) else none) acc = some red ∧ red.length = acc.length ∧
        ∀ j, red.getD j 0 = acc.getD j 0 + ∑ i ∈ Finset.range idx.length, if idx.getD i 0 = j then betas.getD i 0 * M.getD i 0 else 0 := by
    intro idx
    induction idx with
    | nil =>
      intro betas M acc h1 h2 _
      have : betas = [] := List.length_eq_zero_iff.mp h1.symm
      subst this
      exact ⟨acc, rfl, rfl, by simp⟩
    | cons t ts ih =>
      intro betas M acc h1 h2 h3
      cases betas with
      | nil => simp at h1
      | cons b bs =>
        cases M with
        | nil => simp at h2
        | cons m ms =>
          have htl := h3 t (by simp)
          obtain ⟨red, r1, r2, r3⟩ := ih bs ms (acc.set t (acc.getD t 0 + b * m)) (by simpa using h1) (by simpa using h2)
            (fun u hu => by rw [List.length_set]; exact h3 u (by simp [hu]))
          refine ⟨red, ?_, by simpa using r2, fun j => ?_⟩
          · simp only [List.zip_cons_cons, List.foldlM_cons, if_pos htl, Option.bind_eq_bind, Option.bind_some]
            exact r1
          · rw [r3 j, getD_set' acc t j _ htl, List.length_cons, Finset.sum_range_succ']
            simp only [List.getD_cons_succ, List.getD_cons_zero]
            by_cases htj : t = j
            · subst htj; simp only [if_true]; ring
            · simp only [if_neg htj]; ring
  obtain ⟨red, r1, r2, r3⟩ := gen idx betas M (List.replicate size 0) hb hM (by simpa using ht)
  refine ⟨red, r1, by simpa using r2, fun j => ?_⟩
  rw [r3 j]
  have : (List.replicate size (0 : F)).getD j 0 = 0 := by
    by_cases h : j < size
    · rw [List.getD_eq_getElem _ _ (by simpa using h)]; simp
    · rw [List.getD_eq_default _ _ (by simpa using h)]
  rw [this, zero_add]

omit [DecidableEq F] in
theorem oneHotOutput_spec (cols : ℕ) (idx : List ℕ) (ht : ∀ t ∈ idx, t < cols) :
    oneHotOutput (F := F) cols (idx.length * cols) idx = some (oneHot cols idx) := by
  have gen : ∀ (idx : List ℕ) (k : ℕ) (acc : List F), (∀ t ∈ idx, t < cols) → acc.length = (k + idx.length) * cols →
      ∃ out, (idx.zipIdx k).foldlM (fun (acc : List F) oi => if oi.2 * cols + oi.1 < acc.length then some (acc.set (oi.2 * cols + oi.1) 1) else none) acc = some out ∧
        out.length = acc.length ∧ ∀ i j, j < cols → out.getD (i * cols + j) 0
          = if k ≤ i ∧ i < k + idx.length ∧ idx.getD (i - k) 0 = j then 1 else acc.getD (i * cols + j) 0 := by
    intro idx
    induction idx with
    | nil =>
      intro k acc _ _
      refine ⟨acc, rfl, rfl, fun i j _ => ?_⟩
      rw [if_neg (by simp; omega)]
    | cons t ts ih =>
      intro k acc h1 h2
      have htc := h1 t (by simp)
      have hlt : k * cols + t < acc.length := by rw [h2, List.length_cons]; nlinarith
      obtain ⟨out, r1, r2, r3⟩ := ih (k + 1) (acc.set (k * cols + t) 1) (fun u hu => h1 u (by simp [hu])) (by rw [List.length_set, h2, List.length_cons]; ring)
      refine ⟨out, ?_, by simpa using r2, fun i j hj => ?_⟩
      · simp only [List.zipIdx_cons, List.foldlM_cons, if_pos hlt, Option.bind_eq_bind, Option.bind_some]
        exact r1
      · rw [r3 i j hj, getD_set' acc _ _ _ hlt]
        have hinj : k * cols + t = i * cols + j ↔ k = i ∧ t = j := by
          constructor
          · intro h
            have h1 := mul_add_div' (i := k) htc
            have h2 := mul_add_div' (i := i) hj
            have h3 := mul_add_mod' (i := k) htc
            have h4 := mul_add_mod' (i := i) hj
            rw [h] at h1 h3
            exact ⟨h1.symm.trans h2, h3.symm.trans h4⟩
          · rintro ⟨rfl, rfl⟩; rfl
        rcases lt_trichotomy i k with hik | rfl | hik
        · rw [if_neg (by omega), if_neg (by rw [hinj]; omega), if_neg (by omega)]
        · rw [if_neg (by omega)]
          by_cases htj : t = j
          · subst htj; simp
          · rw [if_neg (by rw [hinj]; tauto), if_neg (by simp [htj])]
        · have hsub : i - k = (i - (k + 1)) + 1 := by omega
          rw [hsub, List.getD_cons_succ, List.length_cons, if_neg (show ¬ (k * cols + t = i * cols + j) by rw [hinj]; omega)]
          by_cases hc : k + 1 ≤ i ∧ i < k + 1 + ts.length ∧ ts.getD (i - (k + 1)) 0 = j
          · rw [if_pos hc, if_pos ⟨by omega, by omega, hc.2.2⟩]
          · rw [if_neg hc, if_neg (by intro h; exact hc ⟨by omega, by omega, h.2.2⟩)]
  obtain ⟨out, r1, r2, r3⟩ := gen idx 0 (List.replicate (idx.length * cols) 0) ht (by simp)
  unfold oneHotOutput
  rw [r1]
  congr 1
  have hol : out.length = idx.length * cols := by simpa using r2
  refine list_ext_getD 0 _ _ (by rw [hol, oneHot_length]) ?_
  intro o ho
  rw [hol] at ho
  have hc : 0 < cols := by
    rcases Nat.eq_zero_or_pos cols with h | h
    · rw [h, mul_zero] at ho; omega
    · exact h
  have hi : o / cols < idx.length := by rw [Nat.div_lt_iff_lt_mul hc]; exact ho
  have hj := Nat.mod_lt o hc
  have ho' : o = o / cols * cols + o % cols := by rw [mul_comm]; exact (Nat.div_add_mod o cols).symm
  rw [ho', r3 _ _ hj, getD_oneHot _ _ _ _ hi hj]
  by_cases h : idx.getD (o / cols) 0 = o % cols
  · rw [if_pos ⟨Nat.zero_le _, by rw [zero_add]; exact hi, by simpa using h⟩, if_pos h]
  · rw [if_neg (by intro hh; exact h (by simpa using hh.2.2)), if_neg h]
    rw [List.getD_eq_getElem _ _ (by rw [List.length_replicate, ← ho']; exact ho)]; simp

/-- The prover's first table is the input restricted to the one-hot positions, with the rows fixed at `row`. -/
theorem mle_reducedMax (c s : ℕ) (X : List F) (hX : X.length = 2 ^ (c + s)) (idx : List ℕ) (hl : idx.length = 2 ^ s) (hidx : ∀ t ∈ idx, t < 2 ^ c) (row : List F)
    (hr : row.length = s) :
    ∃ red, reducedMax (2 ^ c) (computeBetas row) idx (pickedEntries (2 ^ c) X idx) = some red ∧ red.length = 2 ^ c ∧
      ∀ pt : List F, pt.length = c → mle red pt = mle (List.zipWith (· * ·) X (oneHot (2 ^ c) idx)) (pt ++ row) := by
  obtain ⟨red, h1, h2, h3⟩ := reducedMax_spec (2 ^ c) (computeBetas row) idx (pickedEntries (2 ^ c) X idx) hidx (by rw [computeBetas_length, hr, hl]) (by simp [pickedEntries])
  refine ⟨red, h1, h2, fun pt hpt => ?_⟩
  rw [mle_append_sum, hr, hpt]
  unfold mle
  simp only [h3, Finset.sum_mul, hpt]
  rw [Finset.sum_comm, hl]
  apply Finset.sum_congr rfl
  intro i hi
  have hi' : i < idx.length := by rw [hl]; exact Finset.mem_range.mp hi
  apply Finset.sum_congr rfl
  intro j hj
  have hj' := Finset.mem_range.mp hj
  rw [getD_zipWith_mul _ _ (by rw [oneHot_length, hX, hl, pow_add, mul_comm]), getD_oneHot _ _ _ _ hi' hj']
  by_cases h : idx.getD i 0 = j
  · rw [if_pos h, if_pos h]
    have hb : (computeBetas row).getD i 0 = chi row i := by
      rw [computeBetas_spec, List.getD_eq_getElem _ _ (by rw [List.length_map, List.length_range, hr, ← hl]; exact hi'), List.getElem_map, List.getElem_range]
    have hp : (pickedEntries (2 ^ c) X idx).getD i 0 = X.getD (i * 2 ^ c + j) 0 := by
      unfold pickedEntries
      rw [List.getD_eq_getElem _ _ (by simpa using hi'), List.getElem_map, List.getElem_range, h]
    rw [hb, hp]; ring
  · rw [if_neg h, if_neg h]; ring

omit [DecidableEq F] in
theorem buildVP_logits (heap : ℕ → Mle F) (n : ℕ) (h : ∀ a, (heap a).numVars = n) (ch : F) :
    buildVP heap n [(1, [0, 1, 2]), (ch, [3, 4])]
      = some ⟨3, n, [(1, [0, 1, 2]), (ch, [3, 4])], [0, 1, 2, 3, 4], [(4, 4), (3, 3), (2, 2), (1, 1), (0, 0)]⟩ := by
  simp [buildVP, VirtualPoly.addMleList, VirtualPoly.new, VirtualPoly.internList, VirtualPoly.intern, h, List.lookup]

end Lemmas
