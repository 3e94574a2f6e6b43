import Verif.Spec.TokenLayers
import Verif.Model.TokenLayers
import Verif.Lemmas.SamePoly
import Verif.Lemmas.Elementwise
import Verif.Lemmas.TensorOps
import Verif.Lemmas.Tables

/-!
Helper lemmas for embeddings, positional encodings and logits.
-/

namespace Lemmas
open Spec Model

variable {F : Type} [Field F] [DecidableEq F]

omit [DecidableEq F] in
theorem bitSequence_eq (num len : ℕ) (h : len ≤ 64) : bitSequence (F := F) num len = some (bitsPoint len num) := by
  unfold bitSequence bitsPoint
  rw [if_pos h]
  congr 1
  apply List.map_congr_left
  intro i _
  rw [Nat.and_one_is_mod, Nat.testBit_eq_decide_div_mod_eq, Nat.shiftRight_eq_div_pow]
  rcases Nat.mod_two_eq_zero_or_one (num / 2 ^ i) with h | h <;> simp [h]

omit [DecidableEq F] in
theorem bitsPoint_mod (n b : ℕ) : (bitsPoint n b : List F) = bitsPoint n (b % 2 ^ n) := by
  unfold bitsPoint
  apply List.map_congr_left
  intro j hj
  rw [Nat.testBit_mod_two_pow]
  simp [List.mem_range.mp hj]

omit [DecidableEq F] in
theorem eqPoly_bitsPoint (r : List F) (b : ℕ) : eqPoly r (bitsPoint r.length b) = chi r (b % 2 ^ r.length) := by
  have hb : b % 2 ^ r.length < 2 ^ r.length := Nat.mod_lt _ (by positivity)
  rw [bitsPoint_mod, eqPoly_eq_sum _ _ (by simp [bitsPoint_length]), Finset.sum_eq_single (b % 2 ^ r.length)]
  · rw [chi_bitsPoint _ _ _ hb hb]; simp
  · intro c hc hne
    rw [chi_bitsPoint _ _ _ hb (Finset.mem_range.mp hc), if_neg hne, mul_zero]
  · intro h; exact absurd (Finset.mem_range.mpr hb) h

theorem foldlM_some {α β : Type} (f : β → α → β) (l : List α) (b : β) : l.foldlM (fun acc x => some (f acc x)) b = some (l.foldl f b) := by
  induction l generalizing b with
  | nil => rfl
  | cons x l ih => simp [List.foldlM_cons, ih]

omit [DecidableEq F] in
theorem sum_map_zip_range {α : Type} (l : List α) (g : ℕ → F) (f : α → F → F) (d : α) :
    ((l.zip ((List.range l.length).map g)).map fun x => f x.1 x.2).sum = ∑ i ∈ Finset.range l.length, f (l.getD i d) (g i) := by
  induction l generalizing g with
  | nil => simp
  | cons a l ih =>
    rw [List.length_cons, List.range_succ_eq_map, List.map_cons, List.map_map, List.zip_cons_cons, List.map_cons, List.sum_cons, Finset.sum_range_succ']
    have := ih (g ∘ Nat.succ)
    rw [this, add_comm]
    rfl

omit [DecidableEq F] in
/-- The multilinear extension of a one-hot matrix. -/
theorem mle_oneHot (v : ℕ) (idx : List ℕ) (s : ℕ) (hl : idx.length = 2 ^ s) (hidx : ∀ t ∈ idx, t < 2 ^ v) (col row : List F) (hc : col.length = v)
    (hr : row.length = s) : mle (oneHot (2 ^ v) idx) (col ++ row) = ∑ i ∈ Finset.range (2 ^ s), chi row i * chi col (idx.getD i 0) := by
  rw [mle_append_sum, hr, hc]
  apply Finset.sum_congr rfl
  intro i hi
  have hi' := Finset.mem_range.mp hi
  have hlt : idx.getD i 0 < 2 ^ v := by
    rw [List.getD_eq_getElem _ _ (by omega)]
    exact hidx _ (List.getElem_mem _)
  rw [mul_comm]
  congr 1
  rw [Finset.sum_eq_single (idx.getD i 0)]
  · unfold oneHot
    rw [List.getD_eq_getElem?_getD, List.getElem?_map, List.getElem?_range (by rw [hl]; nlinarith)]
    simp only [mul_add_div' hlt, mul_add_mod' hlt, Option.map_some, Option.getD_some, if_true, one_mul]
  · intro j hj hne
    have hj' := Finset.mem_range.mp hj
    unfold oneHot
    rw [List.getD_eq_getElem?_getD, List.getElem?_map, List.getElem?_range (by rw [hl]; nlinarith)]
    simp only [mul_add_div' hj', mul_add_mod' hj', Option.map_some, Option.getD_some]
    rw [if_neg (fun h => hne h.symm), zero_mul]
  · intro h; exact absurd (Finset.mem_range.mpr hlt) h

/-- The sum over the tokens is the multilinear extension of the one-hot matrix of the tokens modulo the number of columns. -/
theorem tokenSum_eq (val : F → ℕ) (tokens col row : List F) (hc : col.length ≤ 64) (hl : tokens.length = 2 ^ row.length) :
    tokenSum val tokens col row = some (mle (oneHot (2 ^ col.length) (tokens.map fun t => val t % 2 ^ col.length)) (col ++ row)) := by
  unfold tokenSum
  simp only [bitSequence_eq _ _ hc, Option.bind_eq_bind, Option.bind_some]
  rw [foldlM_some (fun (sum : F) (tb : F × F) => sum + tb.2 * identityEval col (bitsPoint col.length (val tb.1)))]
  congr 1
  rw [foldl_add_map (fun tb : F × F => tb.2 * identityEval col (bitsPoint col.length (val tb.1))), zero_add, computeBetas_spec, ← hl,
    sum_map_zip_range tokens (chi row) (fun t b => b * identityEval col (bitsPoint col.length (val t))) 0,
    mle_oneHot col.length _ row.length (by simpa using hl) (by
      intro t ht
      obtain ⟨u, -, rfl⟩ := List.mem_map.mp ht
      exact Nat.mod_lt _ (by positivity)) col row rfl rfl, hl]
  apply Finset.sum_congr rfl
  intro i hi
  have hi' : i < tokens.length := by rw [hl]; exact Finset.mem_range.mp hi
  rw [identityEval_eq' _ _ (by simp [bitsPoint_length]), eqPoly_bitsPoint, List.getD_eq_getElem _ _ hi', List.getD_eq_getElem _ _ (by simpa using hi')]
  simp

/-! ### Embeddings -/

omit [DecidableEq F] in
theorem getD_set' (l : List F) (i j : ℕ) (x : F) (hi : i < l.length) : (l.set i x).getD j 0 = if i = j then x else l.getD j 0 := by
  rw [List.getD_eq_getElem?_getD, List.getElem?_set, List.getD_eq_getElem?_getD]
  split
  · simp [hi]
  · rfl

omit [DecidableEq F] in
theorem reducedOneHot_spec (size : ℕ) (betas : List F) (tokens : List ℕ) (ht : ∀ t ∈ tokens, t < size) (hb : tokens.length ≤ betas.length) :
    ∃ red, reducedOneHot size betas tokens = some red ∧ red.length = size ∧
      ∀ j, red.getD j 0 = ∑ i ∈ Finset.range tokens.length, if tokens.getD i 0 = j then betas.getD i 0 else 0 := by
  have gen : ∀ (tokens : List ℕ) (k : ℕ) (acc : List F), (∀ t ∈ tokens, t < acc.length) → k + tokens.length ≤ betas.length →
      ∃ red, (tokens.zipIdx k).foldlM (fun (acc : List F) ti =>
        if ti.1 < acc.length then do
          let b ← betas[ti.2]?
          some (acc.set ti.1 (acc.getD ti.1 0 + b))
        else none) acc = some red ∧ red.length = acc.length ∧
        ∀ j, red.getD j 0 = acc.getD j 0 + ∑ i ∈ Finset.range tokens.length, if tokens.getD i 0 = j then betas.getD (k + i) 0 else 0 := by
    intro tokens
    induction tokens with
    | nil => intro k acc _ _; exact ⟨acc, rfl, rfl, by simp⟩
    | cons t tokens ih =>
      intro k acc h1 h2
      have ht := h1 t (by simp)
      have hk : k < betas.length := by simp at h2; omega
      obtain ⟨red, g1, g2, g3⟩ := ih (k + 1) (acc.set t (acc.getD t 0 + betas.getD k 0)) (by
        intro u hu; rw [List.length_set]; exact h1 u (List.mem_cons_of_mem _ hu)) (by simp at h2; omega)
      refine ⟨red, ?_, by rw [g2, List.length_set], ?_⟩
      · rw [List.zipIdx_cons, List.foldlM_cons]
        simp only [if_pos ht, List.getElem?_eq_getElem hk, Option.bind_eq_bind, Option.bind_some]
        rw [List.getD_eq_getElem _ _ hk] at g1
        exact g1
      · intro j
        rw [g3, getD_set' _ _ _ _ ht, List.length_cons, Finset.sum_range_succ']
        simp only [List.getD_cons_succ, List.getD_cons_zero, add_zero]
        have : ∀ i, k + 1 + i = k + (i + 1) := fun i => by omega
        simp only [this]
        split
        · rename_i h; subst h; ring
        · ring
  obtain ⟨red, g1, g2, g3⟩ := gen tokens 0 (List.replicate size 0) (by simpa using ht) (by simpa using hb)
  refine ⟨red, g1, by simpa using g2, fun j => ?_⟩
  rw [g3]
  simp [List.getD_replicate]

theorem mle_reduced (v s : ℕ) (tokens : List ℕ) (row : List F) (hs : row.length = s) (hl : tokens.length = 2 ^ s) (ht : ∀ t ∈ tokens, t < 2 ^ v) :
    ∃ red, reducedOneHot (2 ^ v) (computeBetas row) tokens = some red ∧ red.length = 2 ^ v ∧
      ∀ pt : List F, pt.length = v → mle red pt = mle (oneHot (2 ^ v) tokens) (pt ++ row) := by
  obtain ⟨red, h1, h2, h3⟩ := reducedOneHot_spec (2 ^ v) (computeBetas row) tokens ht (by rw [computeBetas_length, hs, hl])
  refine ⟨red, h1, h2, fun pt hpt => ?_⟩
  rw [mle_oneHot v tokens s hl ht pt row hpt hs]
  unfold mle
  simp only [h3, Finset.sum_mul, hpt]
  rw [Finset.sum_comm, hl]
  apply Finset.sum_congr rfl
  intro i hi
  have hi' := Finset.mem_range.mp hi
  have hlt : tokens.getD i 0 < 2 ^ v := by
    rw [List.getD_eq_getElem _ _ (by omega)]
    exact ht _ (List.getElem_mem _)
  rw [Finset.sum_eq_single (tokens.getD i 0)]
  · rw [if_pos rfl, computeBetas_spec, List.getD_eq_getElem _ _ (by simpa [hs] using hi'), List.getElem_map, List.getElem_range]
  · intro j _ hne
    rw [if_neg (fun h => hne h.symm), zero_mul]
  · intro h; exact absurd (Finset.mem_range.mpr hlt) h

omit [DecidableEq F] in
theorem embeddingRows_matmul (v e s : ℕ) (W : List F) (idx : List ℕ) (hl : idx.length = 2 ^ s) (hidx : ∀ t ∈ idx, t < 2 ^ v) :
    embeddingRows (2 ^ e) W idx = matmulOut s v e false (oneHot (2 ^ v) idx) W [] := by
  unfold embeddingRows matmulOut
  rw [hl]
  apply List.map_congr_left
  intro o ho
  have ho' := List.mem_range.mp ho
  have hi : o / 2 ^ e < 2 ^ s := by rw [Nat.div_lt_iff_lt_mul (by positivity)]; exact ho'
  have hlt : idx.getD (o / 2 ^ e) 0 < 2 ^ v := by
    rw [List.getD_eq_getElem _ _ (by omega)]
    exact hidx _ (List.getElem_mem _)
  have hval : ∀ k < 2 ^ v, (oneHot (2 ^ v) idx : List F).getD (o / 2 ^ e * 2 ^ v + k) 0 = if idx.getD (o / 2 ^ e) 0 = k then 1 else 0 := by
    intro k hk
    unfold oneHot
    rw [List.getD_eq_getElem?_getD, List.getElem?_map, List.getElem?_range (by rw [hl]; nlinarith)]
    simp [mul_add_div' hk, mul_add_mod' hk]
  rw [Finset.sum_eq_single (idx.getD (o / 2 ^ e) 0)]
  · rw [hval _ hlt]; simp
  · intro k hk hne
    rw [hval k (Finset.mem_range.mp hk), if_neg (fun h => hne h.symm), zero_mul]
  · intro h; exact absurd (Finset.mem_range.mpr hlt) h

omit [DecidableEq F] in
theorem mle_embeddingRows (v e s : ℕ) (W : List F) (idx : List ℕ) (hl : idx.length = 2 ^ s) (hidx : ∀ t ∈ idx, t < 2 ^ v) (col row : List F)
    (hc : col.length = e) (hr : row.length = s) :
    mle (embeddingRows (2 ^ e) W idx) (col ++ row) = cubeSum v fun pt => mle (oneHot (2 ^ v) idx) (pt ++ row) * mle W (col ++ pt) := by
  rw [embeddingRows_matmul v e s W idx hl hidx, matmul_identity s v e false _ W [] col row hc hr]
  simp [mle]

/-! ### Positional encodings -/

omit [DecidableEq F] in
theorem mle_split (t p : List F) (c : F) (ht : 2 ^ (p.length + 1) ≤ t.length) :
    mle t (p ++ [c]) = mle (t.take (2 ^ p.length)) p * (1 - c) + mle ((t.drop (2 ^ p.length)).take (2 ^ p.length)) p * c := by
  have hp : 2 ^ (p.length + 1) = 2 ^ p.length + 2 ^ p.length := by rw [pow_succ]; ring
  unfold mle
  rw [List.length_append, List.length_singleton, hp, Finset.sum_range_add, Finset.sum_mul, Finset.sum_mul]
  congr 1
  · apply Finset.sum_congr rfl
    intro j hj
    have hj' := Finset.mem_range.mp hj
    rw [(chi_snoc p c j hj').1, List.getD_eq_getElem?_getD, List.getD_eq_getElem?_getD, List.getElem?_take, if_pos hj']
    ring
  · apply Finset.sum_congr rfl
    intro j hj
    have hj' := Finset.mem_range.mp hj
    rw [(chi_snoc p c j hj').2, List.getD_eq_getElem?_getD, List.getD_eq_getElem?_getD, List.getElem?_take, if_pos hj', List.getElem?_drop]
    ring

omit [DecidableEq F] in
/-- Folding the true evaluations of the sub-matrices, starting from the true evaluation of the first block, gives the evaluation of the whole matrix; from a different start the result is off by
the product of the `1 - c`. -/
theorem fold_blocks (pos : List F) (base : List F) (extra : List F) (hp : 2 ^ (base.length + extra.length) ≤ pos.length) (start : F) :
    ((((List.range extra.length).map fun i => mle ((pos.drop (2 ^ (base.length + i))).take (2 ^ (base.length + i))) ((base ++ extra).take (base.length + i))).zip extra).foldl
      (fun ev sc => ev * (1 - sc.2) + sc.1 * sc.2) start)
      = mle pos (base ++ extra) + (start - mle (pos.take (2 ^ base.length)) base) * (extra.map fun c => 1 - c).prod := by
  induction extra generalizing base start with
  | nil =>
    simp only [List.length_nil, List.range_zero, List.map_nil, List.zip_nil_left, List.foldl_nil, List.append_nil, List.prod_nil, mul_one]
    have : mle (pos.take (2 ^ base.length)) base = mle pos base := by
      unfold mle
      apply Finset.sum_congr rfl
      intro j hj
      rw [List.getD_eq_getElem?_getD, List.getElem?_take, if_pos (Finset.mem_range.mp hj), ← List.getD_eq_getElem?_getD]
    rw [this]; ring
  | cons c extra ih =>
    rw [List.length_cons, List.range_succ_eq_map, List.map_cons, List.map_map, List.zip_cons_cons, List.foldl_cons]
    have hp' : 2 ^ ((base ++ [c]).length + extra.length) ≤ pos.length := by
      refine le_trans (Nat.pow_le_pow_right (by omega) ?_) hp
      simp; omega
    have := ih (base ++ [c]) hp' (start * (1 - c) + mle ((pos.drop (2 ^ base.length)).take (2 ^ base.length)) base * c)
    have hfun : ((fun i => mle ((pos.drop (2 ^ (base.length + i))).take (2 ^ (base.length + i))) ((base ++ c :: extra).take (base.length + i))) ∘ Nat.succ)
        = fun i => mle ((pos.drop (2 ^ ((base ++ [c]).length + i))).take (2 ^ ((base ++ [c]).length + i))) ((base ++ [c] ++ extra).take ((base ++ [c]).length + i)) := by
      funext i
      simp only [Function.comp, List.length_append, List.length_singleton, List.append_assoc, List.singleton_append, Nat.succ_eq_add_one]
      rw [show base.length + (i + 1) = base.length + 1 + i by omega]
    rw [hfun]
    simp only [add_zero, List.take_left']
    rw [this]
    have hb : 2 ^ (base.length + 1) ≤ pos.length := le_trans (Nat.pow_le_pow_right (by omega) (by simp)) hp'
    have hs := mle_split (pos.take (2 ^ (base ++ [c]).length)) base c (by simp [hb])
    rw [hs, List.map_cons, List.prod_cons, List.append_assoc, List.singleton_append, List.take_take]
    have e1 : min (2 ^ base.length) (2 ^ (base ++ [c]).length) = 2 ^ base.length := min_eq_left (Nat.pow_le_pow_right (by omega) (by simp))
    have e2 : ((pos.take (2 ^ (base ++ [c]).length)).drop (2 ^ base.length)).take (2 ^ base.length) = (pos.drop (2 ^ base.length)).take (2 ^ base.length) := by
      rw [List.drop_take, List.take_take]
      congr 1
      rw [List.length_append, List.length_singleton, pow_succ]
      omega
    rw [e1, e2]
    ring

theorem subMatrixEvals_eq (pos base extra : List F) (hp : pos.length = 2 ^ (base.length + extra.length)) :
    subMatrixEvals pos (base ++ extra) base.length extra.length = some ((List.range extra.length).map fun i =>
      mle ((pos.drop (2 ^ (base.length + i))).take (2 ^ (base.length + i))) ((base ++ extra).take (base.length + i))) := by
  unfold subMatrixEvals
  apply mapM_some'
  intro i hi
  have hi' := List.mem_range.mp hi
  have hlen : ((pos.drop (2 ^ (base.length + i))).take (2 ^ (base.length + i))).length = 2 ^ (base.length + i) := by
    rw [List.length_take, List.length_drop, hp]
    have : 2 ^ (base.length + i + 1) ≤ 2 ^ (base.length + extra.length) := Nat.pow_le_pow_right (by omega) (by omega)
    rw [pow_succ] at this
    omega
  simp only [Mle.ofEvals, hlen, if_true, Option.bind_eq_bind, Option.bind_some]
  rw [evaluate_eq ⟨base.length + i, _⟩ hlen _ (by simp; omega)]

theorem extraCoordinates_length (T : Transcript F) (k : ℕ) (output sub : Claim F) (ts : T.State) : (extraCoordinates T k output sub ts).1.length = k := by
  unfold extraCoordinates
  exact sampleN_length T k _

end Lemmas
