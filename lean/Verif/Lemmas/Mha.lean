import Verif.Model.Mha
import Verif.Spec.Mha
import Verif.Lemmas.ConcatMatMul
import Verif.Lemmas.Attention
import Verif.Lemmas.Elementwise

/-!
Lemmas on multi-head attention.
-/

namespace Lemmas
open Spec Model

theorem flat_three' (a b c i j k : ℕ) : flat [a, b, c] [i, j, k] = i * (b * c) + (j * c + k) := by
  simp [flat]

section
variable {α : Type} [Semiring α]

theorem entry_qk (H d n : ℕ) (q : List α) (h x i : ℕ) : entry3 [n, H, d] q 1 2 h x i = headEntry H d q i h x := by
  unfold entry3 headEntry
  simp only [show ¬ (0 = 1) by omega, show ¬ (0 = 2) by omega, show ¬ (2 = 1) by omega, if_true, if_false]
  rw [flat_three']

theorem entry_v (H d n : ℕ) (v : List α) (h j c : ℕ) : entry3 [n, H, d] v 1 0 h j c = headEntry H d v j h c := by
  unfold entry3 headEntry
  simp only [show ¬ (0 = 1) by omega, show ¬ (2 = 0) by omega, show ¬ (2 = 1) by omega, if_true, if_false]
  rw [flat_three']

theorem entry_soft (H n : ℕ) (p : List α) (h j i : ℕ) : entry3 [H, n, n] p 0 2 h j i = p.getD ((h * n + i) * n + j) 0 := by
  unfold entry3
  simp only [show ¬ (1 = 0) by omega, show ¬ (1 = 2) by omega, show ¬ (2 = 0) by omega, if_true, if_false]
  rw [flat_three']
  congr 1
  ring

theorem scores_length (H d n : ℕ) (q k : List α) : (scores H d n q k).length = H * n * n := by simp [scores]

theorem scores_getD (H d n : ℕ) (q k : List α) {h i j : ℕ} (hh : h < H) (hi : i < n) (hj : j < n) : (scores H d n q k).getD ((h * n + i) * n + j) 0 = score H d q k h i j := by
  unfold scores
  obtain ⟨h1, h2, h3, h4⟩ : (h * n + i) * n + j < H * n * n ∧ ((h * n + i) * n + j) / n / n = h ∧ ((h * n + i) * n + j) / n % n = i ∧ ((h * n + i) * n + j) % n = j := by
    have e1 : ((h * n + i) * n + j) / n = h * n + i := mul_add_div' hj
    refine ⟨?_, ?_, ?_, mul_add_mod' hj⟩
    · calc (h * n + i) * n + j < (h * n + i) * n + n := by omega
        _ = (h * n + i + 1) * n := by ring
        _ ≤ (H * n) * n := Nat.mul_le_mul_right _ (by
            calc h * n + i + 1 ≤ h * n + n := by omega
              _ = (h + 1) * n := by ring
              _ ≤ H * n := Nat.mul_le_mul_right _ hh)
    · rw [e1]; exact mul_add_div' hi
    · rw [e1]; exact mul_add_mod' hi
  rw [List.getD_eq_getElem?_getD, List.getElem?_map, List.getElem?_range h1, Option.map_some, Option.getD_some, h2, h3, h4]

/-- The table of scores is the stack of products of the queries and the keys. -/
theorem scores_product (H d n : ℕ) (q k : List α) :
    IsConcatProduct [0, 1, 2] H n d n 1 2 [n, H, d] q 1 2 [n, H, d] k [H, n, n] (scores H d n q k) := by
  refine ⟨rfl, scores_length .., ?_⟩
  intro h i j hh hi hj
  have := scores_getD H d n q k hh hi hj
  simp only [List.map_cons, List.map_nil, List.getD_cons_zero, List.getD_cons_succ]
  rw [flat_three', show h * (n * n) + (i * n + j) = (h * n + i) * n + j by ring, this]
  unfold score
  simp only [entry_qk]

theorem product_unique (H n m k cl ml cr mr : ℕ) (sl : List ℕ) (l : List α) (sr : List ℕ) (r : List α) (shape : List ℕ) (o1 o2 : List α)
    (h1 : IsConcatProduct [0, 1, 2] H n k m cl ml sl l cr mr sr r shape o1) (h2 : IsConcatProduct [0, 1, 2] H n k m cl ml sl l cr mr sr r shape o2) : o1 = o2 := by
  obtain ⟨a1, a2, a3⟩ := h1
  obtain ⟨b1, b2, b3⟩ := h2
  apply list_ext_getD 0 _ _ (by rw [a2, b2])
  intro w hw
  rw [a2] at hw
  have hs : shape = [H, n, m] := a1
  have hp : shape.prod = H * n * m := by rw [hs]; simp; ring
  obtain ⟨c, hc, hcw⟩ := flat_surj (shape := shape) (i := w) (by rw [hp]; exact hw)
  subst hs
  match c, hc with
  | [x, y, z], hc =>
    rw [inRange_cons_cons, inRange_cons_cons, inRange_cons_cons] at hc
    have e1 := a3 x y z hc.1 hc.2.1 hc.2.2.1
    have e2 := b3 x y z hc.1 hc.2.1 hc.2.2.1
    simp only [List.map_cons, List.map_nil, List.getD_cons_zero, List.getD_cons_succ] at e1 e2
    rw [hcw] at e1 e2
    rw [e1, e2]
  | [], hc => simp [inRange_nil, InRange] at hc
  | [_], hc => simp [InRange] at hc
  | [_, _], hc => simp [InRange] at hc
  | _ :: _ :: _ :: _ :: _, hc => simp [InRange] at hc

theorem qk_spec (H d n : ℕ) (hH : 0 < H) (q k : List α) (hq : q.length = n * (H * d)) (hk : k.length = n * (H * d)) :
    concatMatMulEvaluate qkDims qkDims none ⟨[n, H, d], q⟩ ⟨[n, H, d], k⟩ = some ⟨[H, n, n], scores H d n q k⟩ := by
  obtain ⟨out, h1, h2⟩ := concatMatMul_spec (α := α) qkDims qkDims (by unfold InputDims.Valid qkDims; decide) (by unfold InputDims.Valid qkDims; decide) none (by unfold PermOk; decide)
    ⟨[n, H, d], q⟩ ⟨[n, H, d], k⟩ H n d n hH (by simp [hq]) (by simp [hk]) ⟨rfl, rfl, rfl, rfl⟩ ⟨rfl, rfl, rfl, rfl⟩
  rw [h1]
  have := product_unique _ _ _ _ _ _ _ _ _ _ _ _ _ _ _ h2 (scores_product H d n q k)
  rw [this]
  rfl

/-- The output of the second product. -/
theorem final_spec (H d n : ℕ) (hH : 0 < H) (p v : List α) (hp : p.length = H * n * n) (hv : v.length = n * (H * d)) :
    ∃ out, concatMatMulEvaluate finalLeft finalRight (some finalPerm) ⟨[H, n, n], p⟩ ⟨[n, H, d], v⟩ = some ⟨[n, H, d], out⟩ ∧ out.length = n * (H * d) ∧
      IsConcatProduct [1, 0, 2] H n n d 0 2 [H, n, n] p 1 0 [n, H, d] v [n, H, d] out ∧
      ∀ i h c, i < n → h < H → c < d → headEntry H d out i h c = attended H d n p v i h c := by
  obtain ⟨out, h1, h2⟩ := concatMatMul_spec (α := α) finalLeft finalRight (by unfold InputDims.Valid finalLeft; decide) (by unfold InputDims.Valid finalRight; decide) (some finalPerm)
    (by unfold PermOk finalPerm; decide) ⟨[H, n, n], p⟩ ⟨[n, H, d], v⟩ H n n d hH (by simp [hp]; ring) (by simp [hv]) ⟨rfl, rfl, rfl, rfl⟩ ⟨rfl, rfl, rfl, rfl⟩
  refine ⟨out, h1, ?_, h2, ?_⟩
  · rw [h2.2.1]; ring
  · intro i h c hi hh hc
    have e := h2.2.2 h i c hh hi hc
    simp only [finalPerm, finalLeft, finalRight, Option.getD_some, List.map_cons, List.map_nil, List.getD_cons_zero, List.getD_cons_succ] at e
    rw [flat_three'] at e
    unfold headEntry attended
    rw [e]
    apply Finset.sum_congr rfl
    intro j _
    rw [entry_soft, entry_v]

/-- A table of the attended values is the stack of products of the weights and the values. -/
theorem attended_product (H d n : ℕ) (p v out : List α) (ho : out.length = n * (H * d)) (h : ∀ i h c, i < n → h < H → c < d → headEntry H d out i h c = attended H d n p v i h c) :
    IsConcatProduct [1, 0, 2] H n n d 0 2 [H, n, n] p 1 0 [n, H, d] v [n, H, d] out := by
  refine ⟨rfl, by rw [ho]; ring, ?_⟩
  intro a i c ha hi hc
  have := h i a c hi ha hc
  simp only [List.map_cons, List.map_nil, List.getD_cons_zero, List.getD_cons_succ]
  unfold headEntry attended at this
  rw [flat_three', this]
  exact Finset.sum_congr rfl fun j _ => by rw [entry_soft, entry_v]

end

/-- Reshaping three matrices into heads. -/
theorem reshape_in (H d n : ℕ) (u : List ℕ) (q k v : List ℤ) :
    (Reshape.subspace 1 2 [H, d] u).evaluate [⟨[n, H * d], q⟩, ⟨[n, H * d], k⟩, ⟨[n, H * d], v⟩] = some [⟨[n, H, d], q⟩, ⟨[n, H, d], k⟩, ⟨[n, H, d], v⟩] := by
  simp [Reshape.evaluate, Reshape.internalOutput, Reshape.newDims, splice, Tensor.reshape]

theorem reshape_out (H d n : ℕ) (u : List ℕ) (out : List ℤ) : (Reshape.subspace 1 3 [H * d] u).evaluate [⟨[n, H, d], out⟩] = some [⟨[n, H * d], out⟩] := by
  simp [Reshape.evaluate, Reshape.internalOutput, Reshape.newDims, splice, Tensor.reshape]

/-- A layer whose reshapes split and join `H` heads of dimension `d`. -/
theorem mha_spec' (H d n : ℕ) (hH : 0 < H) (hn : 0 < n) (m : Mha) (u u' : List ℕ) (hin : m.inputsReshape = .subspace 1 2 [H, d] u) (hout : m.finalReshape = .subspace 1 3 [H * d] u')
    (tv : ℕ) (htv : m.softmax.tableVars = some tv) (q k v : List ℤ) (hq : q.length = n * (H * d)) (hk : k.length = n * (H * d))
    (hv : v.length = n * (H * d)) :
    ∃ out run, m.evaluate [⟨[n, H * d], q⟩, ⟨[n, H * d], k⟩, ⟨[n, H * d], v⟩] = some (⟨[n, H * d], out⟩, ⟨[H, n, n], scores H d n q k⟩, run) ∧
      m.softmax.evaluate ⟨[H, n, n], scores H d n q k⟩ = some run ∧ out.length = n * (H * d) ∧ run.output.data.length = H * n * n ∧
      ∀ i h c, i < n → h < H → c < d → headEntry H d out i h c = attended H d n run.output.data v i h c := by
  obtain ⟨run, sh, h1, h2, h3, -⟩ := softmax_evaluate_spec m.softmax H n hn [H, n, n] (Or.inl rfl) (scores H d n q k) (scores_length ..) tv htv
  obtain ⟨out, f1, f2, -, f3⟩ := final_spec H d n hH run.output.data v h3 hv
  refine ⟨out, run, ?_, h1, f2, h3, f3⟩
  have hro : run.output = ⟨[H, n, n], run.output.data⟩ := by rw [← h2]
  unfold Mha.evaluate
  simp only [List.length_cons, List.length_nil, if_true, hin, hout]
  rw [reshape_in, Option.bind_eq_bind, Option.bind_some]
  simp only [List.getElem?_cons_zero, List.getElem?_cons_succ, Option.bind_eq_bind, Option.bind_some]
  rw [qk_spec H d n hH q k hq hk]
  simp only [Option.bind_some]
  rw [h1]
  simp only [Option.bind_some]
  rw [hro, f1]
  simp only [Option.bind_some]
  rw [reshape_out]
  rfl

theorem mha_spec (H d n : ℕ) (hH : 0 < H) (hn : 0 < n) (sm : QuantSoftmax) (tv : ℕ) (htv : sm.tableVars = some tv) (q k v : List ℤ) (hq : q.length = n * (H * d)) (hk : k.length = n * (H * d))
    (hv : v.length = n * (H * d)) :
    ∃ out run, (Mha.new H d sm).evaluate [⟨[n, H * d], q⟩, ⟨[n, H * d], k⟩, ⟨[n, H * d], v⟩] = some (⟨[n, H * d], out⟩, ⟨[H, n, n], scores H d n q k⟩, run) ∧
      sm.evaluate ⟨[H, n, n], scores H d n q k⟩ = some run ∧ out.length = n * (H * d) ∧ run.output.data.length = H * n * n ∧
      ∀ i h c, i < n → h < H → c < d → headEntry H d out i h c = attended H d n run.output.data v i h c :=
  mha_spec' H d n hH hn (Mha.new H d sm) _ _ rfl rfl tv htv q k v hq hk hv

/-- The padded layer splits and joins the padded numbers. -/
theorem mha_pad (H d : ℕ) (sm : QuantSoftmax) :
    ∃ m, (Mha.new H d sm).pad = some m ∧ m.softmax = sm ∧ m.inputsReshape = .subspace 1 2 [nextPow2 H, nextPow2 d] [H, d] ∧
      m.finalReshape = .subspace 1 3 [nextPow2 H * nextPow2 d] [H * d] := by
  refine ⟨_, rfl, rfl, rfl, ?_⟩
  show Reshape.subspace 1 3 [nextPow2 (nextPow2 d * nextPow2 H)] [H * d] = _
  obtain ⟨a, ha⟩ : ∃ a, nextPow2 H = 2 ^ a := ⟨_, rfl⟩
  obtain ⟨b, hb⟩ : ∃ b, nextPow2 d = 2 ^ b := ⟨_, rfl⟩
  rw [ha, hb, ← pow_add, nextPow2_pow, add_comm, pow_add]

/-- The sum over the rows of a matrix padded around the heads. -/
theorem sum_heads {α : Type} [CommSemiring α] (H d H' d' N : ℕ) (hd' : 0 < d') (hH : H ≤ H') (hd : d ≤ d') (hN : H' * d' ≤ N) (f : ℕ → ℕ → α) :
    ∑ row ∈ Finset.range N, (if row % d' < d ∧ row / d' < H then f (row / d') (row % d') else 0) = ∑ h ∈ Finset.range H, ∑ c ∈ Finset.range d, f h c := by
  have hle : H * d' ≤ N := le_trans (Nat.mul_le_mul_right _ hH) hN
  rw [← Finset.sum_subset (Finset.range_mono hle)]
  · rw [sum_range_mul']
    refine Finset.sum_congr rfl fun h hh => ?_
    have hh := Finset.mem_range.1 hh
    rw [← Finset.sum_subset (Finset.range_mono hd)]
    · refine Finset.sum_congr rfl fun c hc => ?_
      have hc := Finset.mem_range.1 hc
      rw [mul_add_div' (by omega), mul_add_mod' (by omega), if_pos ⟨hc, hh⟩]
    · intro c hc hn
      have hc := Finset.mem_range.1 hc
      rw [mul_add_div' hc, mul_add_mod' hc, if_neg]
      intro h; exact hn (Finset.mem_range.2 h.1)
  · intro x _ hn
    rw [if_neg]
    rintro ⟨_, h⟩
    exact hn (Finset.mem_range.2 ((Nat.div_lt_iff_lt_mul hd').1 h))

/-- The entries of the matrix padded around the heads. -/
theorem padMhaMatrix_spec {α : Type} [CommSemiring α] (H d H' d' n n' r cols tc : ℕ) (w : List α) (hw : w.length = H * d * cols) (htc : 0 < tc) :
    ∃ data, padMhaMatrix ⟨[H * d, cols], w⟩ [n, H, d] [n', H', d'] [r, tc] = some ⟨[max r (H' * d'), tc], data⟩ ∧ data.length = max r (H' * d') * tc ∧
      ∀ row col, row < max r (H' * d') → col < tc →
        data.getD (row * tc + col) 0 = if row % d' < d ∧ row / d' < H then (if col < cols then w.getD ((row / d' * d + row % d') * cols + col) 0 else 0) else 0 := by
  have hm : (List.range (max r (H' * d') * tc)).mapM (fun i =>
      if i / tc % d' < d ∧ i / tc / d' < H ∧ i % tc < cols then w[(i / tc / d' * d + i / tc % d') * cols + i % tc]? else some 0) =
      some ((List.range (max r (H' * d') * tc)).map fun i =>
        if i / tc % d' < d ∧ i / tc / d' < H then (if i % tc < cols then w.getD ((i / tc / d' * d + i / tc % d') * cols + i % tc) 0 else 0) else 0) := by
    apply mapM_some'
    intro i _
    by_cases h : i / tc % d' < d ∧ i / tc / d' < H
    · by_cases h' : i % tc < cols
      · rw [if_pos ⟨h.1, h.2, h'⟩, if_pos h, if_pos h']
        have hlt : (i / tc / d' * d + i / tc % d') * cols + i % tc < w.length := by
          rw [hw]
          have h1 : i / tc / d' * d + i / tc % d' < H * d := by
            calc _ < i / tc / d' * d + d := by omega
              _ = (i / tc / d' + 1) * d := by ring
              _ ≤ H * d := Nat.mul_le_mul_right _ h.2
          calc _ < (i / tc / d' * d + i / tc % d') * cols + cols := by omega
            _ = (i / tc / d' * d + i / tc % d' + 1) * cols := by ring
            _ ≤ _ := Nat.mul_le_mul_right _ h1
        rw [List.getD_eq_getElem _ _ hlt, List.getElem?_eq_getElem hlt]
      · rw [if_neg (fun x => h' x.2.2), if_pos h, if_neg h']
    · rw [if_neg (fun x => h ⟨x.1, x.2.1⟩), if_neg h]
  refine ⟨(List.range (max r (H' * d') * tc)).map fun i =>
        if i / tc % d' < d ∧ i / tc / d' < H then (if i % tc < cols then w.getD ((i / tc / d' * d + i / tc % d') * cols + i % tc) 0 else 0) else 0, ?_, ?_, ?_⟩
  · unfold padMhaMatrix
    simp only [Option.bind_eq_bind]
    rw [hm]
    rfl
  · simp
  · intro row col hr hc
    have hlt : row * tc + col < max r (H' * d') * tc := by
      calc _ < row * tc + tc := by omega
        _ = (row + 1) * tc := by ring
        _ ≤ _ := Nat.mul_le_mul_right _ hr
    rw [List.getD_eq_getElem _ _ (by simpa using hlt), List.getElem_map, List.getElem_range, mul_add_div' hc, mul_add_mod' hc]

end Lemmas
