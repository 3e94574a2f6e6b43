import Verif.Model.Attention
import Verif.Spec.Mle
import Verif.Spec.Attention
import Verif.Lemmas.Tables
import Verif.Lemmas.Layers
import Verif.Lemmas.TensorPad
import Verif.Lemmas.TensorOps

/-!
Facts about attention masks and the quantised softmax.
-/

namespace Lemmas
open Spec Model

theorem triRow_eq {α : Type} (dim : ℕ) (diag : ℤ) (l u : α) (i : ℕ) :
    triRow dim diag l u i = (List.range dim).map fun j : ℕ => if (j : ℤ) ≤ i + diag then l else u := by
  unfold triRow
  split
  · rename_i h
    apply List.ext_getElem (by simp)
    intro j h1 h2
    rw [List.getElem_replicate, List.getElem_map, List.getElem_range, if_neg (by omega)]
  · rename_i h
    apply List.ext_getElem (by simp)
    intro j h1 h2
    rw [List.getElem_take, List.getElem_map, List.getElem_range, List.getElem_append]
    simp only [List.length_replicate, List.getElem_replicate]
    by_cases hj : (j : ℤ) ≤ i + diag
    · rw [dif_pos (by omega), if_pos hj]
    · rw [dif_neg (by omega), if_neg hj]

theorem flatMap_range_map {α : Type} (m n : ℕ) (f : ℕ → ℕ → α) :
    ((List.range m).flatMap fun i => (List.range n).map (f i)) = (List.range (m * n)).map fun k => f (k / n) (k % n) := by
  induction m with
  | zero => simp
  | succ m ih =>
    rw [List.range_succ, List.flatMap_append, ih, Nat.succ_mul, List.range_add, List.map_append]
    simp only [List.flatMap_cons, List.flatMap_nil, List.append_nil, List.map_map]
    congr 1
    apply List.map_congr_left
    intro j hj
    have hj := List.mem_range.1 hj
    simp only [Function.comp_apply]
    rw [mul_add_div' hj, mul_add_mod' hj]

theorem tri_data {α : Type} (dim num : ℕ) (diag : ℤ) (l u : α) :
    (tri dim num diag l u).data = (List.range (num * dim * dim)).map fun k => if ((k % dim : ℕ) : ℤ) ≤ ((k / dim % dim : ℕ) : ℤ) + diag then l else u := by
  unfold tri
  dsimp only
  rcases Nat.eq_zero_or_pos dim with rfl | hd
  · simp
  rw [show triRow dim diag l u = fun i : ℕ => (List.range dim).map fun j : ℕ => if (j : ℤ) ≤ i + diag then l else u from funext fun i : ℕ => triRow_eq dim diag l u i,
    flatMap_range_map dim dim fun i j : ℕ => if (j : ℤ) ≤ i + diag then l else u]
  conv_rhs => rw [← List.filterMap_eq_map]
  apply List.filterMap_congr
  intro k _
  have hlt : k % (dim * dim) < dim * dim := Nat.mod_lt _ (Nat.mul_pos hd hd)
  rw [List.length_map, List.length_range, List.getElem?_map, List.getElem?_range hlt]
  simp only [Option.map_some, Function.comp_apply]
  rw [Nat.mod_mul_right_mod, Nat.mod_mul_right_div_self]

theorem row_major_3 {dim num h i j : ℕ} (hh : h < num) (hi : i < dim) (hj : j < dim) :
    (h * dim + i) * dim + j < num * dim * dim ∧ ((h * dim + i) * dim + j) % dim = j ∧ ((h * dim + i) * dim + j) / dim % dim = i := by
  refine ⟨?_, mul_add_mod' hj, ?_⟩
  · calc (h * dim + i) * dim + j < (h * dim + i + 1) * dim := by rw [Nat.add_mul (h * dim + i)]; omega
      _ ≤ num * dim * dim := by
        apply Nat.mul_le_mul_right
        calc h * dim + i + 1 ≤ (h + 1) * dim := by rw [Nat.add_mul]; omega
          _ ≤ num * dim := Nat.mul_le_mul_right _ hh
  · rw [mul_add_div' hj, mul_add_mod' hi]

theorem tri_length {α : Type} (dim num : ℕ) (diag : ℤ) (l u : α) : (tri dim num diag l u).data.length = num * dim * dim := by
  rw [tri_data]; simp

theorem tri_entry {α : Type} (dim num : ℕ) (diag : ℤ) (l u : α) {h i j : ℕ} (hh : h < num) (hi : i < dim) (hj : j < dim) :
    (tri dim num diag l u).data[(h * dim + i) * dim + j]? = some (if (j : ℤ) ≤ (i : ℤ) + diag then l else u) := by
  obtain ⟨h1, h2, h3⟩ := row_major_3 hh hi hj
  rw [tri_data, List.getElem?_map, List.getElem?_range h1]
  simp only [Option.map_some, h2, h3]

/-- The sum defining the extension of a lower triangular matrix. -/
theorem evalZeroifier_sum {F : Type} [Field F] : ∀ (k : ℕ) (col row : List F), col.length = k → row.length = k →
    evalZeroifier col row = ∑ i ∈ Finset.range (2 ^ k), ∑ j ∈ Finset.range (2 ^ k), (if j ≤ i then 1 else 0) * chi col j * chi row i := by
  intro k
  induction k with
  | zero =>
    intro col row hc hr
    rw [List.length_eq_zero_iff] at hc hr
    subst hc hr
    simp only [evalZeroifier, List.zip_nil_left, List.foldl_nil, pow_zero, Finset.range_one, Finset.sum_singleton, chi_nil, le_refl, if_true, mul_one]
  | succ k ih =>
    intro col row hc hr
    obtain ⟨col, c, rfl⟩ : ∃ init x, col = init ++ [x] := by
      have : col ≠ [] := by intro h; subst h; simp at hc
      exact ⟨col.dropLast, col.getLast this, (List.dropLast_append_getLast this).symm⟩
    obtain ⟨row, r, rfl⟩ : ∃ init x, row = init ++ [x] := by
      have : row ≠ [] := by intro h; subst h; simp at hr
      exact ⟨row.dropLast, row.getLast this, (List.dropLast_append_getLast this).symm⟩
    have hc' : col.length = k := by simpa using hc
    have hr' : row.length = k := by simpa using hr
    have hz : evalZeroifier (col ++ [c]) (row ++ [r]) = evalZeroifier col row * (1 - c - r + 2 * c * r) + (1 - c) * r := by
      unfold evalZeroifier
      rw [List.zip_append (by omega), List.foldl_append]
      simp
    have hpow : 2 ^ (k + 1) = 2 ^ k + 2 ^ k := by rw [pow_succ]; ring
    rw [hz, hpow, Finset.sum_range_add]
    have hin : ∀ (i : ℕ), i < 2 ^ k → ∀ x : F, (∑ j ∈ Finset.range (2 ^ k + 2 ^ k), (if j ≤ i then 1 else 0) * chi (col ++ [c]) j * x) =
        (∑ j ∈ Finset.range (2 ^ k), (if j ≤ i then 1 else 0) * chi col j * x) * (1 - c) := by
      intro i hi x
      rw [Finset.sum_range_add]
      have : ∑ j ∈ Finset.range (2 ^ k), (if 2 ^ k + j ≤ i then (1 : F) else 0) * chi (col ++ [c]) (2 ^ k + j) * x = 0 := by
        apply Finset.sum_eq_zero
        intro j _
        rw [if_neg (by omega)]
        ring
      rw [this, add_zero, Finset.sum_mul]
      apply Finset.sum_congr rfl
      intro j hj
      rw [(chi_snoc col c j (by rw [hc']; exact Finset.mem_range.1 hj)).1]
      ring
    have hin2 : ∀ (i : ℕ), i < 2 ^ k → ∀ x : F, (∑ j ∈ Finset.range (2 ^ k + 2 ^ k), (if j ≤ 2 ^ k + i then 1 else 0) * chi (col ++ [c]) j * x) =
        (1 - c) * x + (∑ j ∈ Finset.range (2 ^ k), (if j ≤ i then 1 else 0) * chi col j * x) * c := by
      intro i hi x
      rw [Finset.sum_range_add]
      congr 1
      · have hs := sum_chi (F := F) col
        rw [hc'] at hs
        calc _ = ∑ j ∈ Finset.range (2 ^ k), chi col j * ((1 - c) * x) := by
              apply Finset.sum_congr rfl
              intro j hj
              have hj := Finset.mem_range.1 hj
              rw [if_pos (by omega), (chi_snoc col c j (by rw [hc']; exact hj)).1]
              ring
          _ = _ := by rw [← Finset.sum_mul, hs, one_mul]
      · rw [Finset.sum_mul]
        apply Finset.sum_congr rfl
        intro j hj
        have h2 := (chi_snoc col c j (by rw [hc']; exact Finset.mem_range.1 hj)).2
        rw [hc'] at h2
        rw [h2]
        simp only [Nat.add_le_add_iff_left]
        ring
    have hsum := ih col row hc' hr'
    have hs := sum_chi (F := F) row
    rw [hr'] at hs
    have h1 : ∑ i ∈ Finset.range (2 ^ k), ∑ j ∈ Finset.range (2 ^ k + 2 ^ k), (if j ≤ i then 1 else 0) * chi (col ++ [c]) j * chi (row ++ [r]) i =
        evalZeroifier col row * ((1 - c) * (1 - r)) := by
      rw [hsum, Finset.sum_mul]
      apply Finset.sum_congr rfl
      intro i hi
      rw [hin i (Finset.mem_range.1 hi), (chi_snoc row r i (by rw [hr']; exact Finset.mem_range.1 hi)).1, Finset.sum_mul, Finset.sum_mul]
      apply Finset.sum_congr rfl
      intro j _
      ring
    have h2 : ∑ i ∈ Finset.range (2 ^ k), ∑ j ∈ Finset.range (2 ^ k + 2 ^ k), (if j ≤ 2 ^ k + i then 1 else 0) * chi (col ++ [c]) j * chi (row ++ [r]) (2 ^ k + i) =
        (1 - c) * r + evalZeroifier col row * (c * r) := by
      calc _ = ∑ i ∈ Finset.range (2 ^ k), (chi row i * ((1 - c) * r) + (∑ j ∈ Finset.range (2 ^ k), (if j ≤ i then 1 else 0) * chi col j * chi row i) * (c * r)) := by
            apply Finset.sum_congr rfl
            intro i hi
            have hx := (chi_snoc row r i (by rw [hr']; exact Finset.mem_range.1 hi)).2
            rw [hr'] at hx
            rw [hin2 i (Finset.mem_range.1 hi), hx, Finset.sum_mul, Finset.sum_mul]
            congr 1
            · ring
            · apply Finset.sum_congr rfl
              intro j _
              ring
        _ = _ := by rw [Finset.sum_add_distrib, ← Finset.sum_mul, hs, one_mul, ← Finset.sum_mul, hsum]
    rw [h1, h2]
    ring

/-- The extension of a batch of triangular matrices. -/
theorem mle_tri {F : Type} [Field F] (k a : ℕ) (l u : F) (col row head : List F) (hc : col.length = k) (hr : row.length = k) (ha : head.length = a) :
    mle (tri (2 ^ k) (2 ^ a) 0 l u).data (col ++ row ++ head) = u + (l - u) * evalZeroifier col row := by
  rw [mle_append_sum, List.length_append, ha, hc, hr]
  have hinner : ∀ h, h < 2 ^ a → (∑ j ∈ Finset.range (2 ^ (k + k)), (tri (2 ^ k) (2 ^ a) 0 l u).data.getD (h * 2 ^ (k + k) + j) 0 * chi (col ++ row) j) =
      u + (l - u) * evalZeroifier col row := by
    intro h hh
    rw [pow_add, sum_range_mul, evalZeroifier_sum k col row hc hr, Finset.mul_sum]
    have hsr := sum_chi (F := F) row
    have hsc := sum_chi (F := F) col
    rw [hr] at hsr
    rw [hc] at hsc
    have hu : u = ∑ i ∈ Finset.range (2 ^ k), ∑ j ∈ Finset.range (2 ^ k), u * chi col j * chi row i := by
      calc u = ∑ i ∈ Finset.range (2 ^ k), u * chi row i := by rw [← Finset.mul_sum, hsr, mul_one]
        _ = _ := by
          apply Finset.sum_congr rfl
          intro i _
          rw [← Finset.sum_mul, ← Finset.mul_sum, hsc, mul_one]
    refine Eq.trans ?_ (congrArg (· + _) hu.symm)
    beta_reduce
    rw [← Finset.sum_add_distrib]
    apply Finset.sum_congr rfl
    intro i hi
    rw [Finset.mul_sum, ← Finset.sum_add_distrib]
    apply Finset.sum_congr rfl
    intro j hj
    have hi := Finset.mem_range.1 hi
    have hj := Finset.mem_range.1 hj
    have e1 : h * (2 ^ k * 2 ^ k) + (i * 2 ^ k + j) = (h * 2 ^ k + i) * 2 ^ k + j := by ring
    have e2 : chi (col ++ row) (i * 2 ^ k + j) = chi col j * chi row i := by
      rw [chi_append, hc, mul_add_div' hj]
      congr 1
      have := chi_add_mul col j i
      rw [hc] at this
      rw [← this]
      congr 1
      ring
    rw [e1, e2, List.getD_eq_getElem?_getD, tri_entry _ _ _ _ _ hh hi hj, Option.getD_some]
    by_cases hji : j ≤ i
    · rw [if_pos (by omega), if_pos hji]; ring
    · rw [if_neg (by omega), if_neg hji]; ring
  have hs := sum_chi (F := F) head
  rw [ha] at hs
  calc _ = ∑ i ∈ Finset.range (2 ^ a), (u + (l - u) * evalZeroifier col row) * chi head i := by
        apply Finset.sum_congr rfl
        intro h hh
        rw [hinner h (Finset.mem_range.1 hh)]
    _ = _ := by rw [← Finset.mul_sum, hs, mul_one]

end Lemmas

namespace Lemmas
open Spec Model

theorem take_drop_getD (n : ℕ) (data : List ℤ) (r c : ℕ) (hr : n * r + c ≤ data.length) :
    ((data.drop (n * r)).take c) = (List.range c).map fun j => data.getD (r * n + j) 0 := by
  apply List.ext_getElem
  · simp; omega
  · intro j h1 h2
    have hj : j < c := by simpa using h2
    rw [List.getElem_take, List.getElem_drop, List.getElem_map, List.getElem_range, List.getD_eq_getElem _ _ (by rw [mul_comm]; omega)]
    congr 1
    ring

theorem visible_ne (n : ℕ) (data : List ℤ) (h i : ℕ) : visible n data h i ≠ [] := by
  intro hh
  have := congrArg List.length hh
  simp [visible] at this

theorem rowShift_spec (q : QuantSoftmax) (H n : ℕ) (data : List ℤ) (hd : data.length = H * n * n) {h i : ℕ} (hh : h < H) (hi : i < n) :
    ∃ s, q.rowShift n (h * n + i) ((data.drop (n * (h * n + i))).take n) = some s ∧ IsShift q.scalar q.logSum (visible n data h i) s := by
  have hlt := (row_major_3 hh hi (show n - 1 < n by omega)).1
  have hrow : n * (h * n + i) + n ≤ data.length := by rw [hd, mul_comm n]; omega
  have hrow' : n * (h * n + i) + (i + 1) ≤ data.length := by omega
  have htake : ((data.drop (n * (h * n + i))).take n).take (i + 1) = visible n data h i := by
    rw [List.take_take, Nat.min_eq_left (by omega), take_drop_getD n data _ _ hrow']
    rfl
  unfold QuantSoftmax.rowShift
  rw [mul_add_mod' hi]
  by_cases hi0 : i = 0
  · subst hi0
    rw [if_pos rfl]
    have : ((data.drop (n * (h * n + 0))).take n)[0]? = some (data.getD ((h * n + 0) * n + 0) 0) := by
      rw [take_drop_getD n data _ _ hrow]
      simp [hi]
    rw [this]
    refine ⟨_, rfl, Or.inl ⟨data.getD ((h * n + 0) * n + 0) 0, by simp [visible], by simp⟩⟩
  · rw [if_neg hi0, htake]
    obtain ⟨m, hm⟩ : ∃ m, (visible n data h i).max? = some m := by
      cases hx : (visible n data h i).max? with
      | none => exact absurd (List.max?_eq_none_iff.1 hx) (visible_ne n data h i)
      | some m => exact ⟨m, rfl⟩
    rw [hm]
    have := List.max?_eq_some_iff.1 hm
    exact ⟨_, rfl, Or.inr ⟨by simp [visible]; omega, m, this.1, this.2, rfl⟩⟩

theorem shifts_spec (q : QuantSoftmax) (H n : ℕ) (hn : 0 < n) (data : List ℤ) (hd : data.length = H * n * n) :
    ∃ sh : ℕ → ℤ, q.shifts n n data = some ((List.range (H * n)).map sh) ∧ ∀ h i, h < H → i < n → IsShift q.scalar q.logSum (visible n data h i) (sh (h * n + i)) := by
  have hrow : ∀ r, r < H * n → ∃ s, q.rowShift n r ((data.drop (n * r)).take n) = some s ∧ IsShift q.scalar q.logSum (visible n data (r / n) (r % n)) s := by
    intro r hr
    have h1 : r / n < H := Nat.div_lt_of_lt_mul (by rw [mul_comm]; exact hr)
    have h2 := Nat.mod_lt r hn
    obtain ⟨s, a, b⟩ := rowShift_spec q H n data hd h1 h2
    rw [Nat.div_add_mod' r n] at a
    exact ⟨s, a, b⟩
  refine ⟨fun r => if hr : r < H * n then (hrow r hr).choose else 0, ?_, ?_⟩
  · unfold QuantSoftmax.shifts
    rw [chunks_eq n (H * n) hn data (by rw [hd]; ring)]
    have hz : (((List.range (H * n)).map fun i => (data.drop (n * i)).take n).zipIdx) = (List.range (H * n)).map fun i => ((data.drop (n * i)).take n, i) := by
      apply List.ext_getElem (by simp)
      intro i h1 h2
      simp
    rw [hz, List.mapM_map]
    apply mapM_some'
    intro r hr
    have hr := List.mem_range.1 hr
    simp only [Function.comp_apply, dif_pos hr]
    exact (hrow r hr).choose_spec.1
  · intro h i hh hi
    have hr : h * n + i < H * n := by
      calc h * n + i < (h + 1) * n := by rw [Nat.add_mul]; omega
        _ ≤ H * n := Nat.mul_le_mul_right _ hh
    simp only [dif_pos hr]
    have := (hrow _ hr).choose_spec.2
    have e : visible n data ((h * n + i) / n) ((h * n + i) % n) = visible n data h i := by rw [mul_add_div' hi, mul_add_mod' hi]
    exact e ▸ this

theorem shifted_spec (q : QuantSoftmax) (H n : ℕ) (hn : 0 < n) (data : List ℤ) (hd : data.length = H * n * n) (sh : ℕ → ℤ) :
    q.shifted n data ((List.range (H * n)).map sh) = (List.range (H * n * n)).map fun k => data.getD k 0 * q.scalar + sh (k / n) := by
  unfold QuantSoftmax.shifted
  rw [chunks_eq n (H * n) hn data (by rw [hd]; ring)]
  have hz : ((List.range (H * n)).map fun i => (data.drop (n * i)).take n).zip ((List.range (H * n)).map sh) = (List.range (H * n)).map fun i => ((data.drop (n * i)).take n, sh i) := by
    apply List.ext_getElem (by simp)
    intro i h1 h2
    simp
  rw [hz, List.flatMap_map]
  have : ∀ r ∈ List.range (H * n), ((data.drop (n * r)).take n).map (fun e => e * q.scalar + sh r) = (List.range n).map fun j => data.getD (r * n + j) 0 * q.scalar + sh r := by
    intro r hr
    have hr := List.mem_range.1 hr
    have : n * r + n ≤ data.length := by
      rw [hd]
      calc n * r + n = (r + 1) * n := by ring
        _ ≤ H * n * n := Nat.mul_le_mul_right _ hr
    rw [take_drop_getD n data r n this, List.map_map]
    rfl
  rw [List.flatMap_congr this, flatMap_range_map (H * n) n fun r j => data.getD (r * n + j) 0 * q.scalar + sh r]
  apply List.map_congr_left
  intro k _
  rw [Nat.div_add_mod']

/-- The whole evaluation, before the table is read. -/
theorem softmax_evaluate_spec (q : QuantSoftmax) (H n : ℕ) (hn : 0 < n) (shape : List ℕ) (hs : shape = [H, n, n] ∨ shape = [n, n] ∧ H = 1) (data : List ℤ) (hd : data.length = H * n * n)
    (tv : ℕ) (htv : q.tableVars = some tv) :
    ∃ run sh, q.evaluate ⟨shape, data⟩ = some run ∧ run.output.shape = shape ∧ run.output.data.length = H * n * n ∧ run.shift = (List.range (H * n)).map sh ∧
      run.entries = run.masked.map (q.entry tv) ∧ run.output.data = run.entries.map SoftmaxEntry.out ∧
      (∀ h i, h < H → i < n → IsShift q.scalar q.logSum (visible n data h i) (sh (h * n + i))) ∧
      ∀ h i j, h < H → i < n → j < n → run.shifted[(h * n + i) * n + j]? = some (data.getD ((h * n + i) * n + j) 0 * q.scalar + sh (h * n + i)) ∧
        run.masked[(h * n + i) * n + j]? = some (if j ≤ i then data.getD ((h * n + i) * n + j) 0 * q.scalar + sh (h * n + i) else q.ninf) := by
  obtain ⟨sh, h1, h2⟩ := shifts_spec q H n hn data hd
  have h3 := shifted_spec q H n hn data hd sh
  obtain ⟨shd, hshd⟩ : ∃ x, x = q.shifted n data ((List.range (H * n)).map sh) := ⟨_, rfl⟩
  have hlen : shd.length = H * n * n := by rw [hshd, h3]; simp
  have hent : ∀ h i j, h < H → i < n → j < n → shd[(h * n + i) * n + j]? = some (data.getD ((h * n + i) * n + j) 0 * q.scalar + sh (h * n + i)) := by
    intro h i j hh hi hj
    rw [hshd, h3, List.getElem?_map, List.getElem?_range (row_major_3 hh hi hj).1, Option.map_some, mul_add_div' hj]
  have hmask : ∃ m out, AttentionMask.new shape q.ninf = some m ∧ m.apply ⟨shape, shd⟩ = some ⟨shape, out⟩ ∧ out = maskData shd (Model.tril n H 0 : Tensor ℤ).data (tri n H 0 0 q.ninf).data := by
    refine ⟨⟨Model.tril n H 0, tri n H 0 0 q.ninf, q.ninf⟩, _, ?_, ?_, rfl⟩
    · rcases hs with rfl | ⟨rfl, rfl⟩ <;> simp [AttentionMask.new]
    · rcases hs with rfl | ⟨rfl, rfl⟩ <;> simp [AttentionMask.apply, Model.tril, tri]
  obtain ⟨m, out, hm1, hm2, hm3⟩ := hmask
  have hout : out.length = H * n * n := by rw [hm3]; simp [maskData, Model.tril, tri_length, hlen]
  have hlast : shape.getLast? = some n := by rcases hs with rfl | ⟨rfl, rfl⟩ <;> rfl
  have hsec : shape.dropLast.getLast? = some n := by rcases hs with rfl | ⟨rfl, rfl⟩ <;> rfl
  refine ⟨⟨(List.range (H * n)).map sh, shd, out, out.map (q.entry tv), ⟨shape, (out.map (q.entry tv)).map SoftmaxEntry.out⟩⟩, sh, ?_, rfl, by simp [hout], rfl, rfl, rfl, h2, ?_⟩
  · unfold QuantSoftmax.evaluate
    simp only [hlast, hsec, Option.bind_eq_bind, Option.bind_some, if_pos hn, h1, hm1, ← hshd, hm2, htv]
  · intro h i j hh hi hj
    refine ⟨hent h i j hh hi hj, ?_⟩
    dsimp only
    rw [hm3, maskData, List.getElem?_zipWith, List.getElem?_zipWith, Model.tril, tri_entry _ _ _ _ _ hh hi hj, tri_entry _ _ _ _ _ hh hi hj, hent h i j hh hi hj]
    by_cases hji : j ≤ i
    · simp [hji]
    · simp [hji]

/-- Splitting into digits. -/
theorem digits_zero_iff (b : ℕ) (hb : 0 < b) : ∀ (K r : ℕ), r < b ^ K → ((∀ k < K, r / b ^ k % b = 0) ↔ r = 0) := by
  intro K
  induction K with
  | zero => intro r hr; simp at hr; simp [hr]
  | succ K ih =>
    intro r hr
    constructor
    · intro h
      have h0 := h 0 (by omega)
      rw [pow_zero, Nat.div_one] at h0
      have : r / b = 0 := by
        apply (ih (r / b) (Nat.div_lt_of_lt_mul (by rw [← pow_succ']; exact hr))).1
        intro k hk
        have := h (k + 1) (by omega)
        rwa [pow_succ', ← Nat.div_div_eq_div_mul] at this
      have e := Nat.div_add_mod r b
      rw [this, h0] at e
      simpa using e.symm
    · rintro rfl k _
      simp

theorem zeroOut_fold (l : List ℕ) (x : ℤ) : (l.map fun c => if c ≠ 0 then (0 : ℤ) else 1).foldl (· * ·) x = if ∀ c ∈ l, c = 0 then x else 0 := by
  induction l generalizing x with
  | nil => simp
  | cons a as ih =>
    rw [List.map_cons, List.foldl_cons, ih]
    by_cases ha : a = 0
    · simp [ha]
    · simp [ha]

theorem entry_out (q : QuantSoftmax) (tv : ℕ) (x : ℤ) (hcap : x.natAbs < 2 ^ (16 + tv + q.zeroChunks * q.zeroVars)) :
    (q.entry tv x).out = if x.natAbs / 2 ^ 16 < 2 ^ tv then q.table ((x.natAbs / 2 ^ 16 : ℕ) : ℤ) else 0 := by
  unfold QuantSoftmax.entry
  dsimp only
  rw [zeroOut_fold]
  have hr : x.natAbs / 2 ^ 16 / 2 ^ tv < (2 ^ q.zeroVars) ^ q.zeroChunks := by
    rw [Nat.div_div_eq_div_mul, ← pow_add, ← pow_mul, mul_comm q.zeroVars]
    apply Nat.div_lt_of_lt_mul
    rw [← pow_add]
    exact hcap
  have hz := digits_zero_iff (2 ^ q.zeroVars) (by positivity) q.zeroChunks _ hr
  have hiff : (∀ c ∈ (List.range q.zeroChunks).map fun k => x.natAbs / 2 ^ 16 / 2 ^ tv / (2 ^ q.zeroVars) ^ k % 2 ^ q.zeroVars, c = 0) ↔ x.natAbs / 2 ^ 16 < 2 ^ tv := by
    rw [← Nat.div_eq_zero_iff_lt (by positivity), ← hz]
    simp
  by_cases hlt : x.natAbs / 2 ^ 16 < 2 ^ tv
  · rw [if_pos (hiff.2 hlt), if_pos hlt, Nat.mod_eq_of_lt hlt]
  · rw [if_neg (fun h => hlt (hiff.1 h)), if_neg hlt]

end Lemmas
