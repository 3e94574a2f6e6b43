import Verif.Lemmas.Attention
import Verif.Spec.Mle
import Verif.Lemmas.Slices
import Mathlib.Data.Int.Cast.Lemmas
import Mathlib.Data.Rat.Defs
import Mathlib.Algebra.Field.Rat

/-!
C78: the attention mask.
-/

namespace Props
open Spec Model Lemmas

/-- C78: a mask exists exactly for two or three dimensions, the last two of which are equal. -/
theorem C78_mask_shapes {α : Type} [CommRing α] (shape : List ℕ) (ninf : α) :
    (∃ m, AttentionMask.new shape ninf = some m) ↔ (∃ n, shape = [n, n]) ∨ ∃ H n, shape = [H, n, n] := by
  constructor
  · rintro ⟨m, h⟩
    unfold AttentionMask.new at h
    split at h
    · split at h
      · rename_i a b hab
        exact Or.inl ⟨b, by rw [hab]⟩
      · simp at h
    · split at h
      · rename_i H a b hab
        exact Or.inr ⟨H, b, by rw [hab]⟩
      · simp at h
    · simp at h
  · rintro (⟨n, rfl⟩ | ⟨H, n, rfl⟩)
    · exact ⟨⟨Model.tril n 1 0, tri n 1 0 0 ninf, ninf⟩, by simp [AttentionMask.new]⟩
    · exact ⟨⟨Model.tril n H 0, tri n H 0 0 ninf, ninf⟩, by simp [AttentionMask.new]⟩

/-- One entry after masking. -/
theorem maskData_entry {α : Type} [CommRing α] (H n : ℕ) (ninf : α) (data : List α) (hd : data.length = H * n * n) :
    (maskData data (Model.tril n H 0 : Tensor α).data (tri n H 0 0 ninf).data).length = H * n * n ∧
      ∀ h i j, h < H → i < n → j < n → (maskData data (Model.tril n H 0 : Tensor α).data (tri n H 0 0 ninf).data)[(h * n + i) * n + j]? =
        if j ≤ i then data[(h * n + i) * n + j]? else some ninf := by
  refine ⟨by simp [maskData, Model.tril, tri_length, hd], ?_⟩
  intro h i j hh hi hj
  have hlt := (row_major_3 hh hi hj).1
  rw [maskData, List.getElem?_zipWith, List.getElem?_zipWith, Model.tril, tri_entry _ _ _ _ _ hh hi hj, tri_entry _ _ _ _ _ hh hi hj, List.getElem?_eq_getElem (by rw [hd]; exact hlt)]
  by_cases hji : j ≤ i
  · simp [hji]
  · simp [hji]

/-- C78: applying the mask keeps, in every head, entry `(i, j)` for `j ≤ i` and puts the value for minus infinity in its place for `j > i`; the shape does not change. With two dimensions there is one head. -/
theorem C78_mask_apply {α : Type} [CommRing α] (H n : ℕ) (ninf : α) (shape : List ℕ) (hs : shape = [H, n, n] ∨ shape = [n, n] ∧ H = 1) (data : List α) (hd : data.length = H * n * n) :
    ∃ m out, AttentionMask.new shape ninf = some m ∧ m.apply ⟨shape, data⟩ = some ⟨shape, out⟩ ∧ out.length = H * n * n ∧
      ∀ h i j, h < H → i < n → j < n → out[(h * n + i) * n + j]? = if j ≤ i then data[(h * n + i) * n + j]? else some ninf := by
  obtain ⟨h1, h2⟩ := maskData_entry H n ninf data hd
  refine ⟨⟨Model.tril n H 0, tri n H 0 0 ninf, ninf⟩, _, ?_, ?_, h1, h2⟩
  · rcases hs with rfl | ⟨rfl, rfl⟩ <;> simp [AttentionMask.new]
  · rcases hs with rfl | ⟨rfl, rfl⟩ <;> simp [AttentionMask.apply, Model.tril, tri]

/-- C78: a mask with a different head count or size refuses the tensor. -/
theorem C78_mask_mismatch {α : Type} [CommRing α] (H n : ℕ) (ninf : α) (H' a b : ℕ) (hne : ¬(H' = H ∧ a = n ∧ b = n)) (data : List α) (m : AttentionMask α)
    (hm : AttentionMask.new [H, n, n] ninf = some m) : m.apply ⟨[H', a, b], data⟩ = none := by
  have hm' : m = ⟨Model.tril n H 0, tri n H 0 0 ninf, ninf⟩ := by
    simp [AttentionMask.new] at hm
    exact hm.symm
  subst hm'
  simp only [AttentionMask.apply, Model.tril, tri, List.zip_cons_cons, List.zip_nil_right, List.all_cons, List.all_nil, Bool.and_true, beq_iff_eq, Bool.and_eq_true]
  rw [if_neg hne]

/-- C78: padding a mask gives the mask of the padded shape, so that on the original positions it does the same. -/
theorem C78_mask_pad {α : Type} [CommRing α] (H n : ℕ) (ninf : α) (shape : List ℕ) (hs : shape = [H, n, n] ∨ shape = [n, n] ∧ H = 1) (hH : 0 < H) (hn : 0 < n) :
    (AttentionMask.new shape ninf).bind AttentionMask.pad = AttentionMask.new [nextPow2 H, nextPow2 n, nextPow2 n] ninf := by
  have hnew : AttentionMask.new shape ninf = some ⟨Model.tril n H 0, tri n H 0 0 ninf, ninf⟩ := by
    rcases hs with rfl | ⟨rfl, rfl⟩ <;> simp [AttentionMask.new]
  rw [hnew, Option.bind_some, AttentionMask.pad]
  simp only [Model.tril, tri, List.zip_cons_cons, List.zip_nil_right, List.all_cons, List.all_nil, Bool.and_true, beq_self_eq_true, if_true]
  split
  · rename_i h
    simp only [Bool.and_eq_true, beq_iff_eq] at h
    rw [h.1, h.2.1]
    simp [AttentionMask.new, Model.tril, tri]
  · simp [AttentionMask.new, Model.tril, tri]

/-- C78, inference on padded tensors: if a padded tensor agrees with the original one on the original positions, then so do the two results of masking, whatever the padding holds. -/
theorem C78_mask_padded_apply {α : Type} [CommRing α] (H n : ℕ) (ninf : α) (hH : 0 < H) (hn : 0 < n) (data : List α) (hd : data.length = H * n * n) (pdata : List α)
    (hp : pdata.length = nextPow2 H * nextPow2 n * nextPow2 n)
    (hsame : ∀ h i j, h < H → i < n → j < n → pdata[(h * nextPow2 n + i) * nextPow2 n + j]? = data[(h * n + i) * n + j]?) :
    ∃ m m' out out', AttentionMask.new [H, n, n] ninf = some m ∧ m.pad = some m' ∧ m.apply ⟨[H, n, n], data⟩ = some ⟨[H, n, n], out⟩ ∧
      m'.apply ⟨[nextPow2 H, nextPow2 n, nextPow2 n], pdata⟩ = some ⟨[nextPow2 H, nextPow2 n, nextPow2 n], out'⟩ ∧
      ∀ h i j, h < H → i < n → j < n → out'[(h * nextPow2 n + i) * nextPow2 n + j]? = out[(h * n + i) * n + j]? := by
  obtain ⟨m, out, h1, h2, _, h4⟩ := C78_mask_apply H n ninf [H, n, n] (Or.inl rfl) data hd
  obtain ⟨m', out', g1, g2, _, g4⟩ := C78_mask_apply (nextPow2 H) (nextPow2 n) ninf _ (Or.inl rfl) pdata hp
  have hpad := C78_mask_pad H n ninf [H, n, n] (Or.inl rfl) hH hn
  rw [h1, g1, Option.bind_some] at hpad
  refine ⟨m, m', out, out', h1, hpad, h2, g2, ?_⟩
  intro h i j hh hi hj
  have hle := le_nextPow2 n
  have hleH := le_nextPow2 H
  rw [h4 h i j hh hi hj, g4 h i j (by omega) (by omega) (by omega), hsame h i j hh hi hj]

/-- C78, verification: at every point the verifier's closed forms are the extensions of the mask of `2 ^ a` heads of size `2 ^ k`: of the factor that is `1` for `j ≤ i` and `0` above, and of the
summand that is `0` for `j ≤ i` and minus infinity above. Columns are the lowest coordinates, then rows, then heads; the heads' coordinates do not matter. -/
theorem C78_mask_eval {F : Type} [Field F] (k a : ℕ) (ninf : ℤ) (col row head : List F) (hc : col.length = k) (hr : row.length = k) (ha : head.length = a) :
    ∃ m : AttentionMask ℤ, AttentionMask.new [2 ^ a, 2 ^ k, 2 ^ k] ninf = some m ∧
      mle (m.tril.data.map fun x : ℤ => (x : F)) (col ++ row ++ head) = evalZeroifier col row ∧
      mle (m.bias.data.map fun x : ℤ => (x : F)) (col ++ row ++ head) = evalInfinitizer col row (ninf : F) := by
  have hmap : ∀ (dim num : ℕ) (l u : ℤ), ((tri dim num 0 l u).data.map fun x : ℤ => (x : F)) = (tri dim num 0 (l : F) (u : F)).data := by
    intro dim num l u
    rw [tri_data, tri_data, List.map_map]
    apply List.map_congr_left
    intro k _
    simp only [Function.comp_apply]
    split <;> rfl
  refine ⟨⟨Model.tril (2 ^ k) (2 ^ a) 0, tri (2 ^ k) (2 ^ a) 0 0 ninf, ninf⟩, by simp [AttentionMask.new], ?_, ?_⟩
  · rw [Model.tril, hmap, mle_tri k a _ _ col row head hc hr ha]
    simp
  · rw [hmap, mle_tri k a _ _ col row head hc hr ha, evalInfinitizer]
    push_cast
    ring

/-- C78: the two functions building masks agree: for square matrices `zeroifier` is the factor and `infinitizer` the summand of the mask. -/
theorem C78_zeroifier {α : Type} [CommRing α] (H n : ℕ) (ninf : α) : ∃ m, AttentionMask.new [H, n, n] ninf = some m ∧ m.tril = zeroifier H n n ∧ m.bias = infinitizer H n n ninf := by
  have key : ∀ l u : α, tri n H 0 l u = ⟨[H, n, n], (List.range H).flatMap fun _ => (List.range n).flatMap fun i => (List.range n).map fun e => if i < e then u else l⟩ := by
    intro l u
    have : (tri n H 0 l u).shape = [H, n, n] := rfl
    have h2 : (tri n H 0 l u).data = (List.range H).flatMap fun _ => (List.range n).flatMap fun i => (List.range n).map fun e => if i < e then u else l := by
      rw [tri_data, flatMap_range_map n n fun i e => if i < e then u else l, flatMap_range_map H (n * n) fun _ k => if k / n < k % n then u else l, mul_assoc]
      apply List.map_congr_left
      intro k _
      rw [Nat.mod_mul_right_mod, Nat.mod_mul_right_div_self]
      by_cases h : k / n % n < k % n
      · rw [if_pos h, if_neg (by omega)]
      · rw [if_neg h, if_pos (by omega)]
    rw [← h2]
    rfl
  exact ⟨⟨Model.tril n H 0, tri n H 0 0 ninf, ninf⟩, by simp [AttentionMask.new], key 1 0, key 0 ninf⟩

/-- Two heads of size three, masked. -/
example : ((AttentionMask.new [2, 3, 3] (-100 : ℤ)).bind fun m => m.apply ⟨[2, 3, 3], [1, 2, 3, 4, 5, 6, 7, 8, 9, 11, 12, 13, 14, 15, 16, 17, 18, 19]⟩) =
    some ⟨[2, 3, 3], [1, -100, -100, 4, 5, -100, 7, 8, 9, 11, -100, -100, 14, 15, -100, 17, 18, 19]⟩ := by decide +kernel

/-- A padded mask: three by three becomes four by four. -/
example : (((AttentionMask.new [3, 3] (-100 : ℤ)).bind AttentionMask.pad).bind fun m => m.apply ⟨[4, 4], [1, 2, 3, 0, 4, 5, 6, 0, 7, 8, 9, 0, 0, 0, 0, 0]⟩) =
    some ⟨[4, 4], [1, -100, -100, -100, 4, 5, -100, -100, 7, 8, 9, -100, 0, 0, 0, 0]⟩ := by decide +kernel

/-- The closed form at a point outside the cube. -/
example : evalZeroifier [(2 : ℚ), 3] [5, 7] = 283 ∧ evalInfinitizer [(2 : ℚ), 3] [5, 7] (-10) = 2820 := by
  norm_num [evalInfinitizer, evalZeroifier]

end Props
