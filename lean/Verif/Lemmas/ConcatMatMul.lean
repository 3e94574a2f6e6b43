import Verif.Spec.ConcatMatMul
import Verif.Model.ConcatMatMul
import Verif.Lemmas.Logits
import Verif.Lemmas.Basefold

/-!
Sums over stacks of matrices, for C76.
-/

namespace Lemmas
open Spec Model

theorem perm3_cases {x y z : ℕ} (h : [x, y, z].Perm [0, 1, 2]) :
    (x = 0 ∧ y = 1 ∧ z = 2) ∨ (x = 0 ∧ y = 2 ∧ z = 1) ∨ (x = 1 ∧ y = 0 ∧ z = 2) ∨ (x = 1 ∧ y = 2 ∧ z = 0) ∨ (x = 2 ∧ y = 0 ∧ z = 1) ∨ (x = 2 ∧ y = 1 ∧ z = 0) := by
  have hm : ∀ o ∈ [x, y, z], o < 3 := by
    intro o ho
    have := h.mem_iff.1 ho
    simp at this; omega
  have hn : [x, y, z].Nodup := h.nodup_iff.2 (by decide)
  have h0 := hm x (by simp)
  have h1 := hm y (by simp)
  have h2 := hm z (by simp)
  simp at hn
  omega

/-- The dimensions are those of a 3d tensor, in some order. -/
def _root_.Model.InputDims.Valid (d : InputDims) : Prop := [d.concat, d.matMul, d.output].Perm [0, 1, 2]

/-- The sizes of the three dimensions. -/
def Sizes (d : InputDims) (shape : List ℕ) (n k o : ℕ) : Prop :=
  shape.length = 3 ∧ shape.getD d.concat 0 = n ∧ shape.getD d.matMul 0 = k ∧ shape.getD d.output 0 = o

theorem entry3_swap {α : Type} [Zero α] (shape : List ℕ) (data : List α) (x y z : ℕ) (h : [x, y, z].Perm [0, 1, 2]) (i k j : ℕ) :
    entry3 shape data x y i k j = entry3 shape data x z i j k := by
  rcases perm3_cases h with ⟨rfl, rfl, rfl⟩ | ⟨rfl, rfl, rfl⟩ | ⟨rfl, rfl, rfl⟩ | ⟨rfl, rfl, rfl⟩ | ⟨rfl, rfl, rfl⟩ | ⟨rfl, rfl, rfl⟩ <;> simp [entry3]

theorem permute_entry {α : Type} [Zero α] (t : Tensor α) (s0 s1 s2 : ℕ) (hs : t.shape = [s0, s1, s2]) (hlen : t.data.length = s0 * s1 * s2) (x y z : ℕ)
    (h : [x, y, z].Perm [0, 1, 2]) :
    ∃ out, t.permute3d [x, y, z] = some ⟨[t.shape.getD x 0, t.shape.getD y 0, t.shape.getD z 0], out⟩ ∧ out.length = s0 * s1 * s2 ∧
      ∀ u v w, u < t.shape.getD x 0 → v < t.shape.getD y 0 → w < t.shape.getD z 0 →
        out.getD (flat [t.shape.getD x 0, t.shape.getD y 0, t.shape.getD z 0] [u, v, w]) 0 = entry3 t.shape t.data x y u v w := by
  obtain ⟨out, h1, h2, h3⟩ := permute_spec t s0 s1 s2 hs hlen x y z h
  refine ⟨out, by rw [h1, hs]; rfl, h2, ?_⟩
  rw [hs]
  rcases perm3_cases h with ⟨rfl, rfl, rfl⟩ | ⟨rfl, rfl, rfl⟩ | ⟨rfl, rfl, rfl⟩ | ⟨rfl, rfl, rfl⟩ | ⟨rfl, rfl, rfl⟩ | ⟨rfl, rfl, rfl⟩ <;> intro u v w hu hv hw
  · exact h3 u v w hu hv hw
  · exact h3 u w v hu hw hv
  · exact h3 v u w hv hu hw
  · exact h3 w u v hw hu hv
  · exact h3 v w u hv hw hu
  · exact h3 w v u hw hv hu

variable {F : Type} [Field F]

theorem mle3 (t p0 p1 p2 : List F) :
    mle t (p2 ++ (p1 ++ p0)) = ∑ x ∈ Finset.range (2 ^ p0.length), ∑ y ∈ Finset.range (2 ^ p1.length), ∑ z ∈ Finset.range (2 ^ p2.length),
      t.getD (flat [2 ^ p0.length, 2 ^ p1.length, 2 ^ p2.length] [x, y, z]) 0 * (chi p0 x * chi p1 y * chi p2 z) := by
  rw [mle_append_sum t p2 (p1 ++ p0), List.length_append, pow_add, mul_comm (2 ^ p1.length), sum_range_mul]
  apply Finset.sum_congr rfl
  intro x _
  apply Finset.sum_congr rfl
  intro y hy
  have hy' := Finset.mem_range.mp hy
  rw [Finset.sum_mul]
  apply Finset.sum_congr rfl
  intro z _
  have hchi : chi (p1 ++ p0) (x * 2 ^ p1.length + y) = chi p1 y * chi p0 x := by
    rw [chi_append, mul_add_div' hy', add_comm, mul_comm x, chi_add_mul]
  rw [hchi]
  have hf : flat [2 ^ p0.length, 2 ^ p1.length, 2 ^ p2.length] [x, y, z] = (x * 2 ^ p1.length + y) * 2 ^ p2.length + z := by
    simp [flat]; ring
  rw [hf]
  ring

theorem sum3_swap12 (A B C : ℕ) (g : ℕ → ℕ → ℕ → F) :
    ∑ x ∈ Finset.range A, ∑ y ∈ Finset.range B, ∑ z ∈ Finset.range C, g x y z = ∑ y ∈ Finset.range B, ∑ x ∈ Finset.range A, ∑ z ∈ Finset.range C, g x y z :=
  Finset.sum_comm

theorem sum3_swap23 (A B C : ℕ) (g : ℕ → ℕ → ℕ → F) :
    ∑ x ∈ Finset.range A, ∑ y ∈ Finset.range B, ∑ z ∈ Finset.range C, g x y z = ∑ x ∈ Finset.range A, ∑ z ∈ Finset.range C, ∑ y ∈ Finset.range B, g x y z :=
  Finset.sum_congr rfl fun _ _ => Finset.sum_comm

theorem shape_three (shape : List ℕ) (h : shape.length = 3) : shape = [shape.getD 0 0, shape.getD 1 0, shape.getD 2 0] := by
  match shape, h with
  | [a, b, c], _ => rfl

/-- The extension of a 3d tensor at a point assembled from the points of its dimensions. -/
theorem mle_buildPoint (d : InputDims) (hd : d.Valid) (shape : List ℕ) (data pc pm po : List F) (hs : Sizes d shape (2 ^ pc.length) (2 ^ pm.length) (2 ^ po.length)) :
    mle data (d.buildPoint pc pm po) = ∑ i ∈ Finset.range (2 ^ pc.length), ∑ k ∈ Finset.range (2 ^ pm.length), ∑ j ∈ Finset.range (2 ^ po.length),
      entry3 shape data d.concat d.matMul i k j * (chi pc i * chi pm k * chi po j) := by
  obtain ⟨cd, md, od⟩ := d
  obtain ⟨h3, hc, hm, ho⟩ := hs
  have hsh := shape_three shape h3
  unfold InputDims.Valid at hd
  simp only at hd hc hm ho ⊢
  rcases perm3_cases hd with ⟨rfl, rfl, rfl⟩ | ⟨rfl, rfl, rfl⟩ | ⟨rfl, rfl, rfl⟩ | ⟨rfl, rfl, rfl⟩ | ⟨rfl, rfl, rfl⟩ | ⟨rfl, rfl, rfl⟩ <;>
    rw [hc, hm, ho] at hsh <;> rw [hsh] <;>
    simp only [InputDims.buildPoint, List.flatMap_cons, List.flatMap_nil, List.append_nil, entry3, if_true, OfNat.ofNat_ne_zero, OfNat.zero_ne_ofNat, OfNat.ofNat_ne_one, OfNat.one_ne_ofNat, one_ne_zero, zero_ne_one, if_false] <;>
    rw [mle3]
  · rw [sum3_swap23]
    exact Finset.sum_congr rfl fun _ _ => Finset.sum_congr rfl fun _ _ => Finset.sum_congr rfl fun _ _ => by ring
  · rw [sum3_swap12]
    exact Finset.sum_congr rfl fun _ _ => Finset.sum_congr rfl fun _ _ => Finset.sum_congr rfl fun _ _ => by ring
  · rw [sum3_swap12, sum3_swap23]
    exact Finset.sum_congr rfl fun _ _ => Finset.sum_congr rfl fun _ _ => Finset.sum_congr rfl fun _ _ => by ring
  · rw [sum3_swap23, sum3_swap12]
    exact Finset.sum_congr rfl fun _ _ => Finset.sum_congr rfl fun _ _ => Finset.sum_congr rfl fun _ _ => by ring
  · rw [sum3_swap12, sum3_swap23, sum3_swap12]
    exact Finset.sum_congr rfl fun _ _ => Finset.sum_congr rfl fun _ _ => Finset.sum_congr rfl fun _ _ => by ring

theorem bitsPoint_append (k n i j : ℕ) (hj : j < 2 ^ k) : (bitsPoint (k + n) (i * 2 ^ k + j) : List F) = bitsPoint k j ++ bitsPoint n i := by
  unfold bitsPoint
  rw [List.range_add, List.map_append, List.map_map]
  congr 1
  · apply List.map_congr_left
    intro x hx
    have : (i * 2 ^ k + j).testBit x = j.testBit x := by
      rw [mul_comm, Nat.testBit_two_pow_mul_add _ hj, if_pos (List.mem_range.mp hx)]
    rw [this]
  · apply List.map_congr_left
    intro x _
    have : (i * 2 ^ k + j).testBit (k + x) = i.testBit x := by
      rw [mul_comm, Nat.testBit_two_pow_mul_add _ hj, if_neg (by omega), Nat.add_sub_cancel_left]
    simp only [Function.comp, this]

theorem cubeSum_split (k n : ℕ) (g : List F → List F → F) :
    cubeSum (k + n) (fun pt => g (pt.drop k) (pt.take k)) = ∑ i ∈ Finset.range (2 ^ n), ∑ j ∈ Finset.range (2 ^ k), g (bitsPoint n i) (bitsPoint k j) := by
  unfold cubeSum
  rw [pow_add, mul_comm, sum_range_mul]
  apply Finset.sum_congr rfl
  intro i _
  apply Finset.sum_congr rfl
  intro j hj
  have hj' := Finset.mem_range.mp hj
  rw [bitsPoint_append k n i j hj']
  beta_reduce
  rw [List.drop_left' (bitsPoint_length k j), List.take_left' (bitsPoint_length k j)]

theorem mle_buildPoint_bits (d : InputDims) (hd : d.Valid) (shape : List ℕ) (data po : List F) (n k i x : ℕ) (hi : i < 2 ^ n) (hx : x < 2 ^ k)
    (hs : Sizes d shape (2 ^ n) (2 ^ k) (2 ^ po.length)) :
    mle data (d.buildPoint (bitsPoint n i) (bitsPoint k x) po) = ∑ j ∈ Finset.range (2 ^ po.length), entry3 shape data d.concat d.matMul i x j * chi po j := by
  rw [mle_buildPoint d hd shape data _ _ _ (by simpa [bitsPoint_length] using hs), bitsPoint_length, bitsPoint_length, Finset.sum_eq_single i, Finset.sum_eq_single x]
  · apply Finset.sum_congr rfl
    intro j _
    rw [chi_bitsPoint n i i hi hi, chi_bitsPoint k x x hx hx]; simp
  · intro y hy hne
    apply Finset.sum_eq_zero
    intro j _
    rw [chi_bitsPoint k x y hx (Finset.mem_range.mp hy), if_neg hne]; ring
  · intro h; exact absurd (Finset.mem_range.mpr hx) h
  · intro y hy hne
    apply Finset.sum_eq_zero
    intro z _
    apply Finset.sum_eq_zero
    intro j _
    rw [chi_bitsPoint n i y hi (Finset.mem_range.mp hy), if_neg hne]; ring
  · intro h; exact absurd (Finset.mem_range.mpr hi) h

/-- Which axis of the output the matrices, rows and columns are on. -/
def outDims (perm : Option (List ℕ)) : InputDims :=
  let nd := match perm with
    | none => [0, 1, 2]
    | some p => newDimensions p
  ⟨nd.getD 0 0, nd.getD 1 0, nd.getD 2 0⟩

/-- An order of axes, or none. -/
def PermOk (perm : Option (List ℕ)) : Prop := (perm.getD [0, 1, 2]).Perm [0, 1, 2]

theorem permOk_cases (perm : Option (List ℕ)) (h : PermOk perm) : perm = none ∨ ∃ x y z, perm = some [x, y, z] ∧ [x, y, z].Perm [0, 1, 2] := by
  cases perm with
  | none => left; rfl
  | some p =>
    right
    unfold PermOk at h
    simp only [Option.getD_some] at h
    have hl := h.length_eq
    match p, hl with
    | [x, y, z], _ => exact ⟨x, y, z, rfl, h⟩

theorem outDims_spec (perm : Option (List ℕ)) (h : PermOk perm) : (outDims perm).Valid ∧
    (∀ i a b : ℕ, (perm.getD [0, 1, 2]).map (fun o => [i, a, b].getD o 0)
      = [if 0 = (outDims perm).concat then i else if 0 = (outDims perm).matMul then a else b, if 1 = (outDims perm).concat then i else if 1 = (outDims perm).matMul then a else b,
        if 2 = (outDims perm).concat then i else if 2 = (outDims perm).matMul then a else b]) ∧
    ∀ n m p : ℕ, Sizes (outDims perm) ((perm.getD [0, 1, 2]).map fun o => [n, m, p].getD o 0) n m p := by
  rcases permOk_cases perm h with rfl | ⟨x, y, z, rfl, hp⟩
  · exact ⟨List.Perm.refl _, fun _ _ _ => rfl, fun _ _ _ => ⟨rfl, rfl, rfl, rfl⟩⟩
  · rcases perm3_cases hp with ⟨rfl, rfl, rfl⟩ | ⟨rfl, rfl, rfl⟩ | ⟨rfl, rfl, rfl⟩ | ⟨rfl, rfl, rfl⟩ | ⟨rfl, rfl, rfl⟩ | ⟨rfl, rfl, rfl⟩ <;>
      exact ⟨by unfold InputDims.Valid; decide, fun _ _ _ => rfl, fun _ _ _ => ⟨rfl, rfl, rfl, rfl⟩⟩

omit [Field F] in
theorem splitOutputPoint_parts (perm : Option (List ℕ)) (a b c : ℕ) (point : List F) (hl : point.length = a + b + c) :
    ∃ p0 p1 p2, point = p2 ++ (p1 ++ p0) ∧ p0.length = a ∧ p1.length = b ∧ p2.length = c ∧
      splitOutputPoint [2 ^ a, 2 ^ b, 2 ^ c] perm point
        = some ([p0, p1, p2].getD (outDims perm).concat [], [p0, p1, p2].getD (outDims perm).matMul [], [p0, p1, p2].getD (outDims perm).output []) := by
  refine ⟨point.drop (b + c), (point.take (b + c)).drop c, point.take c, ?_, by simp; omega, by simp; omega, by simp; omega, ?_⟩
  · have h1 : point.take c = (point.take (b + c)).take c := by rw [List.take_take, min_eq_left (by omega)]
    rw [h1, ← List.append_assoc, List.take_append_drop, List.take_append_drop]
  · unfold splitOutputPoint
    simp only [Nat.log2_two_pow, true_and]
    rw [if_pos hl]
    rfl

omit [Field F] in
theorem splitOutputPoint_spec (perm : Option (List ℕ)) (h : PermOk perm) (n m p : ℕ) (point : List F) (shape : List ℕ)
    (hs : shape = (perm.getD [0, 1, 2]).map fun o => [2 ^ n, 2 ^ m, 2 ^ p].getD o 0) (hl : point.length = n + m + p) :
    ∃ pc row col, splitOutputPoint shape perm point = some (pc, row, col) ∧ pc.length = n ∧ row.length = m ∧ col.length = p ∧
      point = (outDims perm).buildPoint pc row col := by
  rcases permOk_cases perm h with rfl | ⟨x, y, z, rfl, hp⟩
  · obtain ⟨p0, p1, p2, h1, h2, h3, h4, h5⟩ := splitOutputPoint_parts none n m p point hl
    exact ⟨p0, p1, p2, by rw [hs]; exact h5, h2, h3, h4, by rw [h1]; simp [outDims, InputDims.buildPoint]⟩
  · rcases perm3_cases hp with ⟨rfl, rfl, rfl⟩ | ⟨rfl, rfl, rfl⟩ | ⟨rfl, rfl, rfl⟩ | ⟨rfl, rfl, rfl⟩ | ⟨rfl, rfl, rfl⟩ | ⟨rfl, rfl, rfl⟩
    · obtain ⟨p0, p1, p2, h1, h2, h3, h4, h5⟩ := splitOutputPoint_parts (some [0, 1, 2]) n m p point (by omega)
      exact ⟨p0, p1, p2, by rw [hs]; exact h5, h2, h3, h4, by rw [h1]; simp [outDims, newDimensions, InputDims.buildPoint]⟩
    · obtain ⟨p0, p1, p2, h1, h2, h3, h4, h5⟩ := splitOutputPoint_parts (some [0, 2, 1]) n p m point (by omega)
      exact ⟨p0, p2, p1, by rw [hs]; exact h5, h2, h4, h3, by rw [h1]; simp [outDims, newDimensions, InputDims.buildPoint]⟩
    · obtain ⟨p0, p1, p2, h1, h2, h3, h4, h5⟩ := splitOutputPoint_parts (some [1, 0, 2]) m n p point (by omega)
      exact ⟨p1, p0, p2, by rw [hs]; exact h5, h3, h2, h4, by rw [h1]; simp [outDims, newDimensions, InputDims.buildPoint]⟩
    · obtain ⟨p0, p1, p2, h1, h2, h3, h4, h5⟩ := splitOutputPoint_parts (some [1, 2, 0]) m p n point (by omega)
      exact ⟨p2, p0, p1, by rw [hs]; exact h5, h4, h2, h3, by rw [h1]; simp [outDims, newDimensions, InputDims.buildPoint]⟩
    · obtain ⟨p0, p1, p2, h1, h2, h3, h4, h5⟩ := splitOutputPoint_parts (some [2, 0, 1]) p n m point (by omega)
      exact ⟨p1, p2, p0, by rw [hs]; exact h5, h3, h4, h2, by rw [h1]; simp [outDims, newDimensions, InputDims.buildPoint]⟩
    · obtain ⟨p0, p1, p2, h1, h2, h3, h4, h5⟩ := splitOutputPoint_parts (some [2, 1, 0]) p m n point (by omega)
      exact ⟨p2, p1, p0, by rw [hs]; exact h5, h4, h3, h2, by rw [h1]; simp [outDims, newDimensions, InputDims.buildPoint]⟩

/-- The sum-check of the layer sums to the extension of the stack of products. -/
theorem concat_identity (perm : Option (List ℕ)) (hperm : PermOk perm) (l r : InputDims) (hl : l.Valid) (hr : r.Valid) (shapeL shapeR : List ℕ) (L R : List F) (k : ℕ)
    (pc row col : List F) (hsl : Sizes l shapeL (2 ^ pc.length) (2 ^ k) (2 ^ row.length)) (hsr : Sizes r shapeR (2 ^ pc.length) (2 ^ k) (2 ^ col.length)) (shape : List ℕ)
    (out : List F) (hout : IsConcatProduct (perm.getD [0, 1, 2]) (2 ^ pc.length) (2 ^ row.length) (2 ^ k) (2 ^ col.length) l.concat l.matMul shapeL L r.concat r.matMul shapeR R shape out) :
    (cubeSum (k + pc.length) fun pt => eqPoly (pt.drop k) pc * mle L (l.buildPoint (pt.drop k) (pt.take k) row) * mle R (r.buildPoint (pt.drop k) (pt.take k) col))
      = mle out ((outDims perm).buildPoint pc row col) := by
  obtain ⟨hv, hcoord, hsz⟩ := outDims_spec perm hperm
  obtain ⟨h1, -, h3⟩ := hout
  rw [mle_buildPoint _ hv shape out pc row col (by rw [h1]; exact hsz _ _ _),
    cubeSum_split k pc.length (fun c m => eqPoly c pc * mle L (l.buildPoint c m row) * mle R (r.buildPoint c m col))]
  apply Finset.sum_congr rfl
  intro i hi
  have hi' := Finset.mem_range.mp hi
  have heq : eqPoly (bitsPoint pc.length i) pc = chi pc i := by
    rw [eqPoly_eq_sum _ _ (bitsPoint_length _ _), bitsPoint_length, Finset.sum_eq_single i]
    · rw [chi_bitsPoint _ _ _ hi' hi', if_pos rfl, one_mul]
    · intro j hj hne
      rw [chi_bitsPoint _ _ _ hi' (Finset.mem_range.mp hj), if_neg hne, zero_mul]
    · intro hn; exact absurd hi hn
  have hent : ∀ a ∈ Finset.range (2 ^ row.length), ∀ b ∈ Finset.range (2 ^ col.length), entry3 shape out (outDims perm).concat (outDims perm).matMul i a b
      = ∑ x ∈ Finset.range (2 ^ k), entry3 shapeL L l.concat l.matMul i x a * entry3 shapeR R r.concat r.matMul i x b := by
    intro a ha b hb
    rw [← h3 i a b hi' (Finset.mem_range.mp ha) (Finset.mem_range.mp hb), hcoord]
    rfl
  rw [Finset.sum_congr rfl (fun a ha => Finset.sum_congr rfl (fun b hb => by rw [hent a ha b hb, Finset.sum_mul])), sum3_swap23, sum3_swap12]
  apply Finset.sum_congr rfl
  intro x hx
  have hx' := Finset.mem_range.mp hx
  rw [mle_buildPoint_bits l hl shapeL L row _ _ i x hi' hx' hsl, mle_buildPoint_bits r hr shapeR R col _ _ i x hi' hx' hsr, heq, mul_assoc, Finset.sum_mul, Finset.mul_sum]
  apply Finset.sum_congr rfl
  intro a _
  rw [Finset.mul_sum, Finset.mul_sum]
  apply Finset.sum_congr rfl
  intro b _
  ring

/-! ### Inference -/

section eval
variable {α : Type} [Semiring α]

omit [Field F] in
theorem permute_left (d : InputDims) (hd : d.Valid) (t : Tensor α) (n k o : ℕ) (hs : Sizes d t.shape n k o) (hlen : t.data.length = t.shape.prod) :
    ∃ p u, d.permutation leftDims = some p ∧ permuteOpt t p = some ⟨[n, o, k], u⟩ ∧ u.length = n * (o * k) ∧
      ∀ i a x, i < n → a < o → x < k → u.getD (flat [n, o, k] [i, a, x]) 0 = entry3 t.shape t.data d.concat d.matMul i x a := by
  obtain ⟨h3, hc, hm, ho⟩ := hs
  have hsh := shape_three t.shape h3
  have hp' : [d.concat, d.output, d.matMul].Perm [0, 1, 2] := (List.Perm.cons _ (List.Perm.swap _ _ _)).trans hd
  by_cases he : d = leftDims
  · subst he
    simp only [leftDims] at hc hm ho
    rw [hc, hm, ho] at hsh
    refine ⟨none, t.data, by simp [InputDims.permutation], ?_, ?_, ?_⟩
    · obtain ⟨sh, dt⟩ := t
      simp only at hsh
      simp [permuteOpt, hsh]
    · rw [hlen, hsh]; simp
    · intro i a x _ _ _
      rw [hsh]; simp [entry3, leftDims]
  · obtain ⟨out, h1, h2, h4⟩ := permute_entry t _ _ _ hsh (by rw [hlen]; conv_lhs => rw [hsh]
                                                              simp [mul_assoc]) _ _ _ hp'
    refine ⟨some [d.concat, d.output, d.matMul], out, ?_, ?_, ?_, ?_⟩
    · have hlt : ∀ o ∈ [d.concat, d.output, d.matMul], o < 3 := by
        intro o ho
        have := hp'.mem_iff.1 ho
        simp at this; omega
      simp only [List.mem_cons, List.not_mem_nil, or_false, forall_eq_or_imp, forall_eq] at hlt
      rw [InputDims.permutation, if_neg he]
      simp [leftDims, List.replicate, hlt]
    · rw [permuteOpt, h1, hc, hm, ho]
    · rw [h2]
      have : (t.shape.getD 0 0 * t.shape.getD 1 0 * t.shape.getD 2 0) = t.shape.getD d.concat 0 * (t.shape.getD d.output 0 * t.shape.getD d.matMul 0) := by
        rcases perm3_cases hd with ⟨e1, e2, e3⟩ | ⟨e1, e2, e3⟩ | ⟨e1, e2, e3⟩ | ⟨e1, e2, e3⟩ | ⟨e1, e2, e3⟩ | ⟨e1, e2, e3⟩ <;> rw [e1, e2, e3] <;> ring
      rw [this, hc, hm, ho]
    · intro i a x hi ha hx
      have := h4 i a x (by omega) (by omega) (by omega)
      rw [hc, hm, ho] at this
      rw [this, entry3_swap _ _ _ _ _ hp']

omit [Field F] in
theorem permute_right (d : InputDims) (hd : d.Valid) (t : Tensor α) (n k o : ℕ) (hs : Sizes d t.shape n k o) (hlen : t.data.length = t.shape.prod) :
    ∃ p u, d.permutation rightDims = some p ∧ permuteOpt t p = some ⟨[n, k, o], u⟩ ∧ u.length = n * (k * o) ∧
      ∀ i x b, i < n → x < k → b < o → u.getD (flat [n, k, o] [i, x, b]) 0 = entry3 t.shape t.data d.concat d.matMul i x b := by
  obtain ⟨h3, hc, hm, ho⟩ := hs
  have hsh := shape_three t.shape h3
  by_cases he : d = rightDims
  · subst he
    simp only [rightDims] at hc hm ho
    rw [hc, hm, ho] at hsh
    refine ⟨none, t.data, by simp [InputDims.permutation], ?_, ?_, ?_⟩
    · obtain ⟨sh, dt⟩ := t
      simp only at hsh
      simp [permuteOpt, hsh]
    · rw [hlen, hsh]; simp
    · intro i a x _ _ _
      rw [hsh]; simp [entry3, rightDims]
  · obtain ⟨out, h1, h2, h4⟩ := permute_entry t _ _ _ hsh (by rw [hlen]; conv_lhs => rw [hsh]
                                                              simp [mul_assoc]) _ _ _ hd
    refine ⟨some [d.concat, d.matMul, d.output], out, ?_, ?_, ?_, ?_⟩
    · have hlt : ∀ o ∈ [d.concat, d.matMul, d.output], o < 3 := by
        intro o ho
        have := hd.mem_iff.1 ho
        simp at this; omega
      simp only [List.mem_cons, List.not_mem_nil, or_false, forall_eq_or_imp, forall_eq] at hlt
      rw [InputDims.permutation, if_neg he]
      simp [rightDims, List.replicate, hlt]
    · rw [permuteOpt, h1, hc, hm, ho]
    · rw [h2]
      have : (t.shape.getD 0 0 * t.shape.getD 1 0 * t.shape.getD 2 0) = t.shape.getD d.concat 0 * (t.shape.getD d.matMul 0 * t.shape.getD d.output 0) := by
        rcases perm3_cases hd with ⟨e1, e2, e3⟩ | ⟨e1, e2, e3⟩ | ⟨e1, e2, e3⟩ | ⟨e1, e2, e3⟩ | ⟨e1, e2, e3⟩ | ⟨e1, e2, e3⟩ <;> rw [e1, e2, e3] <;> ring
      rw [this, hc, hm, ho]
    · intro i a x hi ha hx
      have := h4 i a x (by omega) (by omega) (by omega)
      rw [hc, hm, ho] at this
      rw [this]

omit [Field F] in
theorem slice3d_getD (n b c : ℕ) (u : List α) (hu : u.length = n * (b * c)) (i : ℕ) (hi : i < n) :
    ∃ v, (⟨[n, b, c], u⟩ : Tensor α).slice3d i (i + 1) = some ⟨[1, b, c], v⟩ ∧ v.length = b * c ∧ ∀ j < b * c, v.getD j 0 = u.getD (i * (b * c) + j) 0 := by
  have hle : b * c * (i + 1) ≤ u.length := by rw [hu, mul_comm n]; exact Nat.mul_le_mul_left _ hi
  refine ⟨(u.take (b * c * (i + 1))).drop (b * c * i), ?_, ?_, ?_⟩
  · unfold Tensor.slice3d
    simp only
    rw [if_pos ⟨hi, hi, by omega, hle⟩]
    simp
  · rw [List.length_drop, List.length_take, min_eq_left hle, mul_add, mul_one, Nat.add_sub_cancel_left]
  · intro j hj
    rw [List.getD_eq_getElem?_getD, List.getElem?_drop, List.getElem?_take, if_pos (by rw [mul_add]; omega), List.getD_eq_getElem?_getD, mul_comm i]

omit [Field F] in
theorem sliceProduct_spec (n m k p : ℕ) (u v : List α) (hu : u.length = n * (m * k)) (hv : v.length = n * (k * p)) (i : ℕ) (hi : i < n) :
    ∃ w, sliceProduct ⟨[n, m, k], u⟩ ⟨[n, k, p], v⟩ m k k p i = some ⟨[m, p], w⟩ ∧ w.length = m * p ∧ ∀ a b, a < m → b < p →
      w.getD (a * p + b) 0 = ∑ x ∈ Finset.range k, u.getD (flat [n, m, k] [i, a, x]) 0 * v.getD (flat [n, k, p] [i, x, b]) 0 := by
  obtain ⟨u', h1, h2, h3⟩ := slice3d_getD n m k u hu i hi
  obtain ⟨v', g1, g2, g3⟩ := slice3d_getD n k p v hv i hi
  obtain ⟨w, w1, w2, w3⟩ := matmul_spec (⟨[m, k], u'⟩ : Tensor α) ⟨[k, p], v'⟩ m k p rfl rfl h2 g2
  refine ⟨w, ?_, w2, ?_⟩
  · unfold sliceProduct
    simp [h1, g1, Tensor.reshape, w1]
  · intro a b ha hb
    rw [w3 a b ha hb]
    apply Finset.sum_congr rfl
    intro x hx
    have hx' := Finset.mem_range.mp hx
    have e1 : a * k + x < m * k := by
      have : (a + 1) * k ≤ m * k := Nat.mul_le_mul_right _ ha
      rw [add_mul, one_mul] at this; omega
    have e2 : x * p + b < k * p := by
      have : (x + 1) * p ≤ k * p := Nat.mul_le_mul_right _ hx'
      rw [add_mul, one_mul] at this; omega
    rw [h3 _ e1, g3 _ e2]
    congr 2
    · simp [flat]
    · simp [flat]

omit [Field F] [Semiring α] in
theorem foldlM_concat (m p : ℕ) (ws : List (List α)) (c : ℕ) (acc : List α) :
    (ws.map fun w => (⟨[m, p], w⟩ : Tensor α)).foldlM Tensor.concat ⟨[c, m, p], acc⟩ = some ⟨[c + ws.length, m, p], acc ++ ws.flatten⟩ := by
  induction ws generalizing c acc with
  | nil => simp
  | cons w ws ih =>
    have : (⟨[c, m, p], acc⟩ : Tensor α).concat ⟨[m, p], w⟩ = some ⟨[c + 1, m, p], acc ++ w⟩ := by simp [Tensor.concat]
    rw [List.map_cons, List.foldlM_cons, this]
    simp only [Option.bind_eq_bind, Option.bind_some]
    rw [ih]
    simp [add_comm, add_left_comm]

omit [Field F] in
theorem concatMatMul_spec (l r : InputDims) (hl : l.Valid) (hr : r.Valid) (perm : Option (List ℕ)) (hperm : PermOk perm) (A B : Tensor α) (n m k p : ℕ) (hn : 0 < n)
    (hA : A.data.length = A.shape.prod) (hB : B.data.length = B.shape.prod) (hsl : Sizes l A.shape n k m) (hsr : Sizes r B.shape n k p) :
    ∃ out, concatMatMulEvaluate l r perm A B = some ⟨(perm.getD [0, 1, 2]).map fun o => [n, m, p].getD o 0, out⟩ ∧
      IsConcatProduct (perm.getD [0, 1, 2]) n m k p l.concat l.matMul A.shape A.data r.concat r.matMul B.shape B.data ((perm.getD [0, 1, 2]).map fun o => [n, m, p].getD o 0) out := by
  obtain ⟨pl, u, l1, l2, l3, l4⟩ := permute_left l hl A n k m hsl hA
  obtain ⟨pr, v, r1, r2, r3, r4⟩ := permute_right r hr B n k p hsr hB
  have hok : concatShapesOk l r A.shape B.shape = true := by
    obtain ⟨a1, a2, a3, a4⟩ := hsl
    obtain ⟨b1, b2, b3, b4⟩ := hsr
    have hlt : ∀ o ∈ [l.concat, l.matMul, l.output], o < 3 := by
      intro o ho
      have := hl.mem_iff.1 ho
      simp at this; omega
    have hlt' : ∀ o ∈ [r.concat, r.matMul, r.output], o < 3 := by
      intro o ho
      have := hr.mem_iff.1 ho
      simp at this; omega
    simp only [List.mem_cons, List.not_mem_nil, or_false, forall_eq_or_imp, forall_eq] at hlt hlt'
    simp only [concatShapesOk, a1, b1, a2, a3, b2, b3, hlt, hlt']
    simp
  -- the products
  have hex : ∀ i, ∃ w : List α, i < n → sliceProduct ⟨[n, m, k], u⟩ ⟨[n, k, p], v⟩ m k k p i = some ⟨[m, p], w⟩ ∧ w.length = m * p ∧ ∀ a b, a < m → b < p →
      w.getD (a * p + b) 0 = ∑ x ∈ Finset.range k, u.getD (flat [n, m, k] [i, a, x]) 0 * v.getD (flat [n, k, p] [i, x, b]) 0 := by
    intro i
    by_cases hi : i < n
    · obtain ⟨w, hw⟩ := sliceProduct_spec n m k p u v l3 r3 i hi
      exact ⟨w, fun _ => hw⟩
    · exact ⟨[], fun h => absurd h hi⟩
  choose W hW using hex
  have hmap : (List.range n).mapM (sliceProduct ⟨[n, m, k], u⟩ ⟨[n, k, p], v⟩ m k k p) = some ((List.range n).map fun i => (⟨[m, p], W i⟩ : Tensor α)) :=
    mapM_some' _ _ _ fun i hi => (hW i (List.mem_range.mp hi)).1
  obtain ⟨n', rfl⟩ : ∃ n', n = n' + 1 := ⟨n - 1, by omega⟩
  have hstack : stackProducts m p ((List.range (n' + 1)).map fun i => (⟨[m, p], W i⟩ : Tensor α)) = some ⟨[n' + 1, m, p], ((List.range (n' + 1)).map W).flatten⟩ := by
    have hc := foldlM_concat m p (((List.range n').map Nat.succ).map W) 1 (W 0)
    rw [List.map_map] at hc
    rw [List.range_succ_eq_map, List.map_cons]
    simp only [stackProducts]
    have hre : (⟨[m, p], W 0⟩ : Tensor α).reshape [1, m, p] = some ⟨[1, m, p], W 0⟩ := by simp [Tensor.reshape]
    rw [hre]
    simp only [Option.bind_eq_bind, Option.bind_some]
    have : ((List.range n').map Nat.succ).map (fun i => (⟨[m, p], W i⟩ : Tensor α)) = (List.map ((fun w => (⟨[m, p], w⟩ : Tensor α)) ∘ W) ((List.range n').map Nat.succ)) := rfl
    rw [this, hc]
    simp [add_comm]
  obtain ⟨Z, hZ⟩ : ∃ Z, Z = ((List.range (n' + 1)).map W).flatten := ⟨_, rfl⟩
  have hgl : ∀ g ∈ (List.range (n' + 1)).map W, g.length = m * p := by
    intro g hg
    obtain ⟨i, hi, rfl⟩ := List.mem_map.mp hg
    exact (hW i (List.mem_range.mp hi)).2.1
  have hZl : Z.length = (n' + 1) * m * p := by
    rw [hZ, length_flatten' (m * p) _ hgl]; simp [mul_assoc]
  have hZe : ∀ i a b, i < n' + 1 → a < m → b < p → Z.getD (flat [n' + 1, m, p] [i, a, b]) 0
      = ∑ x ∈ Finset.range k, entry3 A.shape A.data l.concat l.matMul i x a * entry3 B.shape B.data r.concat r.matMul i x b := by
    intro i a b hi ha hb
    have hf : flat [n' + 1, m, p] [i, a, b] = i * (m * p) + (a * p + b) := by simp [flat]
    have hr' : a * p + b < m * p := by
      have : (a + 1) * p ≤ m * p := Nat.mul_le_mul_right _ ha
      rw [add_mul, one_mul] at this; omega
    rw [hf, hZ, getD_flatten (m * p) _ hgl i _ 0 (by simpa using hi) hr', List.getElem_map, List.getElem_range, (hW i hi).2.2 a b ha hb]
    apply Finset.sum_congr rfl
    intro x hx
    have hx' := Finset.mem_range.mp hx
    rw [l4 i a x hi ha hx', r4 i x b hi hx' hb]
  have hbase : concatMatMulEvaluate l r perm A B = permuteOpt ⟨[n' + 1, m, p], Z⟩ perm := by
    unfold concatMatMulEvaluate
    rw [if_pos hok, l1, r1]
    simp only [Option.bind_eq_bind, Option.bind_some, l2, r2, if_true, hmap, hstack, hZ]
  rw [hbase]
  rcases permOk_cases perm hperm with rfl | ⟨x, y, z, rfl, hp⟩
  · exact ⟨Z, rfl, rfl, hZl, hZe⟩
  · obtain ⟨out, h1, h2, h3⟩ := permute_spec (⟨[n' + 1, m, p], Z⟩ : Tensor α) _ _ _ rfl hZl x y z hp
    refine ⟨out, h1, rfl, h2, ?_⟩
    intro i a b hi ha hb
    rw [← hZe i a b hi ha hb]
    exact h3 i a b hi ha hb

end eval

/-! ### The tables of the sum-check -/

theorem intoMle_eq [DecidableEq F] (data : List F) (n : ℕ) (h : data.length = 2 ^ n) : intoMle data = some ⟨n, data⟩ := by
  unfold intoMle Mle.ofEvals
  rw [h, Nat.log2_two_pow, if_pos rfl, if_pos rfl]

theorem fixPar_mle [DecidableEq F] (n m : ℕ) (t r : List F) (ht : t.length = 2 ^ (n + m)) (hr : r.length = m) :
    ∃ u, (⟨n + m, t⟩ : Mle F).fixVariablesInPlaceParallel r = some ⟨n, u⟩ ∧ u.length = 2 ^ n ∧ ∀ pt, mle u pt = mle t (r ++ pt) := by
  obtain ⟨u, h1, h2, h3⟩ := fixLow_mle n m t r ht hr
  rw [fixVariablesInPlace_eq ⟨n + m, t⟩ ht r (by simp; omega)] at h1
  exact ⟨u, by rw [fixVariablesInPlaceParallel_eq ⟨n + m, t⟩ ht r (by simp; omega), h1], h2, h3⟩

theorem inputMle_spec [DecidableEq F] (d : InputDims) (hd : d.Valid) (t : Tensor F) (n k : ℕ) (point : List F) (hs : Sizes d t.shape (2 ^ n) (2 ^ k) (2 ^ point.length))
    (hlen : t.data.length = t.shape.prod) :
    ∃ u, d.inputMle t point = some ⟨k + n, u⟩ ∧ u.length = 2 ^ (k + n) ∧ ∀ pt : List F, pt.length = k + n → mle u pt = mle t.data (d.buildPoint (pt.drop k) (pt.take k) point) := by
  obtain ⟨h3, hc, hm, ho⟩ := hs
  have hsh := shape_three t.shape h3
  have hprod : t.shape.getD 0 0 * t.shape.getD 1 0 * t.shape.getD 2 0 = 2 ^ (k + n + point.length) := by
    have : (t.shape.getD 0 0 * t.shape.getD 1 0 * t.shape.getD 2 0) = t.shape.getD d.concat 0 * (t.shape.getD d.matMul 0 * t.shape.getD d.output 0) := by
        rcases perm3_cases hd with ⟨e1, e2, e3⟩ | ⟨e1, e2, e3⟩ | ⟨e1, e2, e3⟩ | ⟨e1, e2, e3⟩ | ⟨e1, e2, e3⟩ | ⟨e1, e2, e3⟩ <;> rw [e1, e2, e3] <;> ring
    rw [this, hc, hm, ho, pow_add, pow_add]; ring
  have hl3 : t.data.length = t.shape.getD 0 0 * t.shape.getD 1 0 * t.shape.getD 2 0 := by
    rw [hlen]; conv_lhs => rw [hsh]
    simp [mul_assoc]
  have hperm : ∀ (pt : List F), pt.length = k + n → ∀ out : List F, (∀ u v w, u < 2 ^ n → v < 2 ^ k → w < 2 ^ point.length →
      out.getD (flat [2 ^ n, 2 ^ k, 2 ^ point.length] [u, v, w]) 0 = entry3 t.shape t.data d.concat d.matMul u v w) →
      mle out (point ++ pt) = mle t.data (d.buildPoint (pt.drop k) (pt.take k) point) := by
    intro pt hpt out hout
    have e1 : (pt.drop k).length = n := by simp; omega
    have e2 : (pt.take k).length = k := by simp; omega
    rw [mle_buildPoint d hd t.shape t.data _ _ _ (by rw [e1, e2]; exact ⟨h3, hc, hm, ho⟩)]
    conv_lhs => rw [← List.take_append_drop k pt]
    rw [mle3, e1, e2]
    apply Finset.sum_congr rfl
    intro a ha
    apply Finset.sum_congr rfl
    intro b hb
    apply Finset.sum_congr rfl
    intro c hc'
    rw [hout a b c (Finset.mem_range.mp ha) (Finset.mem_range.mp hb) (Finset.mem_range.mp hc')]
  by_cases hcase : d.matMul < d.concat ∨ d.output = 1
  · obtain ⟨out, h1, h2, h4⟩ := permute_entry t _ _ _ hsh hl3 _ _ _ hd
    rw [hc, hm, ho] at h1 h4
    rw [hprod] at h2
    obtain ⟨u, u1, u2, u3⟩ := fixPar_mle (k + n) point.length out point h2 rfl
    refine ⟨u, ?_, u2, ?_⟩
    · unfold InputDims.inputMle
      rw [if_pos hcase, h1]
      simp only [Option.bind_eq_bind, Option.bind_some]
      rw [intoMle_eq out _ h2, Option.bind_some, u1]
    · intro pt hpt
      rw [u3 pt, hperm pt hpt out h4]
  · have hlt : t.data.length = 2 ^ (k + n + point.length) := by rw [hl3, hprod]
    by_cases h0 : d.output = 0
    · obtain ⟨u, u1, u2, u3⟩ := fixHigh_mle (k + n) point.length t.data point hlt rfl
      refine ⟨u, ?_, u2, ?_⟩
      · unfold InputDims.inputMle
        rw [if_neg hcase, intoMle_eq t.data _ hlt]
        simp only [Option.bind_eq_bind, Option.bind_some, if_pos h0]
        exact u1
      · intro pt hpt
        rw [u3 pt hpt]
        obtain ⟨cd, md, od⟩ := d
        simp only at hcase h0
        have := perm3_cases hd
        simp only at this
        have e : cd = 1 ∧ md = 2 := by omega
        rw [e.1, e.2, h0]
        simp only [InputDims.buildPoint, List.flatMap_cons, List.flatMap_nil, List.append_nil]
        norm_num
        rw [← List.append_assoc, List.take_append_drop]
    · obtain ⟨u, u1, u2, u3⟩ := fixPar_mle (k + n) point.length t.data point hlt rfl
      refine ⟨u, ?_, u2, ?_⟩
      · unfold InputDims.inputMle
        rw [if_neg hcase, intoMle_eq t.data _ hlt]
        simp only [Option.bind_eq_bind, Option.bind_some, if_neg h0]
        exact u1
      · intro pt hpt
        rw [u3 pt]
        obtain ⟨cd, md, od⟩ := d
        simp only at hcase h0
        have := perm3_cases hd
        simp only at this
        have e : cd = 0 ∧ md = 1 ∧ od = 2 := by omega
        rw [e.1, e.2.1, e.2.2]
        simp [InputDims.buildPoint]

theorem mle_betaTable [DecidableEq F] (pc : List F) (k : ℕ) :
    ((computeBetas pc).flatMap fun e => List.replicate (2 ^ k) e).length = 2 ^ (k + pc.length) ∧
    ∀ pt : List F, pt.length = k + pc.length → mle ((computeBetas pc).flatMap fun e => List.replicate (2 ^ k) e) pt = eqPoly (pt.drop k) pc := by
  have hg : ∀ g ∈ (computeBetas pc).map (fun e => List.replicate (2 ^ k) e), g.length = 2 ^ k := by
    intro g hg
    obtain ⟨e, _, rfl⟩ := List.mem_map.mp hg
    simp
  rw [List.flatMap_def]
  constructor
  · rw [length_flatten' (2 ^ k) _ hg, List.length_map, computeBetas_length, pow_add, mul_comm]
  · intro pt hpt
    have e1 : (pt.drop k).length = pc.length := by simp; omega
    have e2 : (pt.take k).length = k := by simp; omega
    conv_lhs => rw [← List.take_append_drop k pt]
    rw [mle_append_sum, eqPoly_eq_sum _ _ e1, e1]
    apply Finset.sum_congr rfl
    intro i hi
    have hi' := Finset.mem_range.mp hi
    have hz : ∀ j ∈ Finset.range (2 ^ (pt.take k).length), ((computeBetas pc).map (fun e => List.replicate (2 ^ k) e)).flatten.getD (i * 2 ^ (pt.take k).length + j) 0 * chi (pt.take k) j
        = chi pc i * chi (pt.take k) j := by
      intro j hj
      rw [e2] at hj ⊢
      have hj' := Finset.mem_range.mp hj
      rw [getD_flatten (2 ^ k) _ hg i j 0 (by rw [List.length_map, computeBetas_length]; exact hi') hj', List.getElem_map, List.getD_eq_getElem _ _ (by simpa using hj'), List.getElem_replicate]
      congr 1
      simp only [computeBetas_spec, List.getElem_map, List.getElem_range]
    rw [Finset.sum_congr rfl hz, ← Finset.mul_sum, sum_chi, mul_one, mul_comm]

end Lemmas
