import Verif.Lemmas.TensorOps
import Verif.Lemmas.TensorPad

/-!
Properties of tensors: C25 to C30, C33, C34.
-/

namespace Props

open Model Spec Lemmas

/-! ### C25 -/

/-- C25: positions. The strides of a shape give the row-major position of every coordinate; positions of coordinates in range
are below the number of entries, distinct for distinct coordinates, and all positions below the number of entries occur. -/
theorem C25_positions (shape : List ℕ) :
    (∀ c, c.length = shape.length → ((c.zip (strides shape)).map fun x => x.1 * x.2).sum = flat shape c) ∧
    (∀ c, InRange shape c → flat shape c < shape.prod) ∧
    (∀ c c', InRange shape c → InRange shape c' → flat shape c = flat shape c' → c = c') ∧
    (∀ i, i < shape.prod → ∃ c, InRange shape c ∧ flat shape c = i) :=
  ⟨fun c h => sum_strides shape c h.symm, fun _ h => flat_lt h, fun _ _ h h' => flat_inj h h', fun _ h => flat_surj h⟩

example : strides [2, 3, 4] = [12, 4, 1] ∧ flat [2, 3, 4] [1, 2, 3] = 23 ∧ InRange [2, 3, 4] [1, 2, 3] := by decide +kernel

/-- C25: access. For a tensor with as many entries as its shape says, access at a coordinate in range succeeds and returns
the entry at the row-major position. -/
theorem C25_access {α : Type} (t : Tensor α) (hlen : t.data.length = t.shape.prod) (hne : t.shape ≠ []) (c : List ℕ)
    (hc : InRange t.shape c) : ∃ h : flat t.shape c < t.data.length, t.get c = some t.data[flat t.shape c] := by
  have hl := inRange_length hc
  refine ⟨hlen ▸ flat_lt hc, ?_⟩
  obtain ⟨ds, d, hd⟩ := snoc_of_length t.shape (List.length_pos_iff.2 hne)
  obtain ⟨cs, x, rfl⟩ := snoc_of_length c (by have := List.length_pos_iff.2 hne; omega)
  have hll : ds.length = cs.length := by rw [hd] at hl; simpa using hl.symm
  unfold Tensor.get
  have : getIdx t.shape (cs ++ [x]) = some (flat t.shape (cs ++ [x])) := by
    rw [hd, getIdx_eq _ _ _ _ hll, if_pos]
    rw [hd] at hc
    exact ((inRange_snoc _ _ _ _ hll).1 hc).1
  rw [this, Option.bind_eq_bind, Option.bind_some, List.getElem?_eq_getElem]

/-- C25: access by four indices. -/
theorem C25_access_4d {α : Type} (t : Tensor α) (N C H W : ℕ) (hs : t.shape = [N, C, H, W])
    (hlen : t.data.length = N * (C * (H * W))) (n c h w : ℕ) (hc : InRange [N, C, H, W] [n, c, h, w]) :
    ∃ hb : flat [N, C, H, W] [n, c, h, w] < t.data.length,
      t.getAt4d n c h w = some t.data[flat [N, C, H, W] [n, c, h, w]] := by
  have hlt := flat_lt hc
  simp only [List.prod_cons, List.prod_nil, mul_one] at hlt
  have hlt' : flat [N, C, H, W] [n, c, h, w] < t.data.length := by rw [hlen]; exact hlt
  refine ⟨hlt', ?_⟩
  have hn : n < N := ((inRange_cons_cons _ _ _ _).1 hc).1
  unfold Tensor.getAt4d get4d
  rw [hs]
  simp only [List.length_cons, List.length_nil, List.getD_cons_zero, List.getD_cons_succ]
  simp only [Nat.zero_add, Nat.reduceAdd, Nat.le_refl, if_true, Nat.reduceEqDiff, if_false, hn]
  rw [← List.getElem?_eq_getElem hlt']
  congr 1
  simp only [flat, List.prod_cons, List.prod_nil, mul_one, add_zero]
  ring

/-- C25: rejection, of a wrong number of indices and of any index but the last that is out of range.
Missing for the full claim: the last index, see `C25_last_index_false`. -/
theorem C25_rejects_partial {α : Type} (t : Tensor α) (c : List ℕ) :
    (c.length ≠ t.shape.length → t.get c = none) ∧
    (∀ ds d cs x, t.shape = ds ++ [d] → c = cs ++ [x] → ¬ InRange ds cs → t.get c = none) := by
  have h1 : c.length ≠ t.shape.length → t.get c = none := by
    intro h; unfold Tensor.get getIdx; rw [if_neg (Ne.symm h)]; rfl
  refine ⟨h1, ?_⟩
  rintro ds d cs x hs rfl hn
  by_cases hl : ds.length = cs.length
  · unfold Tensor.get
    rw [hs, getIdx_eq _ _ _ _ hl, if_neg hn]
    rfl
  · exact h1 (by rw [hs]; simpa using Ne.symm hl)

/-- The access loop never checks the last index: an index beyond the last dimension reads the entry of another coordinate,
whenever its position still is in the data. -/
theorem C25_last_index_false {α : Type} (t : Tensor α) (ds : List ℕ) (d : ℕ) (hs : t.shape = ds ++ [d])
    (hlen : t.data.length = t.shape.prod) (cs : List ℕ) (hcs : InRange ds cs) (x : ℕ) (_hx : d ≤ x)
    (hpos : flat ds cs * d + x < t.shape.prod) :
    ¬ InRange t.shape (cs ++ [x]) ∧
    ∃ c', InRange t.shape c' ∧ t.get (cs ++ [x]) = t.get c' ∧ t.get (cs ++ [x]) ≠ none := by
  have hl := (inRange_length hcs).symm
  have hne : t.shape ≠ [] := by rw [hs]; simp
  obtain ⟨c', hc', he⟩ := flat_surj hpos
  refine ⟨?_, c', hc', ?_⟩
  · rw [hs, inRange_snoc _ _ _ _ hl]; omega
  · obtain ⟨hb, hg⟩ := C25_access t hlen hne c' hc'
    have : t.get (cs ++ [x]) = some t.data[flat t.shape c'] := by
      have hi : getIdx t.shape (cs ++ [x]) = some (flat t.shape c') := by
        rw [he, hs, getIdx_eq _ _ _ _ hl, if_pos hcs, flat_snoc _ _ _ _ hl]
      unfold Tensor.get
      rw [hi, Option.bind_eq_bind, Option.bind_some, List.getElem?_eq_getElem]
    rw [this, hg]
    exact ⟨rfl, by simp⟩

example : (⟨[2, 3], [0, 1, 2, 3, 4, 5]⟩ : Tensor ℕ).get [1, 2] = some 5 ∧
    (⟨[2, 3], [0, 1, 2, 3, 4, 5]⟩ : Tensor ℕ).get [2, 0] = none ∧
    (⟨[2, 3], [0, 1, 2, 3, 4, 5]⟩ : Tensor ℕ).get [0, 4] = some 4 := by decide +kernel

/-! ### C26 -/

/-- C26: transposing an m×n matrix gives the n×m matrix whose entry (j, i) is entry (i, j) of the original. -/
theorem C26_transpose {α : Type} (t : Tensor α) (m n : ℕ) (hs : t.shape = [m, n]) (hlen : t.data.length = m * n) (z : α) :
    ∃ out, t.transpose = some ⟨[n, m], out⟩ ∧ out.length = n * m ∧
      ∀ i j, i < m → j < n → out.getD (flat [n, m] [j, i]) z = t.data.getD (flat [m, n] [i, j]) z := by
  simp only [flat_two]
  exact transpose_spec t m n hs hlen z

/-- C26: transposing twice gives the original. -/
theorem C26_transpose_twice {α : Type} (t : Tensor α) (m n : ℕ) (hs : t.shape = [m, n]) (hlen : t.data.length = m * n) :
    (t.transpose.bind Tensor.transpose) = some t := by
  rcases Nat.eq_zero_or_pos t.data.length with h0 | h0
  · -- no entries
    have hd : t.data = [] := List.length_eq_zero_iff.1 h0
    have hmn : n * m = 0 := by rw [mul_comm]; omega
    have hnm : m * n = 0 := by omega
    obtain ⟨sh, da⟩ := t
    simp only at hs hd
    subst hs hd
    simp [Tensor.transpose, hmn, hnm]
  · obtain ⟨z, hz⟩ : ∃ z : α, z = t.data[0] := ⟨_, rfl⟩
    obtain ⟨o1, h1, l1, e1⟩ := transpose_spec t m n hs hlen z
    obtain ⟨o2, h2, l2, e2⟩ := transpose_spec ⟨[n, m], o1⟩ n m rfl l1 z
    rw [h1, Option.bind_some, h2]
    have : o2 = t.data := by
      apply ext_coords [m, n] z
      · simpa using l2
      · simpa using hlen
      · intro c hc
        obtain ⟨i, cs, rfl, hi, hc⟩ := (inRange_cons _ _ _).1 hc
        obtain ⟨j, cs, rfl, hj, hc⟩ := (inRange_cons _ _ _).1 hc
        rw [inRange_nil] at hc
        subst hc
        rw [flat_two, e2 j i hj hi]
        exact e1 i j hi hj
    rw [this, ← hs]

/-- C26: permuting the axes of a 3d tensor. Axis `a` of the result is axis `order[a]` of the original; entry (i, j, k) moves to
the permuted coordinate. -/
theorem C26_permute {α : Type} [Zero α] (t : Tensor α) (a b c : ℕ) (hs : t.shape = [a, b, c])
    (hlen : t.data.length = a * b * c) (o0 o1 o2 : ℕ) (hperm : [o0, o1, o2].Perm [0, 1, 2]) :
    ∃ out, t.permute3d [o0, o1, o2] = some ⟨[o0, o1, o2].map (fun o => [a, b, c].getD o 0), out⟩ ∧
      out.length = a * b * c ∧
      ∀ i j k, i < a → j < b → k < c →
        out.getD (flat ([o0, o1, o2].map fun o => [a, b, c].getD o 0) ([o0, o1, o2].map fun o => [i, j, k].getD o 0)) 0
          = t.data.getD (flat [a, b, c] [i, j, k]) 0 :=
  permute_spec t a b c hs hlen o0 o1 o2 hperm

/-- C26: reshaping succeeds exactly for shapes with the same number of entries, and keeps the data. -/
theorem C26_reshape {α : Type} (t : Tensor α) (shape : List ℕ) (t' : Tensor α) :
    t.reshape shape = some t' ↔ t.shape.prod = shape.prod ∧ t'.shape = shape ∧ t'.data = t.data := by
  unfold Tensor.reshape
  split
  · rename_i h
    obtain ⟨s, d⟩ := t'
    simp [h, eq_comm]
  · rename_i h; simp [h]

example : (⟨[2, 3], [1, 2, 3, 4, 5, 6]⟩ : Tensor ℤ).transpose = some ⟨[3, 2], [1, 4, 2, 5, 3, 6]⟩ ∧
    (⟨[1, 2, 3], [1, 2, 3, 4, 5, 6]⟩ : Tensor ℤ).permute3d [1, 2, 0] = some ⟨[2, 3, 1], [1, 2, 3, 4, 5, 6]⟩ ∧
    (⟨[1, 2, 3], [1, 2, 3, 4, 5, 6]⟩ : Tensor ℤ).permute3d [2, 0, 1] = some ⟨[3, 1, 2], [1, 4, 2, 5, 3, 6]⟩ ∧
    [2, 0, 1].Perm [0, 1, 2] := by
  refine ⟨?_, ?_, ?_, ?_⟩ <;> decide +kernel

/-! ### C27 -/

/-- C27: matrix product. -/
theorem C27_matmul {α : Type} [Semiring α] (x y : Tensor α) (m n p : ℕ) (hx : x.shape = [m, n]) (hy : y.shape = [n, p])
    (hxl : x.data.length = m * n) (hyl : y.data.length = n * p) :
    ∃ out, x.matmul y = some ⟨[m, p], out⟩ ∧ out.length = m * p ∧ ∀ i j, i < m → j < p →
      out.getD (flat [m, p] [i, j]) 0
        = ∑ k ∈ Finset.range n, x.data.getD (flat [m, n] [i, k]) 0 * y.data.getD (flat [n, p] [k, j]) 0 := by
  simp only [flat_two]
  exact matmul_spec x y m n p hx hy hxl hyl

/-- C27: matrix times vector. -/
theorem C27_matvec {α : Type} [Semiring α] (x v : Tensor α) (m n : ℕ) (hx : x.shape = [m, n]) (hv : v.shape = [n])
    (hxl : x.data.length = m * n) (hvl : v.data.length = n) :
    ∃ out, x.matvec v = some ⟨[m], out⟩ ∧ out.length = m ∧ ∀ i, i < m →
      out.getD i 0 = ∑ k ∈ Finset.range n, x.data.getD (flat [m, n] [i, k]) 0 * v.data.getD k 0 := by
  simp only [flat_two]
  exact matvec_spec x v m n hx hv hxl hvl

/-- C27: shapes that do not fit are rejected. -/
theorem C27_rejects {α : Type} [Semiring α] (x y : Tensor α) (m n n' p : ℕ) (hx : x.shape = [m, n]) :
    (y.shape = [n', p] → n ≠ n' → x.matmul y = none) ∧ (y.shape = [n'] → n ≠ n' → x.matvec y = none) := by
  constructor
  · intro hy hne
    unfold Tensor.matmul
    rw [hx, hy]
    simp [hne]
  · intro hy hne
    unfold Tensor.matvec
    rw [hx, hy]
    simp [Ne.symm hne]

/-- `matvec` says it takes vectors of shape [1, n], but compares the number of columns with the first dimension: every such
vector with more than one entry is rejected. -/
theorem C27_row_vector_rejected {α : Type} [Semiring α] (x v : Tensor α) (m n : ℕ) (hx : x.shape = [m, n])
    (hv : v.shape = [1, n]) (hn : n ≠ 1) : v.isVector = true ∧ x.matvec v = none := by
  constructor
  · unfold Tensor.isVector; rw [hv]; rfl
  · unfold Tensor.matvec
    rw [hx, hv]
    simp [Ne.symm hn]

example : (⟨[2, 3], [1, 2, 3, 4, 5, 6]⟩ : Tensor ℤ).matmul ⟨[3, 2], [1, 0, 0, 1, 2, 2]⟩ = some ⟨[2, 2], [7, 8, 16, 17]⟩ ∧
    (⟨[2, 3], [1, 2, 3, 4, 5, 6]⟩ : Tensor ℤ).matvec ⟨[3], [1, 0, 2]⟩ = some ⟨[2], [7, 16]⟩ := by decide +kernel

/-! ### C28 -/

/-- C28: padding to a larger shape. Entries keep their coordinates, all other entries are zero. -/
theorem C28_pad_to_shape {α : Type} [Zero α] (t : Tensor α) (target : List ℕ) (hlen : t.data.length = t.shape.prod)
    (hdims : List.Forall₂ (fun d T => 0 < d ∧ d ≤ T) t.shape target) :
    ∃ out, t.padToShape target = some ⟨target, out⟩ ∧ out.length = target.prod ∧
      (∀ c, InRange t.shape c → out.getD (flat target c) 0 = t.data.getD (flat t.shape c) 0) ∧
      (∀ c, InRange target c → ¬ InRange t.shape c → out.getD (flat target c) 0 = 0) :=
  padToShape_spec t target hlen hdims

/-- C28: padding every dimension to the next power of two, with any padding value. -/
theorem C28_next_power_of_two {α : Type} (t : Tensor α) (pad : α) (hne : t.shape ≠ []) (hpos : ∀ d ∈ t.shape, 0 < d)
    (hlen : t.data.length = t.shape.prod) :
    ∃ out, t.padNextPow2 pad = some ⟨t.shape.map nextPow2, out⟩ ∧ out.length = (t.shape.map nextPow2).prod ∧
      (∀ c, InRange t.shape c → out.getD (flat (t.shape.map nextPow2) c) pad = t.data.getD (flat t.shape c) pad) ∧
      (∀ c, InRange (t.shape.map nextPow2) c → ¬ InRange t.shape c → out.getD (flat (t.shape.map nextPow2) c) pad = pad) ∧
      ∀ d ∈ t.shape, (∃ k, nextPow2 d = 2 ^ k) ∧ d ≤ nextPow2 d ∧ ∀ k, d ≤ 2 ^ k → nextPow2 d ≤ 2 ^ k := by
  obtain ⟨out, h1, h2, h3⟩ := padNextPow2_spec t pad hne hpos hlen
  refine ⟨out, h1, h2, ?_, ?_, fun d _ => ⟨⟨_, rfl⟩, le_nextPow2 d, fun k => nextPow2_min d k⟩⟩
  · intro c hc
    have hmono : ∀ {s c : List ℕ}, InRange s c → InRange (s.map nextPow2) c := by
      intro s
      induction s with
      | nil => intro c h; exact h
      | cons d ds ih =>
        intro c h
        obtain ⟨x, cs, rfl, hx, hcs⟩ := (inRange_cons _ _ _).1 h
        exact (inRange_cons_cons _ _ _ _).2 ⟨lt_of_lt_of_le hx (le_nextPow2 d), ih hcs⟩
    rw [h3 c (hmono hc), if_pos hc]
  · intro c hc hn
    rw [h3 c hc, if_neg hn]

/-- C28: the in-place and the recursive padding give the same tensor. -/
theorem C28_same {α : Type} [Zero α] (t : Tensor α) (hne : t.shape ≠ []) (hpos : ∀ d ∈ t.shape, 0 < d)
    (hlen : t.data.length = t.shape.prod) : t.padToShape (t.shape.map nextPow2) = t.padNextPow2 0 := by
  have hd : List.Forall₂ (fun d T => 0 < d ∧ d ≤ T) t.shape (t.shape.map nextPow2) := by
    rw [List.forall₂_map_right_iff, List.forall₂_same]
    intro d hd
    exact ⟨hpos d hd, le_nextPow2 d⟩
  obtain ⟨o1, h1, h2, h3, h4⟩ := padToShape_spec t _ hlen hd
  obtain ⟨o2, g1, g2, g3⟩ := padNextPow2_spec t 0 hne hpos hlen
  rw [h1, g1]
  have : o1 = o2 := by
    apply ext_coords _ 0 _ _ h2 g2
    intro c hc
    rw [g3 c hc]
    split
    · rename_i h; exact h3 c h
    · rename_i h; exact h4 c hc h
  rw [this]

example : (⟨[2, 3], [1, 2, 3, 4, 5, 6]⟩ : Tensor ℤ).padToShape [3, 4] = some ⟨[3, 4], [1, 2, 3, 0, 4, 5, 6, 0, 0, 0, 0, 0]⟩ ∧
    (⟨[3, 1], [1, 2, 3]⟩ : Tensor ℤ).padNextPow2 7 = some ⟨[4, 1], [1, 2, 3, 7]⟩ ∧
    List.Forall₂ (fun d T => 0 < d ∧ d ≤ T) [2, 3] [3, 4] := by decide +kernel

/-! ### C29 -/

/-- Entries of a padded matrix. -/
theorem pad2d_entries {α : Type} [Zero α] (t : Tensor α) (m n m' n' : ℕ) (hs : t.shape = [m, n]) (hlen : t.data.length = m * n)
    (hm : 0 < m ∧ m ≤ m') (hn : 0 < n ∧ n ≤ n') :
    ∃ out, t.padToShape [m', n'] = some ⟨[m', n'], out⟩ ∧ out.length = m' * n' ∧ ∀ i j, i < m' → j < n' →
      out.getD (i * n' + j) 0 = if i < m ∧ j < n then t.data.getD (i * n + j) 0 else 0 := by
  obtain ⟨out, h1, h2, h3, h4⟩ := padToShape_spec t [m', n'] (by rw [hs]; simpa using hlen)
    (by rw [hs]; exact .cons hm (.cons hn .nil))
  refine ⟨out, h1, by simpa using h2, ?_⟩
  intro i j hi hj
  have hiff : InRange t.shape [i, j] ↔ i < m ∧ j < n := by
    rw [hs]; simp [inRange_cons_cons, inRange_nil]
  split
  · rename_i h
    have := h3 [i, j] (hiff.2 h)
    rwa [hs, flat_two, flat_two] at this
  · rename_i h
    have := h4 [i, j] (by simp [inRange_cons_cons, inRange_nil, hi, hj]) (fun h' => h (hiff.1 h'))
    rwa [flat_two] at this

/-- C29: the product of padded matrices is the padded product. -/
theorem C29_matmul {α : Type} [Semiring α] (x y : Tensor α) (m n p m' n' p' : ℕ) (hx : x.shape = [m, n]) (hy : y.shape = [n, p])
    (hxl : x.data.length = m * n) (hyl : y.data.length = n * p) (hm : 0 < m ∧ m ≤ m') (hn : 0 < n ∧ n ≤ n')
    (hp : 0 < p ∧ p ≤ p') :
    ∃ r, ((x.padToShape [m', n']).bind fun x' => (y.padToShape [n', p']).bind fun y' => x'.matmul y') = some r ∧
      ((x.matmul y).bind fun z => z.padToShape [m', p']) = some r := by
  obtain ⟨dx, hx1, hx2, hx3⟩ := pad2d_entries x m n m' n' hx hxl hm hn
  obtain ⟨dy, hy1, hy2, hy3⟩ := pad2d_entries y n p n' p' hy hyl hn hp
  obtain ⟨dz, hz1, hz2, hz3⟩ := matmul_spec x y m n p hx hy hxl hyl
  obtain ⟨dr, hr1, hr2, hr3⟩ := pad2d_entries ⟨[m, p], dz⟩ m p m' p' rfl hz2 hm hp
  obtain ⟨dq, hq1, hq2, hq3⟩ := matmul_spec ⟨[m', n'], dx⟩ ⟨[n', p'], dy⟩ m' n' p' rfl rfl hx2 hy2
  refine ⟨⟨[m', p'], dr⟩, ?_, by rw [hz1, Option.bind_some, hr1]⟩
  rw [hx1, Option.bind_some, hy1, Option.bind_some, hq1]
  have : dq = dr := by
    apply ext_coords [m', p'] 0
    · simpa using hq2
    · simpa using hr2
    · intro c hc
      obtain ⟨i, cs, rfl, hi, hc⟩ := (inRange_cons _ _ _).1 hc
      obtain ⟨j, cs, rfl, hj, hc⟩ := (inRange_cons _ _ _).1 hc
      rw [inRange_nil] at hc
      subst hc
      rw [flat_two, hq3 i j hi hj, hr3 i j hi hj]
      have hterm : ∀ k ∈ Finset.range n', dx.getD (i * n' + k) 0 * dy.getD (k * p' + j) 0
          = if i < m ∧ j < p then (if k < n then x.data.getD (i * n + k) 0 * y.data.getD (k * p + j) 0 else 0) else 0 := by
        intro k hk
        rw [Finset.mem_range] at hk
        rw [hx3 i k hi hk, hy3 k j hk hj]
        by_cases h1 : i < m <;> by_cases h2 : j < p <;> by_cases h3 : k < n <;> simp [h1, h2, h3]
      rw [Finset.sum_congr rfl hterm]
      by_cases h : i < m ∧ j < p
      · simp only [if_pos h]
        rw [hz3 i j h.1 h.2, ← Finset.sum_filter]
        congr 1
        ext k
        simp only [Finset.mem_filter, Finset.mem_range]
        omega
      · simp only [if_neg h, Finset.sum_const_zero]
  rw [this]

/-- Entries of a matrix fitted into a larger one. -/
theorem fit_entries {α : Type} [Zero α] (t : Tensor α) (m n m' n' : ℕ) (hs : t.shape = [m, n]) (hlen : t.data.length = m * n)
    (hm : m ≤ m') (hn : n ≤ n') :
    ∃ out, t.reshapeToFit2d [m', n'] = some ⟨[m', n'], out⟩ ∧ out.length = m' * n' ∧ ∀ i j, i < m' → j < n' →
      out.getD (i * n' + j) 0 = if i < m ∧ j < n then t.data.getD (i * n + j) 0 else 0 := by
  refine ⟨(List.range (m' * n')).map fun idx => if idx / n' < m ∧ idx % n' < n then t.data.getD (idx / n' * n + idx % n') 0 else 0,
    ?_, by simp, ?_⟩
  · unfold Tensor.reshapeToFit2d
    rw [hs]
    simp only [hm, hn, and_self, if_true]
    rw [mapM_some' _ fun idx => if idx / n' < m ∧ idx % n' < n then t.data.getD (idx / n' * n + idx % n') 0 else 0]
    · rfl
    · intro idx _
      by_cases h : idx / n' < m ∧ idx % n' < n
      · rw [if_pos h, if_pos h]
        apply getElem?_of_lt
        rw [hlen]
        exact mul_add_lt h.1 h.2
      · rw [if_neg h, if_neg h]
  · intro i j hi hj
    rw [getD_map_range' _ _ _ _ (mul_add_lt hi hj), mul_add_div' hj, mul_add_mod' hj]

/-- C29: a dense layer, padded: matrix, bias and input fitted into larger ones. The result is the padded result. -/
theorem C29_dense {α : Type} [Semiring α] (x v b : Tensor α) (m n m' n' : ℕ) (hx : x.shape = [m, n]) (hv : v.shape = [n])
    (hb : b.shape = [m]) (hxl : x.data.length = m * n) (hvl : v.data.length = n) (hbl : b.data.length = m) (hm : m ≤ m')
    (hn : n ≤ n') :
    ∃ r, ((x.reshapeToFit2d [m', n']).bind fun x' => (v.pad1d n').bind fun v' => (b.pad1d m').bind fun b' =>
        (x'.matvec v').bind fun y => y.add b') = some r ∧
      (((x.matvec v).bind fun y => y.add b).bind fun y => y.pad1d m') = some r := by
  obtain ⟨dx, hx1, hx2, hx3⟩ := fit_entries x m n m' n' hx hxl hm hn
  have hv1 : v.pad1d n' = some ⟨[n'], resize n' 0 v.data⟩ := by unfold Tensor.pad1d; rw [hv]
  have hb1 : b.pad1d m' = some ⟨[m'], resize m' 0 b.data⟩ := by unfold Tensor.pad1d; rw [hb]
  obtain ⟨dy, hy1, hy2, hy3⟩ := matvec_spec x v m n hx hv hxl hvl
  obtain ⟨dq, hq1, hq2, hq3⟩ := matvec_spec ⟨[m', n'], dx⟩ ⟨[n'], resize n' 0 v.data⟩ m' n' rfl rfl hx2 (length_resize _ _ _)
  have hadd : ∀ (k : ℕ) (a c : List α), a.length = k → c.length = k → (⟨[k], a⟩ : Tensor α).add ⟨[k], c⟩
      = some ⟨[k], (List.range k).map fun i => a.getD i 0 + c.getD i 0⟩ := by
    intro k a c ha hc
    unfold Tensor.add
    rw [if_pos rfl]
    simp only
    rw [mapM_some' _ fun i => a.getD i 0 + c.getD i 0, ha]
    · rfl
    · intro i hi
      rw [List.mem_range] at hi
      rw [getElem?_of_lt a i 0 hi, getElem?_of_lt c i 0 (by omega)]
      rfl
  obtain ⟨bs, bd⟩ := b
  simp only at hb hbl hb1
  subst hb
  refine ⟨⟨[m'], resize m' 0 ((List.range m).map fun i => dy.getD i 0 + bd.getD i 0)⟩, ?_, ?_⟩
  · rw [hx1, Option.bind_some, hv1, Option.bind_some, hb1, Option.bind_some, hq1, Option.bind_some,
      hadd m' dq _ hq2 (length_resize _ _ _)]
    congr 2
    apply List.ext_getElem
    · simp [length_resize]
    · intro i h1 h2
      have hi : i < m' := by simpa using h1
      rw [List.getElem_map, List.getElem_range, ← List.getD_eq_getElem _ 0 h2, getD_resize, if_pos hi, getD_resize, if_pos hi,
        hq3 i hi]
      have hterm : ∀ k ∈ Finset.range n', dx.getD (i * n' + k) 0 * (resize n' 0 v.data).getD k 0
          = if i < m then (if k < n then x.data.getD (i * n + k) 0 * v.data.getD k 0 else 0) else 0 := by
        intro k hk
        rw [Finset.mem_range] at hk
        rw [hx3 i k hi hk, getD_resize, if_pos hk]
        by_cases h1 : i < m <;> by_cases h3 : k < n <;> simp [h1, h3]
      show ∑ k ∈ Finset.range n', dx.getD (i * n' + k) 0 * (resize n' 0 v.data).getD k 0 + _ = _
      rw [Finset.sum_congr rfl hterm]
      by_cases h : i < m
      · simp only [if_pos h]
        rw [getD_map_range' _ _ _ _ h, hy3 i h, ← Finset.sum_filter]
        congr 2
        ext k
        simp only [Finset.mem_filter, Finset.mem_range]
        omega
      · simp only [if_neg h, Finset.sum_const_zero]
        rw [List.getD_eq_default bd _ (by omega), add_zero, List.getD_eq_default _ _ (by simpa using Nat.not_lt.1 h)]
  · rw [hy1, Option.bind_some, hadd m dy bd hy2 hbl, Option.bind_some]
    rfl

/-- C29: garbage. A matrix for a flattened c×h×w input is spread over the positions of the padded cp×hp×wp input; applied to any
padded input, whatever its entries outside c×h×w are, it gives the original result, and zero in the added rows. -/
theorem C29_garbage {α : Type} [Semiring α] (x v v' : Tensor α) (rows c h w rows' cp hp wp : ℕ)
    (hx : x.shape = [rows, c * (h * w)]) (hxl : x.data.length = rows * (c * (h * w)))
    (hv : v.shape = [c * (h * w)]) (hvl : v.data.length = c * (h * w))
    (hv' : v'.shape = [cp * (hp * wp)]) (hvl' : v'.data.length = cp * (hp * wp))
    (hr : rows ≤ rows') (hc : c ≤ cp) (hh : h ≤ hp) (hw : w ≤ wp)
    (hagree : ∀ k, InRange [c, h, w] k → v'.data.getD (flat [cp, hp, wp] k) 0 = v.data.getD (flat [c, h, w] k) 0) :
    ∃ out out', x.matvec v = some ⟨[rows], out⟩ ∧ out.length = rows ∧
      ((x.padIgnoreGarbage [c, h, w] [cp, hp, wp] [rows', cp * (hp * wp)]).bind fun x' => x'.matvec v')
        = some ⟨[rows'], out'⟩ ∧ out'.length = rows' ∧
      (∀ i, i < rows → out'.getD i 0 = out.getD i 0) ∧ (∀ i, rows ≤ i → i < rows' → out'.getD i 0 = 0) := by
  obtain ⟨out, h1, h2, h3⟩ := matvec_spec x v rows (c * (h * w)) hx hv hxl hvl
  obtain ⟨E, hE⟩ : ∃ E : ℕ → α, E = fun loc => if loc / (cp * (hp * wp)) < rows ∧ loc / (hp * wp) % cp < c ∧ loc / wp % hp < h ∧
      loc % wp < w then x.data.getD (loc / (hp * wp) % cp * h * w + loc / wp % hp * w + loc % wp +
        loc / (cp * (hp * wp)) * (c * (h * w))) 0 else 0 := ⟨_, rfl⟩
  have hpad : x.padIgnoreGarbage [c, h, w] [cp, hp, wp] [rows', cp * (hp * wp)]
      = some ⟨[rows', cp * (hp * wp)], (List.range (rows' * (cp * (hp * wp)))).map E⟩ := by
    unfold Tensor.padIgnoreGarbage
    rw [hx]
    simp only
    rw [mapM_some' _ E]
    · rfl
    · intro loc _
      unfold garbageEntry
      rw [hE]
      simp only
      split
      · rename_i hcond
        obtain ⟨g1, g2, g3, g4⟩ := hcond
        apply getElem?_of_lt
        rw [hxl]
        have hin := mul_add_lt g1 (mul_add_lt g2 (mul_add_lt g3 g4))
        rw [show loc / (hp * wp) % cp * h * w + loc / wp % hp * w + loc % wp + loc / (cp * (hp * wp)) * (c * (h * w))
          = loc / (cp * (hp * wp)) * (c * (h * w)) + (loc / (hp * wp) % cp * (h * w) + (loc / wp % hp * w + loc % wp)) by ring]
        exact hin
      · rfl
  obtain ⟨out', q1, q2, q3⟩ := matvec_spec ⟨[rows', cp * (hp * wp)], (List.range (rows' * (cp * (hp * wp)))).map E⟩ v' rows'
    (cp * (hp * wp)) rfl hv' (by simp) hvl'
  have hEval : ∀ i ch y z, ch < cp → y < hp → z < wp → E (i * (cp * (hp * wp)) + (ch * (hp * wp) + (y * wp + z)))
      = if i < rows ∧ ch < c ∧ y < h ∧ z < w then x.data.getD (i * (c * (h * w)) + (ch * (h * w) + (y * w + z))) 0 else 0 := by
    intro i ch y z hch hy hz
    have e0 := mul_add_lt hy hz
    have e1 := mul_add_lt hch e0
    have d1 : (i * (cp * (hp * wp)) + (ch * (hp * wp) + (y * wp + z))) / (cp * (hp * wp)) = i := mul_add_div' e1
    have d2 : (i * (cp * (hp * wp)) + (ch * (hp * wp) + (y * wp + z))) / (hp * wp) % cp = ch := by
      rw [show i * (cp * (hp * wp)) + (ch * (hp * wp) + (y * wp + z)) = (i * cp + ch) * (hp * wp) + (y * wp + z) by ring,
        mul_add_div' e0, mul_add_mod' hch]
    have d3 : (i * (cp * (hp * wp)) + (ch * (hp * wp) + (y * wp + z))) / wp % hp = y := by
      rw [show i * (cp * (hp * wp)) + (ch * (hp * wp) + (y * wp + z)) = ((i * cp + ch) * hp + y) * wp + z by ring,
        mul_add_div' hz, mul_add_mod' hy]
    have d4 : (i * (cp * (hp * wp)) + (ch * (hp * wp) + (y * wp + z))) % wp = z := by
      rw [show i * (cp * (hp * wp)) + (ch * (hp * wp) + (y * wp + z)) = ((i * cp + ch) * hp + y) * wp + z by ring,
        mul_add_mod' hz]
    rw [hE]
    simp only [d1, d2, d3, d4]
    congr 2
    ring
  have hsum : ∀ i, i < rows' → out'.getD i 0 = if i < rows then out.getD i 0 else 0 := by
    intro i hi
    rw [q3 i hi, sum_range_mul' (hp * wp)]
    have hinner : ∀ ch ∈ Finset.range cp, ∑ j ∈ Finset.range (hp * wp),
        ((List.range (rows' * (cp * (hp * wp)))).map E).getD (i * (cp * (hp * wp)) + (ch * (hp * wp) + j)) 0
          * v'.data.getD (ch * (hp * wp) + j) 0
        = if ch < c then ∑ j ∈ Finset.range (h * w), (if i < rows then x.data.getD (i * (c * (h * w)) + (ch * (h * w) + j)) 0
            * v.data.getD (ch * (h * w) + j) 0 else 0) else 0 := by
      intro ch hch
      rw [Finset.mem_range] at hch
      rw [sum_range_mul' wp, sum_range_mul' w]
      have hin2 : ∀ y ∈ Finset.range hp, ∑ z ∈ Finset.range wp,
          ((List.range (rows' * (cp * (hp * wp)))).map E).getD (i * (cp * (hp * wp)) + (ch * (hp * wp) + (y * wp + z))) 0
            * v'.data.getD (ch * (hp * wp) + (y * wp + z)) 0
          = if y < h then (∑ z ∈ Finset.range w, if ch < c then (if i < rows then
              x.data.getD (i * (c * (h * w)) + (ch * (h * w) + (y * w + z))) 0 * v.data.getD (ch * (h * w) + (y * w + z)) 0 else 0)
              else 0) else 0 := by
        intro y hy
        rw [Finset.mem_range] at hy
        by_cases hyh : y < h
        · rw [if_pos hyh, ← sum_range_le w wp _ hw]
          apply Finset.sum_congr rfl
          intro z hz
          rw [Finset.mem_range] at hz
          have e0 := mul_add_lt hy hz
          have e1 := mul_add_lt hch e0
          rw [getD_map_range' _ _ _ _ (mul_add_lt hi e1), hEval i ch y z hch hy hz]
          by_cases g1 : i < rows <;> by_cases g2 : ch < c <;> by_cases g3 : z < w <;> simp [g1, g2, g3, hyh]
          have := hagree [ch, y, z] (by simp [inRange_cons_cons, inRange_nil, g2, g3, hyh])
          rw [flat_three, flat_three] at this
          rw [List.getD_eq_getElem?_getD, List.getD_eq_getElem?_getD] at this
          rw [this]
        · rw [if_neg hyh]
          apply Finset.sum_eq_zero
          intro z hz
          rw [Finset.mem_range] at hz
          have e1 := mul_add_lt hch (mul_add_lt hy hz)
          rw [getD_map_range' _ _ _ _ (mul_add_lt hi e1), hEval i ch y z hch hy hz, if_neg (by tauto), zero_mul]
      rw [Finset.sum_congr rfl hin2, sum_range_le h hp _ hh]
      by_cases g : ch < c
      · simp only [if_pos g]
      · simp only [if_neg g, Finset.sum_const_zero]
    show ∑ ch ∈ Finset.range cp, ∑ j ∈ Finset.range (hp * wp),
        ((List.range (rows' * (cp * (hp * wp)))).map E).getD (i * (cp * (hp * wp)) + (ch * (hp * wp) + j)) 0
          * v'.data.getD (ch * (hp * wp) + j) 0 = _
    rw [Finset.sum_congr rfl hinner, sum_range_le c cp _ hc]
    by_cases g : i < rows
    · simp only [if_pos g]
      rw [h3 i g, sum_range_mul' (h * w)]
    · simp only [if_neg g, Finset.sum_const_zero]
  refine ⟨out, out', h1, h2, by rw [hpad, Option.bind_some, q1], q2, ?_, ?_⟩
  · intro i hi; rw [hsum i (by omega), if_pos hi]
  · intro i hi hi'; rw [hsum i hi', if_neg (by omega)]

example : let x : Tensor ℤ := ⟨[1, 3], [1, 2, 3]⟩
    let v : Tensor ℤ := ⟨[3], [5, 6, 7]⟩
    let v' : Tensor ℤ := ⟨[4], [5, 6, 7, 99]⟩
    x.matvec v = some ⟨[1], [38]⟩ ∧
    ((x.padIgnoreGarbage [1, 1, 3] [1, 1, 4] [2, 4]).bind fun x' => x'.matvec v') = some ⟨[2], [38, 0]⟩ ∧
    ∀ k, InRange [1, 1, 3] k → v'.data.getD (flat [1, 1, 4] k) 0 = v.data.getD (flat [1, 1, 3] k) 0 := by
  refine ⟨by decide +kernel, by decide +kernel, ?_⟩
  intro k hk
  obtain ⟨a, cs, rfl, ha, hk⟩ := (inRange_cons _ _ _).1 hk
  obtain ⟨b, cs, rfl, hb, hk⟩ := (inRange_cons _ _ _).1 hk
  obtain ⟨c, cs, rfl, hc, hk⟩ := (inRange_cons _ _ _).1 hk
  rw [inRange_nil] at hk
  subst hk
  interval_cases a; interval_cases b; interval_cases c <;> decide +kernel

/-! ### C30 -/

/-- C30: max pooling over the last two dimensions. Each output entry is an upper bound of its window and occurs in it. -/
theorem C30_maxpool {α : Type} [LinearOrder α] (t : Tensor α) (outer : List ℕ) (h w kernel stride : ℕ)
    (hs : t.shape = outer ++ [h, w]) (hlen : t.data.length = t.shape.prod) (hk : 0 < kernel) (hkh : kernel ≤ h)
    (hkw : kernel ≤ w) (hstr : 0 < stride) (z : α) :
    ∃ out, t.maxpool2d kernel stride = some ⟨outer ++ [(h - kernel) / stride + 1, (w - kernel) / stride + 1], out⟩ ∧
      out.length = (outer ++ [(h - kernel) / stride + 1, (w - kernel) / stride + 1]).prod ∧
      ∀ n i j, InRange (outer ++ [(h - kernel) / stride + 1, (w - kernel) / stride + 1]) (n ++ [i, j]) → n.length = outer.length →
        (∀ a b, a < kernel → b < kernel →
          t.data.getD (flat t.shape (n ++ [i * stride + a, j * stride + b])) z
            ≤ out.getD (flat (outer ++ [(h - kernel) / stride + 1, (w - kernel) / stride + 1]) (n ++ [i, j])) z) ∧
        ∃ a b, a < kernel ∧ b < kernel ∧ InRange t.shape (n ++ [i * stride + a, j * stride + b]) ∧
          out.getD (flat (outer ++ [(h - kernel) / stride + 1, (w - kernel) / stride + 1]) (n ++ [i, j])) z
            = t.data.getD (flat t.shape (n ++ [i * stride + a, j * stride + b])) z := by
  obtain ⟨oh, hoh⟩ : ∃ x, x = (h - kernel) / stride + 1 := ⟨_, rfl⟩
  obtain ⟨ow, how⟩ : ∃ x, x = (w - kernel) / stride + 1 := ⟨_, rfl⟩
  rw [← hoh, ← how]
  have hoh0 : 0 < oh := hoh ▸ Nat.succ_pos _
  have how0 : 0 < ow := how ▸ Nat.succ_pos _
  have hrow : ∀ i a, i < oh → a < kernel → i * stride + a < h := by
    intro i a hi ha
    have h1 : i * stride ≤ h - kernel := by
      calc i * stride ≤ (h - kernel) / stride * stride := Nat.mul_le_mul_right _ (by omega)
        _ ≤ h - kernel := Nat.div_mul_le_self _ _
    omega
  have hcol : ∀ j b, j < ow → b < kernel → j * stride + b < w := by
    intro j b hj hb
    have h1 : j * stride ≤ w - kernel := by
      calc j * stride ≤ (w - kernel) / stride * stride := Nat.mul_le_mul_right _ (by omega)
        _ ≤ w - kernel := Nat.div_mul_le_self _ _
    omega
  have hprod : t.shape.prod = outer.prod * (h * w) := by rw [hs]; simp
  have flat2 : ∀ (s n : List ℕ) (p q i j : ℕ), s.length = n.length → flat (s ++ [p, q]) (n ++ [i, j]) = flat s n * (p * q) + (i * q + j) := by
    intro s n p q i j hl
    rw [show s ++ [p, q] = (s ++ [p]) ++ [q] by simp, show n ++ [i, j] = (n ++ [i]) ++ [j] by simp,
      flat_snoc _ _ _ _ (by simp [hl]), flat_snoc _ _ _ _ hl]
    ring
  -- every window
  have hwin : ∀ idx, idx < outer.prod * oh * ow → ∃ v, poolWindow t.data (idx / (oh * ow) * (h * w)) w stride kernel
      (idx / ow % oh) (idx % ow) = some v ∧ (∀ a b, a < kernel → b < kernel → t.data.getD (idx / (oh * ow) * (h * w) +
        (idx / ow % oh * stride + a) * w + (idx % ow * stride + b)) z ≤ v) ∧ ∃ a b, a < kernel ∧ b < kernel ∧
        v = t.data.getD (idx / (oh * ow) * (h * w) + (idx / ow % oh * stride + a) * w + (idx % ow * stride + b)) z := by
    intro idx hidx
    apply poolWindow_spec _ _ _ _ _ _ _ _ hk
    intro a b ha hb
    have g1 : idx / (oh * ow) < outer.prod := (Nat.div_lt_iff_lt_mul (Nat.mul_pos hoh0 how0)).2 (by rwa [mul_assoc] at hidx)
    have g2 := hrow (idx / ow % oh) a (Nat.mod_lt _ hoh0) ha
    have g3 := hcol (idx % ow) b (Nat.mod_lt _ how0) hb
    have := mul_add_lt g1 (mul_add_lt g2 g3)
    rw [hlen, hprod]
    omega
  obtain ⟨V, hV⟩ : ∃ V : ℕ → α, ∀ idx, idx < outer.prod * oh * ow → poolWindow t.data (idx / (oh * ow) * (h * w)) w stride kernel
      (idx / ow % oh) (idx % ow) = some (V idx) ∧ (∀ a b, a < kernel → b < kernel → t.data.getD (idx / (oh * ow) * (h * w) +
        (idx / ow % oh * stride + a) * w + (idx % ow * stride + b)) z ≤ V idx) ∧ ∃ a b, a < kernel ∧ b < kernel ∧
        V idx = t.data.getD (idx / (oh * ow) * (h * w) + (idx / ow % oh * stride + a) * w + (idx % ow * stride + b)) z := by
    refine ⟨fun idx => (poolWindow t.data (idx / (oh * ow) * (h * w)) w stride kernel (idx / ow % oh) (idx % ow)).getD z, ?_⟩
    intro idx hidx
    obtain ⟨v, h1, h2, h3⟩ := hwin idx hidx
    beta_reduce
    rw [h1]
    exact ⟨rfl, h2, h3⟩
  refine ⟨(List.range (outer.prod * oh * ow)).map V, ?_, ?_, ?_⟩
  · unfold Tensor.maxpool2d
    rw [hs]
    simp only [List.reverse_append, List.reverse_cons, List.reverse_nil, List.nil_append, List.singleton_append, List.cons_append,
      List.reverse_reverse, hkh, hkw, hstr, and_self, if_true, ← hoh, ← how]
    rw [mapM_some' _ V]
    · simp
    · intro idx hidx
      exact (hV idx (List.mem_range.1 hidx)).1
  · simp [mul_assoc]
  · intro n i j hin hn
    have hsplit : InRange outer n ∧ i < oh ∧ j < ow := by
      rw [show outer ++ [oh, ow] = (outer ++ [oh]) ++ [ow] by simp, show n ++ [i, j] = (n ++ [i]) ++ [j] by simp,
        inRange_snoc _ _ _ _ (by simp [hn]), inRange_snoc _ _ _ _ hn.symm] at hin
      exact ⟨hin.1.1, hin.1.2, hin.2⟩
    obtain ⟨hno, hi, hj⟩ := hsplit
    have hidx : flat (outer ++ [oh, ow]) (n ++ [i, j]) = (flat outer n * oh + i) * ow + j := by
      rw [flat2 _ _ _ _ _ _ hn.symm]; ring
    have hlt : (flat outer n * oh + i) * ow + j < outer.prod * oh * ow := mul_add_lt (mul_add_lt (flat_lt hno) hi) hj
    obtain ⟨g1, g2, g3⟩ := hV _ hlt
    have d1 : ((flat outer n * oh + i) * ow + j) / (oh * ow) = flat outer n := by
      rw [mul_comm oh ow, ← Nat.div_div_eq_div_mul, mul_add_div' hj, mul_add_div' hi]
    have d2 : ((flat outer n * oh + i) * ow + j) / ow % oh = i := by rw [mul_add_div' hj, mul_add_mod' hi]
    have d3 : ((flat outer n * oh + i) * ow + j) % ow = j := mul_add_mod' hj
    have hpos : ∀ a b, flat t.shape (n ++ [i * stride + a, j * stride + b])
        = flat outer n * (h * w) + (i * stride + a) * w + (j * stride + b) := by
      intro a b
      rw [hs, flat2 _ _ _ _ _ _ hn.symm]; ring
    rw [d1, d2, d3] at g2 g3
    rw [hidx, getD_map_range' _ _ _ _ hlt]
    refine ⟨fun a b ha hb => by rw [hpos]; exact g2 a b ha hb, ?_⟩
    obtain ⟨a, b, ha, hb, he⟩ := g3
    refine ⟨a, b, ha, hb, ?_, by rw [hpos]; exact he⟩
    rw [hs, show outer ++ [h, w] = (outer ++ [h]) ++ [w] by simp,
      show n ++ [i * stride + a, j * stride + b] = (n ++ [i * stride + a]) ++ [j * stride + b] by simp,
      inRange_snoc _ _ _ _ (by simp [hn]), inRange_snoc _ _ _ _ hn.symm]
    exact ⟨⟨hno, hrow i a hi ha⟩, hcol j b hj hb⟩

example : (⟨[1, 4, 4], [1, 2, 3, 4, 5, 6, 7, 8, 9, 8, 7, 6, 5, 4, 3, 2]⟩ : Tensor ℤ).maxpool2d 2 2
      = some ⟨[1, 2, 2], [6, 8, 9, 7]⟩ ∧
    (⟨[3, 3], [1, 2, 3, 4, 5, 6, 7, 8, 9]⟩ : Tensor ℤ).maxpool2d 2 1 = some ⟨[2, 2], [5, 6, 8, 9]⟩ := by decide +kernel

/-! ### C33 -/

/-- C33: `argmax` of a nonempty list is the first index of a maximal entry. -/
theorem C33_argmax {α : Type} [LinearOrder α] (v : List α) (hne : v ≠ []) :
    ∃ i x, argmax v = some i ∧ v[i]? = some x ∧ (∀ (j : ℕ) y, v[j]? = some y → y ≤ x) ∧
      ∀ (j : ℕ) y, j < i → v[j]? = some y → y < x := by
  cases v with
  | nil => exact absurd rfl hne
  | cons a as =>
    obtain ⟨i, x, h1, h2⟩ := argmax_fold as [a] 0 a ⟨rfl, by
      intro j y hy
      cases j with
      | zero => simp at hy; exact le_of_eq hy.symm
      | succ j => simp at hy, by intro j y hj; omega⟩
    refine ⟨i, x, ?_, h2⟩
    unfold argmax
    simp only [List.zipIdx_cons, List.drop_one, List.tail_cons]
    simp only [List.length_singleton] at h1
    rw [Nat.zero_add, h1]

/-- C33: an empty list has no argmax. -/
theorem C33_argmax_empty {α : Type} [LinearOrder α] : argmax ([] : List α) = none := rfl

/-- C33: the method of tensors, which starts from the least value of the type. -/
theorem C33_tensor_argmax {α : Type} [LinearOrder α] (lo : α) (v : List α) (hlo : ∀ x ∈ v, lo ≤ x) (hne : v ≠ []) :
    ∃ x, v[tensorArgmax lo v]? = some x ∧ (∀ (j : ℕ) y, v[j]? = some y → y ≤ x) ∧
      ∀ (j : ℕ) y, j < tensorArgmax lo v → v[j]? = some y → y < x := by
  cases v with
  | nil => exact absurd rfl hne
  | cons a as =>
    have hstep : tensorArgmax lo (a :: as) = ((as.zipIdx 1).foldl (fun acc y => if acc.2 < y.1 then (y.2, y.1) else acc) (0, a)).1 := by
      unfold tensorArgmax
      rw [List.zipIdx_cons, List.foldl_cons]
      have : (if ((0, lo) : ℕ × α).2 < (a, 0).1 then (((a, 0) : α × ℕ).2, (a, 0).1) else (0, lo)) = (0, a) := by
        show (if lo < a then (0, a) else (0, lo)) = (0, a)
        split
        · rfl
        · rename_i h
          rw [le_antisymm (not_lt.1 h) (hlo a List.mem_cons_self)]
      rw [this]
    obtain ⟨i, x, h1, h2⟩ := argmax_fold as [a] 0 a ⟨rfl, by
      intro j y hy
      cases j with
      | zero => simp at hy; exact le_of_eq hy.symm
      | succ j => simp at hy, by intro j y hj; omega⟩
    simp only [List.length_singleton] at h1
    rw [hstep, h1]
    exact ⟨x, h2⟩

/-- The hypothesis on `lo` is needed: with a value below `lo` in front of `lo`, the maximum is at index 1 and index 0 is returned.
For floating point numbers `T::MIN` is the least finite value, and negative infinity is below it. -/
theorem C33_negative_infinity_false {α : Type} [LinearOrder α] (lo inf : α) (h : inf < lo) :
    tensorArgmax lo [inf, lo] = 0 ∧ argmax [inf, lo] = some 1 := by
  constructor
  · simp [tensorArgmax, not_lt.2 (le_of_lt h)]
  · simp [argmax, h]

example : argmax [3, 7, 7, 2] = some 1 ∧ tensorArgmax (-128) ([-5, -1, -1] : List ℤ) = 1 := by decide +kernel

/-! ### C34 -/

/-- C34: slicing a concatenation gives the two parts back; concatenating along the first dimension. -/
theorem C34_concat_slice {α : Type} (s t : Tensor α) (a a' b c : ℕ) (hs : s.shape = [a, b, c]) (ht : t.shape = [a', b, c])
    (hsl : s.data.length = a * (b * c)) (htl : t.data.length = a' * (b * c)) (ha : 0 < a) (ha' : 0 < a') :
    ∃ r, s.concat t = some r ∧ r.shape = [a + a', b, c] ∧ r.slice3d 0 a = some s ∧ r.slice3d a (a + a') = some t := by
  obtain ⟨ss, sd⟩ := s
  obtain ⟨ts, td⟩ := t
  simp only at hs ht hsl htl
  subst hs ht
  refine ⟨⟨[a + a', b, c], sd ++ td⟩, by simp [Tensor.concat], rfl, ?_, ?_⟩
  · unfold Tensor.slice3d
    have h1 : b * c * a ≤ (sd ++ td).length := by rw [List.length_append, hsl, mul_comm]; omega
    simp only
    rw [if_pos ⟨by omega, by omega, by omega, h1⟩]
    congr 2
    rw [mul_zero, List.drop_zero, mul_comm, ← hsl, List.take_left]
  · unfold Tensor.slice3d
    have h1 : b * c * (a + a') = (sd ++ td).length := by rw [List.length_append, hsl, htl]; ring
    simp only
    rw [if_pos ⟨by omega, by omega, by omega, le_of_eq h1⟩]
    congr 2
    · congr 1; omega
    · rw [h1, List.take_length, mul_comm, ← hsl, List.drop_left]

/-- C34: the same for matrices. -/
theorem C34_concat_slice_2d {α : Type} (s t : Tensor α) (a a' b : ℕ) (hs : s.shape = [a, b]) (ht : t.shape = [a', b])
    (hsl : s.data.length = a * b) (htl : t.data.length = a' * b) :
    ∃ r, s.concat t = some r ∧ r.shape = [a + a', b] ∧ r.slice2d 0 a = some s ∧ r.slice2d a (a + a') = some t := by
  obtain ⟨ss, sd⟩ := s
  obtain ⟨ts, td⟩ := t
  simp only at hs ht hsl htl
  subst hs ht
  refine ⟨⟨[a + a', b], sd ++ td⟩, by simp [Tensor.concat], rfl, ?_, ?_⟩
  · unfold Tensor.slice2d
    have h1 : a * b ≤ (sd ++ td).length := by rw [List.length_append, hsl]; omega
    simp only
    rw [if_pos ⟨by omega, h1⟩]
    congr 2
    rw [zero_mul, List.drop_zero, ← hsl, List.take_left]
  · unfold Tensor.slice2d
    have h1 : (a + a') * b = (sd ++ td).length := by rw [List.length_append, hsl, htl]; ring
    simp only
    rw [if_pos ⟨by omega, le_of_eq h1⟩]
    congr 2
    · congr 1; omega
    · rw [h1, List.take_length, ← hsl, List.drop_left]

/-- C34: slices along a dimension partition the data, in order; for a dimension before the last each slice has the shape of the
remaining dimensions. -/
theorem C34_slice_on_dim {α : Type} (t : Tensor α) (hlen : t.data.length = t.shape.prod) (hpos : ∀ d ∈ t.shape, 0 < d) (dim : ℕ)
    (hdim : dim + 1 < t.shape.length) :
    ∃ slices, t.sliceOnDim dim = some (slices, t.shape.drop (dim + 1)) ∧ slices.length = (t.shape.take (dim + 1)).prod ∧
      (∀ s ∈ slices, s.length = (t.shape.drop (dim + 1)).prod) ∧ slices.flatten = t.data := by
  obtain ⟨P, hP⟩ : ∃ P, P = (t.shape.drop (dim + 1)).prod := ⟨_, rfl⟩
  obtain ⟨M, hM⟩ : ∃ M, M = (t.shape.take (dim + 1)).prod := ⟨_, rfl⟩
  have hPpos : 0 < P := hP ▸ natProd_pos _ fun d hd => hpos d (List.mem_of_mem_drop hd)
  have hl : t.data.length = P * M := by
    rw [hlen, hP, hM, mul_comm, ← List.prod_append, List.take_append_drop]
  refine ⟨chunks P t.data, ?_, ?_, ?_, ?_⟩
  · unfold Tensor.sliceOnDim
    rw [if_pos (by omega)]
    simp only [show dim < t.shape.length - 1 by omega, if_true]
    rw [← hP, if_neg (by omega)]
  · rw [chunks_eq P M hPpos _ hl, ← hM]; simp
  · rw [chunks_eq P M hPpos _ hl, ← hP]
    intro s hs
    obtain ⟨i, hi, rfl⟩ := List.mem_map.1 hs
    rw [List.mem_range] at hi
    rw [List.length_take, List.length_drop, hl]
    have : P * i + P ≤ P * M := by rw [← Nat.mul_succ]; exact Nat.mul_le_mul_left _ hi
    omega
  · rw [chunks_eq P M hPpos _ hl]
    have : ∀ (M : ℕ) (l : List α), l.length = P * M → ((List.range M).map fun i => (l.drop (P * i)).take P).flatten = l := by
      intro M
      induction M with
      | zero => intro l h; simp at h; simp [h]
      | succ M ih =>
        intro l h
        rw [List.range_succ_eq_map, List.map_cons, List.flatten_cons, List.map_map]
        have h2 := ih (l.drop P) (by rw [List.length_drop, h, Nat.mul_succ]; omega)
        have h3 : ((List.range M).map ((fun i => (l.drop (P * i)).take P) ∘ Nat.succ))
            = (List.range M).map fun i => ((l.drop P).drop (P * i)).take P := by
          apply List.map_congr_left
          intro i _
          simp only [Function.comp, List.drop_drop]
          rw [Nat.mul_succ, add_comm]
        rw [h3, h2, mul_zero, List.drop_zero, List.take_append_drop]
    exact this M _ hl

/-- C34: stacking tensors on the first dimension puts their data one after the other. -/
theorem C34_stack_all {α : Type} (b c : ℕ) (t : Tensor α) (a : ℕ) (ht : t.shape = [a, b, c]) : ∀ (ts : List (Tensor α)),
    (∀ s ∈ ts, ∃ a', s.shape = [a', b, c]) →
    stackAll (t :: ts) = some ⟨[a + (ts.map fun s => s.shape.headD 0).sum, b, c], t.data ++ (ts.map Tensor.data).flatten⟩ := by
  intro ts
  induction ts generalizing t a with
  | nil =>
    intro _
    obtain ⟨s, d⟩ := t
    simp only at ht
    subst ht
    simp [stackAll]
  | cons s ts ih =>
    intro h
    obtain ⟨a', ha'⟩ := h s List.mem_cons_self
    have hc : t.concat s = some ⟨[a + a', b, c], t.data ++ s.data⟩ := by
      unfold Tensor.concat
      rw [ht, ha']
      simp
    have := ih ⟨[a + a', b, c], t.data ++ s.data⟩ (a + a') rfl fun x hx => h x (List.mem_cons_of_mem _ hx)
    unfold stackAll at this ⊢
    simp only at this ⊢
    rw [List.foldlM_cons, hc]
    simp only [Option.bind_eq_bind, Option.bind_some]
    rw [this]
    simp [ha', add_assoc]

/-- C34: broadcasting. `expand` succeeds for every shape the tensor can be broadcast to, and every entry of the result is the
entry of the original at the coordinate given by the broadcasting rules. -/
theorem C34_expand {α : Type} (t : Tensor α) (hlen : t.data.length = t.shape.prod) (shape : List ℕ)
    (hrank : t.shape.length ≤ shape.length) (hpos : ∀ d ∈ shape, 0 < d)
    (hfit : List.Forall₂ (fun old new => old = 1 ∨ old = new) t.shape (shape.drop (shape.length - t.shape.length))) (z : α) :
    ∃ out, t.expand shape = some ⟨shape, out⟩ ∧ out.length = shape.prod ∧
      ∀ c, InRange shape c → out.getD (flat shape c) z = t.data.getD (flat t.shape (broadcastCoord t.shape c)) z := by
  obtain ⟨padded, hpad⟩ : ∃ p, p = List.replicate (shape.length - t.shape.length) 1 ++ t.shape := ⟨_, rfl⟩
  have hpl : padded.length = shape.length := by rw [hpad]; simp; omega
  have hok : ∀ p ∈ shape.zip padded, expandOk p.1 p.2 = true := by
    have hf2 : List.Forall₂ (fun n o => expandOk n o = true) shape padded := by
      have hsplit : shape = shape.take (shape.length - t.shape.length) ++ shape.drop (shape.length - t.shape.length) :=
        (List.take_append_drop _ _).symm
      rw [hpad]
      rw [hsplit]
      apply List.rel_append
      · have hl : (shape.take (shape.length - t.shape.length)).length = shape.length - t.shape.length := by simp
        have hp : ∀ d ∈ shape.take (shape.length - t.shape.length), 0 < d := fun d hd => hpos d (List.mem_of_mem_take hd)
        have gen : ∀ (l : List ℕ), (∀ d ∈ l, 0 < d) → List.Forall₂ (fun n o => expandOk n o = true) l (List.replicate l.length 1) := by
          intro l
          induction l with
          | nil => intro _; exact .nil
          | cons d l ih =>
            intro h
            refine .cons ?_ (ih fun x hx => h x (List.mem_cons_of_mem _ hx))
            have := h d List.mem_cons_self
            simp [expandOk]; omega
        have := gen _ hp
        rw [hl] at this
        convert this using 2
        simp
      · have hp : ∀ d ∈ shape.drop (shape.length - t.shape.length), 0 < d := fun d hd => hpos d (List.mem_of_mem_drop hd)
        revert hfit hp
        generalize shape.drop (shape.length - t.shape.length) = l
        intro hfit hp
        have : List.Forall₂ (fun n o => expandOk n o = true) l t.shape := by
          clear hpl hpad hsplit hlen hrank
          revert hfit
          generalize t.shape = s
          intro hfit
          induction hfit with
          | nil => exact .nil
          | cons h1 h2 ih =>
            refine .cons ?_ (ih fun d hd => hp d (List.mem_cons_of_mem _ hd))
            have := hp _ List.mem_cons_self
            simp only [expandOk, Bool.and_eq_true, Bool.or_eq_true, beq_iff_eq, decide_eq_true_eq]
            exact ⟨by omega, h1⟩
        exact this
    intro p hp
    obtain ⟨_, h⟩ := List.forall₂_iff_zip.1 hf2
    exact h hp
  have hprod : padded.prod = t.shape.prod := by rw [hpad]; simp
  have hokR : ∀ p ∈ shape.reverse.zip padded.reverse, expandOk p.1 p.2 = true := by
    rw [← zip_reverse' _ _ hpl.symm]; intro p hp; exact hok p (List.mem_reverse.1 hp)
  obtain ⟨h1, h2⟩ := expandLoop_spec z shape.reverse padded.reverse t.data 1 (by omega) (by simp [hpl]) hokR
    (by rw [one_mul, prod_reverse', hprod, hlen])
  rw [← zip_reverse' _ _ hpl.symm] at h1 h2
  rw [one_mul, prod_reverse'] at h1
  refine ⟨_, ?_, h1, ?_⟩
  · unfold Tensor.expand
    rw [if_neg (by omega)]
    simp only [← hpad]
    rw [if_pos (by rw [List.all_eq_true]; intro p hp; exact hok p hp)]
    rw [Tensor.new, if_pos h1.symm]
  · intro c hc
    have hcl := inRange_length hc
    have := h2 0 c.reverse (by omega) (List.forall₂_reverse_iff.2 hc)
    rw [zero_add, one_mul, zero_add, one_mul, ← flat_eq_rev _ _ hcl.symm] at this
    rw [this]
    congr 1
    rw [← zip_reverse' _ _ (by omega), List.map_reverse, ← flat_eq_rev _ _ (by simp; omega)]
    -- drop the leading ones
    have hsplit : c = c.take (c.length - t.shape.length) ++ c.drop (c.length - t.shape.length) := (List.take_append_drop _ _).symm
    rw [hpad, broadcastCoord]
    conv_lhs => rw [hsplit]
    rw [List.zip_append (by simp; omega), List.map_append]
    have hk : (c.take (c.length - t.shape.length)).length = shape.length - t.shape.length := by simp; omega
    rw [← hk]
    generalize c.take (c.length - t.shape.length) = l
    induction l with
    | nil => simp
    | cons x l ih =>
      simp only [List.length_cons, List.replicate_succ, List.zip_cons_cons, List.map_cons, List.cons_append, flat, if_true, zero_mul,
        zero_add]
      exact ih

/-- C34: `expand` fails for every shape the tensor cannot be broadcast to. -/
theorem C34_expand_rejects {α : Type} (t : Tensor α) (shape : List ℕ) :
    (shape.length < t.shape.length → t.expand shape = none) ∧
    (∀ i, i < t.shape.length → t.shape.length ≤ shape.length → t.shape.getD i 0 ≠ 1 →
      t.shape.getD i 0 ≠ shape.getD (shape.length - t.shape.length + i) 0 → t.expand shape = none) := by
  refine ⟨fun h => by unfold Tensor.expand; rw [if_pos h], ?_⟩
  intro i hi hl h1 h2
  unfold Tensor.expand
  rw [if_neg (by omega)]
  simp only
  rw [if_neg]
  intro hall
  rw [List.all_eq_true] at hall
  have hlen1 : shape.length - t.shape.length + i < shape.length := by omega
  have hlen2 : shape.length - t.shape.length + i < (List.replicate (shape.length - t.shape.length) 1 ++ t.shape).length := by
    simp; omega
  have := hall _ (List.mem_iff_getElem.2 ⟨shape.length - t.shape.length + i, by simp; omega, rfl⟩)
  rw [List.getElem_zip] at this
  simp only [expandOk, Bool.and_eq_true, Bool.or_eq_true, beq_iff_eq, decide_eq_true_eq] at this
  have e1 : (List.replicate (shape.length - t.shape.length) 1 ++ t.shape)[shape.length - t.shape.length + i] = t.shape[i] := by
    rw [List.getElem_append_right (by simp)]
    simp
  rw [e1] at this
  rw [List.getD_eq_getElem _ _ hi] at h1 h2
  rw [List.getD_eq_getElem _ _ hlen1] at h2
  tauto

/-- `concat` of tensors of the same rank never compares the other dimensions. For all 2d shapes with different row lengths it
returns a tensor whose number of entries does not match its shape. -/
theorem C34_concat_unchecked_false {α : Type} (s t : Tensor α) (a a' b b' : ℕ) (hs : s.shape = [a, b]) (ht : t.shape = [a', b'])
    (hsl : s.data.length = a * b) (htl : t.data.length = a' * b') (ha' : 0 < a') (hb : b ≠ b') :
    ∃ r, s.concat t = some r ∧ r.shape = [a + a', b] ∧ r.data.length ≠ r.shape.prod := by
  refine ⟨⟨[a + a', b], s.data ++ t.data⟩, ?_, rfl, ?_⟩
  · unfold Tensor.concat
    rw [hs, ht]
    simp
  · simp only [List.length_append, hsl, htl, List.prod_cons, List.prod_nil, mul_one]
    intro h
    rw [add_mul] at h
    have : a' * b' = a' * b := by omega
    exact hb (Nat.eq_of_mul_eq_mul_left ha' this).symm

example : (⟨[1, 2], [1, 2]⟩ : Tensor ℤ).concat ⟨[2, 2], [3, 4, 5, 6]⟩ = some ⟨[3, 2], [1, 2, 3, 4, 5, 6]⟩ ∧
    (⟨[2, 1], [1, 2]⟩ : Tensor ℤ).expand [2, 2, 3] = some ⟨[2, 2, 3], [1, 1, 1, 2, 2, 2, 1, 1, 1, 2, 2, 2]⟩ ∧
    broadcastCoord [2, 1] [1, 0, 2] = [0, 0] ∧
    (⟨[1, 2], [1, 2]⟩ : Tensor ℤ).concat ⟨[1, 1], [3]⟩ = some ⟨[2, 2], [1, 2, 3]⟩ := by
  refine ⟨?_, ?_, ?_, ?_⟩ <;> decide +kernel

end Props
