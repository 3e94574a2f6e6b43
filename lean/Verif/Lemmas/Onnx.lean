import Verif.Spec.Onnx
import Verif.Lemmas.TensorOps
import Verif.Lemmas.Conv
import Verif.Lemmas.LayerPad
import Verif.Props.Tensor

namespace Lemmas

open Model Spec

variable {R : Type} [CommRing R] [LinearOrder R]

/-! ### Elementwise operations -/

theorem bcast_self : ∀ {s c : List ℕ}, InRange s c → broadcastCoord s c = c := by
  intro s c h
  unfold broadcastCoord
  rw [inRange_length h, Nat.sub_self, List.drop_zero]
  unfold InRange at h
  induction h with
  | nil => rfl
  | cons hd _ ih =>
    simp only [List.zip_cons_cons, List.map_cons, ih]
    split <;> simp_all

theorem bcast_ones : ∀ {s c : List ℕ}, s.length = c.length → (∀ d ∈ s, d = 1) → flat s (broadcastCoord s c) = 0 := by
  intro s c h
  unfold broadcastCoord
  rw [h, Nat.sub_self, List.drop_zero]
  induction s generalizing c with
  | nil => intro _; cases c <;> rfl
  | cons d s ih =>
    intro hs
    cases c with
    | nil => simp at h
    | cons x c =>
      have hd : d = 1 := hs d (by simp)
      simp only [List.zip_cons_cons, List.map_cons, flat, hd, if_true, Nat.zero_mul, Nat.zero_add]
      exact ih (by simpa using h) fun e he => hs e (List.mem_cons_of_mem _ he)

theorem zipWith_ones_right : ∀ {s o : List ℕ}, s.length = o.length → (∀ d ∈ o, d = 1) → List.zipWith (fun d e => if d = 1 then e else d) s o = s
  | [], [], _, _ => rfl
  | d :: s, e :: o, h, ho => by
    rw [List.zipWith_cons_cons, zipWith_ones_right (by simpa using h) fun x hx => ho x (List.mem_cons_of_mem _ hx)]
    have := ho e (by simp)
    split <;> simp_all

theorem zipWith_ones_left : ∀ {s o : List ℕ}, s.length = o.length → (∀ d ∈ o, d = 1) → List.zipWith (fun d e => if d = 1 then e else d) o s = s
  | [], [], _, _ => rfl
  | d :: s, e :: o, h, ho => by
    rw [List.zipWith_cons_cons, zipWith_ones_left (by simpa using h) fun x hx => ho x (List.mem_cons_of_mem _ hx)]
    have := ho e (by simp)
    split <;> simp_all

theorem zipWith_same : ∀ (s : List ℕ), List.zipWith (fun d e => if d = 1 then e else d) s s = s
  | [] => rfl
  | d :: s => by
    rw [List.zipWith_cons_cons, zipWith_same s]
    split <;> simp_all

theorem getD_map_getD {α : Type} (f : α → α) (l : List α) (z : α) (i : ℕ) (hi : i < l.length) : (l.map f).getD i z = f (l.getD i z) := by
  rw [List.getD_eq_getElem _ _ (by simpa using hi), List.getD_eq_getElem _ _ hi, List.getElem_map]

/-- The maximum with a constant zero is the ReLU. -/
theorem max_zero_spec (x z y : Tensor R) (hx : x.data.length = x.shape.prod) (hy : y.data.length = y.shape.prod) (hz : ∀ d ∈ z.shape, d = 1) (hz0 : z.data = [0])
    (h : IsBinary max x z y ∨ IsBinary max z x y) : y.shape = x.shape ∧ y.data = x.data.map fun v => max v 0 := by
  rcases h with ⟨h₁, h₂, h₃⟩ | ⟨h₁, h₂, h₃⟩
  · rw [zipWith_ones_right h₁ hz] at h₂
    refine ⟨h₂, ext_coords x.shape 0 _ _ (by rw [hy, h₂]) (by simpa using hx) fun c hc => ?_⟩
    have := h₃ c (by rw [h₂]; exact hc)
    unfold entry at this
    rw [h₂, bcast_self hc, bcast_ones (by rw [← h₁, inRange_length hc]) hz, hz0] at this
    rw [this, getD_map_getD _ _ _ _ (by rw [hx]; exact flat_lt hc)]
    rfl
  · rw [zipWith_ones_left h₁.symm hz] at h₂
    refine ⟨h₂, ext_coords x.shape 0 _ _ (by rw [hy, h₂]) (by simpa using hx) fun c hc => ?_⟩
    have := h₃ c (by rw [h₂]; exact hc)
    unfold entry at this
    rw [h₂, bcast_self hc, bcast_ones (by rw [h₁, inRange_length hc]) hz, hz0] at this
    rw [this, getD_map_getD _ _ _ _ (by rw [hx]; exact flat_lt hc), max_comm]
    rfl

/-- Adding tensors of the same shape. -/
theorem add_same_spec (x z y : Tensor R) (hs : x.shape = z.shape) (h : IsBinary (· + ·) x z y) :
    y.shape = x.shape ∧ ∀ i, i < x.shape.prod → y.data.getD i 0 = x.data.getD i 0 + z.data.getD i 0 := by
  obtain ⟨h₁, h₂, h₃⟩ := h
  rw [← hs, zipWith_same] at h₂
  refine ⟨h₂, fun i hi => ?_⟩
  obtain ⟨c, hc, rfl⟩ := flat_surj hi
  have := h₃ c (by rw [h₂]; exact hc)
  unfold entry at this
  rw [h₂, ← hs, bcast_self hc] at this
  exact this

/-! ### Pooling -/

theorem maxpool_batch (s : List ℕ) (d : List R) (hs : 2 ≤ s.length) (k st : ℕ) :
    (⟨1 :: s, d⟩ : Tensor R).maxpool2d k st = ((⟨s, d⟩ : Tensor R).maxpool2d k st).map fun y => ⟨1 :: y.shape, y.data⟩ := by
  obtain ⟨r, hr⟩ : ∃ r, r = s.reverse := ⟨_, rfl⟩
  have hl : 2 ≤ r.length := by rw [hr, List.length_reverse]; exact hs
  unfold Tensor.maxpool2d
  simp only [List.reverse_cons, ← hr]
  match r, hl with
  | w :: h :: outer, _ =>
    simp only [List.cons_append, List.reverse_append, List.reverse_cons, List.reverse_nil, List.nil_append, List.prod_cons, Nat.one_mul]
    split
    · simp only [Option.bind_eq_bind]
      rw [Option.map_bind]
      rfl
    · rfl

/-- Max pooling with kernel and stride 2. -/
theorem maxpool_same (spec : OnnxPool) (x x' y y' : Tensor R) (hc : checkMaxPool spec = true) (hst : spec.strides ≠ none) (hceil : ceilOf spec.padding = false)
    (hx : x.data.length = x.shape.prod) (hy : y.data.length = y.shape.prod) (hm : IsMaxPool spec x y) (hs : SameButBatch x x') (he : x'.maxpool2d 2 2 = some y') :
    SameButBatch y y' := by
  have hlen : 2 ≤ x'.shape.length := by
    unfold Tensor.maxpool2d at he
    split at he
    · rename_i w h outer hr
      rw [← List.length_reverse, hr]; simp
    · cases he
  -- the result on the tensor with the batch
  obtain ⟨z, hz, hzy⟩ : ∃ z, x.maxpool2d 2 2 = some z ∧ SameButBatch z y' := by
    obtain ⟨h1, h2 | h2⟩ := hs
    · refine ⟨y', ?_, rfl, Or.inl rfl⟩
      have : x = x' := by cases x; cases x'; simp_all
      rw [this, he]
    · refine ⟨⟨1 :: y'.shape, y'.data⟩, ?_, rfl, Or.inr rfl⟩
      have : x = ⟨1 :: x'.shape, x'.data⟩ := by cases x; cases x'; simp_all
      rw [this, maxpool_batch _ _ hlen, he]; rfl
  suffices hzz : y = z by rw [hzz]; exact hzy
  -- the attributes
  unfold checkMaxPool at hc
  simp only [Bool.and_eq_true] at hc
  obtain ⟨⟨⟨c1, c2⟩, c3⟩, c4⟩ := hc
  obtain ⟨st, hst⟩ := Option.ne_none_iff_exists'.1 hst
  have hpads : padsOf spec.padding = some ((0, 0), (0, 0)) := by
    have hall : ∀ l : List ℕ, l.all (· == 0) = true → ∀ i, l.getD i 0 = 0 := by
      intro l hl i
      rcases lt_or_ge i l.length with h | h
      · rw [List.getD_eq_getElem _ _ h]
        exact eq_of_beq (List.all_eq_true.1 hl _ (List.getElem_mem h))
      · rw [List.getD_eq_default _ _ h]
    cases hp : spec.padding with
    | explicit b a => rw [hp] at c2; simp only [Bool.and_eq_true] at c2; simp only [padsOf, hall b c2.1, hall a c2.2]
    | explicitOnnxPool b a _ => rw [hp] at c2; simp only [Bool.and_eq_true] at c2; simp only [padsOf, hall b c2.1, hall a c2.2]
    | valid => rfl
    | other => rw [hp] at c2; cases c2
  obtain ⟨outer, h, w, kh, kw, hxs, hker, hsl, hdl, hys, hval⟩ := hm _ hpads
  rw [hker] at c3
  simp only [List.all_cons, List.all_nil, Bool.and_true, Bool.and_eq_true, beq_iff_eq] at c3
  obtain ⟨rfl, rfl⟩ := c3
  rw [hst] at c1 hys hval hsl
  simp only [Option.getD_some] at hys hval hsl
  have hst2 : st = [2, 2] := by
    match st, hsl with
    | [a, b], _ => simpa using c1
  have hd1 : spec.dilations.getD [1, 1] = [1, 1] := by
    cases hd : spec.dilations with
    | none => rfl
    | some l =>
      rw [hd] at c4 hdl
      simp only [Option.getD_some] at hdl
      match l, hdl with
      | [a, b], _ => simpa using c4
  rw [hd1, hst2] at hys hval
  have hpos : ∀ n, positions n 2 2 1 false = (n - 2) / 2 + 1 := by intro n; rfl
  simp only [List.getD_cons_zero, List.getD_cons_succ, hceil, hpos, Nat.add_zero, Nat.mul_one] at hys hval
  -- the code's result
  have hdims : 2 ≤ h ∧ 2 ≤ w := by
    unfold Tensor.maxpool2d at hz
    rw [hxs] at hz
    simp only [List.reverse_append, List.reverse_cons, List.reverse_nil, List.nil_append, List.cons_append] at hz
    split at hz
    · rename_i hc; exact ⟨hc.1, hc.2.1⟩
    · cases hz
  obtain ⟨out, ho, hol, hoe⟩ := Props.C30_maxpool x outer h w 2 2 hxs hx (by decide) hdims.1 hdims.2 (by decide) 0
  rw [hz] at ho
  obtain rfl := Option.some.inj ho
  obtain ⟨ys, yd⟩ := y
  simp only at hys hval hy
  subst hys
  congr 1
  apply ext_coords _ 0 _ _ hy hol
  intro c hc
  -- split the coordinate
  obtain ⟨q, i, j, rfl, hq⟩ : ∃ q i j, c = q ++ [i, j] ∧ q.length = outer.length := by
    have hl := inRange_length hc
    simp only [List.length_append, List.length_cons, List.length_nil] at hl
    refine ⟨c.take outer.length, (c.drop outer.length).getD 0 0, (c.drop outer.length).getD 1 0, ?_, by simp; omega⟩
    conv_lhs => rw [← List.take_append_drop outer.length c]
    congr 1
    have : (c.drop outer.length).length = 2 := by simp; omega
    match c.drop outer.length, this with
    | [a, b], _ => rfl
  have hg := hval q i j hq hc
  obtain ⟨hup, a, b, ha, hb, hin, heq⟩ := hoe q i j hc hq
  have hij : i < (h - 2) / 2 + 1 ∧ j < (w - 2) / 2 + 1 := by
    have e : outer ++ [(h - 2) / 2 + 1, (w - 2) / 2 + 1] = (outer ++ [(h - 2) / 2 + 1]) ++ [(w - 2) / 2 + 1] := by simp
    have e' : q ++ [i, j] = (q ++ [i]) ++ [j] := by simp
    rw [e, e', inRange_snoc _ _ _ _ (by simp [hq]), inRange_snoc _ _ _ _ hq.symm] at hc
    exact ⟨hc.1.2, hc.2⟩
  apply le_antisymm
  · obtain ⟨a', b', r, t, ha', hb', hr, ht, hrh, htw, hv⟩ := hg.1
    unfold entry at hv
    simp only at hv
    rw [hv, hr, ht]
    exact hup a' b' ha' hb'
  · rw [heq]
    exact hg.2 ⟨a, b, i * 2 + a, j * 2 + b, ha, hb, rfl, rfl, by omega, by omega, rfl⟩

/-! ### Convolutions -/

theorem all_getD {l : List ℕ} {k : ℕ} (hl : l.all (· == k) = true) (i : ℕ) : l.getD i k = k := by
  rcases lt_or_ge i l.length with h | h
  · rw [List.getD_eq_getElem _ _ h]
    exact eq_of_beq (List.all_eq_true.1 hl _ (List.getElem_mem h))
  · rw [List.getD_eq_default _ _ h]

theorem get4d_batch (s : List ℕ) (n c h w : ℕ) (hs : [n, c, h, w] = s ∨ [n, c, h, w] = 1 :: s) : get4d s = (n, c, h, w) ∧ s.length ≤ 4 := by
  rcases hs with rfl | hs
  · exact ⟨rfl, by simp⟩
  · simp only [List.cons.injEq] at hs
    obtain ⟨rfl, rfl⟩ := hs
    exact ⟨rfl, by simp⟩

/-- A convolution with stride 1 and without padding. -/
theorem conv_same (spec : OnnxPool) (groups : ℕ) (x x' f b b' y y' : Tensor R) (hc : checkConv spec = true) (hx : x.data.length = x.shape.prod)
    (hf : f.data.length = f.shape.prod) (hy : y.data.length = y.shape.prod) (hb : b.data.length = b.shape.prod) (hm : IsConvolution spec groups x f b y)
    (hs : SameButBatch x x') (hl : convLayer f b = some (.conv f b')) (hb0 : b.shape = [] → b.data = [0]) (he : conv2d x' f b' 1 = some y') : y = y' := by
  unfold checkConv at hc
  simp only [Bool.and_eq_true] at hc
  obtain ⟨⟨⟨⟨c1, c2⟩, c3⟩, c4⟩, c5⟩ := hc
  have hpads : padsOf spec.padding = some ((0, 0), (0, 0)) := by
    cases hp : spec.padding with
    | explicit b a => rw [hp] at c2; simp only [Bool.and_eq_true] at c2; simp only [padsOf, all_getD c2.1, all_getD c2.2]
    | explicitOnnxPool b a _ => rw [hp] at c2; cases c2
    | valid => rw [hp] at c2; cases c2
    | other => rw [hp] at c2; cases c2
  obtain ⟨n, c, h, w, o, cg, kh, kw, hxs, hfs, hker, hcg, hsl, hdl, hbs, hys, hval⟩ := hm _ hpads
  have hst : ∀ i, (spec.strides.getD [1, 1]).getD i 1 = 1 := by
    intro i
    cases hd : spec.strides with
    | none => rw [hd] at c1; cases c1
    | some l => rw [hd] at c1; exact all_getD c1 i
  have hdil : ∀ i, (spec.dilations.getD [1, 1]).getD i 1 = 1 := by
    intro i
    cases hd : spec.dilations with
    | none => rw [hd] at c3; cases c3
    | some l => rw [hd] at c3; exact all_getD c3 i
  rw [hker] at c4
  simp only [List.all_cons, List.all_nil, Bool.and_true, Bool.and_eq_true, decide_eq_true_eq] at c4
  have hpos : ∀ n k, 1 < k → positions n k 1 1 false = (n - k) / 1 + 1 := by
    intro n k hk
    unfold positions
    simp only [Bool.false_eq_true, if_false, Nat.one_mul, Nat.add_zero]
    rw [Nat.sub_add_cancel hk.le]
  simp only [hst, hdil, Nat.add_zero, hpos _ _ c4.1, hpos _ _ c4.2, Nat.mul_one] at hys hval
  -- the code's checks
  have hx4 := get4d_batch x'.shape n c h w (by rw [← hxs]; exact hs.2)
  have hchk : c = cg ∧ b'.shape = [o] ∧ kh ≤ h ∧ kw ≤ w := by
    unfold conv2d at he
    rw [hx4.1, hfs] at he
    simp only [get4d, List.length_cons, List.length_nil, Nat.reduceAdd, Nat.reduceEqDiff, if_false, List.getD_cons_zero, List.getD_cons_succ] at he
    split at he
    · rename_i hc; exact ⟨hc.2.2.1, hc.2.2.2.1, hc.2.2.2.2.1, hc.2.2.2.2.2.1⟩
    · cases he
  obtain ⟨rfl, hb's, hkh, hkw⟩ := hchk
  -- the bias
  have hbias : b'.data.length = o ∧ ∀ u, u < o → b'.data.getD u 0 = b.data.getD (if b.shape = [] then 0 else u) 0 := by
    unfold convLayer at hl
    rw [hfs] at hl
    rcases hbs with hbs | hbs
    · simp only [hbs, if_true, Option.some.injEq, OnnxLayer.conv.injEq, true_and] at hl
      subst hl
      exact ⟨by rw [hb, hbs]; simp, fun u _ => by rw [hbs, if_neg (by simp)]⟩
    · simp only [hbs, Option.some.injEq, OnnxLayer.conv.injEq, true_and] at hl
      subst hl
      refine ⟨by simp, fun u hu => ?_⟩
      rw [if_pos hbs, hb0 hbs, List.getD_eq_getElem _ _ (by simpa using hu)]
      simp
  obtain ⟨out, ho, hol, hoe⟩ := conv2d_spec x' f b' n c h w o kh kw 1 hx4.1 hx4.2 (by rw [← hs.1, hx, hxs]; simp) hfs (by rw [hf, hfs]; simp) hb's hbias.1 hkh hkw
    (by decide)
  rw [he] at ho
  obtain rfl := Option.some.inj ho
  obtain ⟨ys, yd⟩ := y
  simp only at hys hval hy
  subst hys
  congr 1
  apply ext_coords _ 0 _ _ hy (by rw [hol]; simp [mul_assoc])
  intro co hco
  obtain ⟨m, cs, rfl, hm, hco'⟩ := (inRange_cons _ _ _).1 hco
  obtain ⟨u, cs, rfl, hu, hco'⟩ := (inRange_cons _ _ _).1 hco'
  obtain ⟨r, cs, rfl, hr, hco'⟩ := (inRange_cons _ _ _).1 hco'
  obtain ⟨t, cs, rfl, ht, hco'⟩ := (inRange_cons _ _ _).1 hco'
  rw [inRange_nil] at hco'
  subst hco'
  rw [hoe m u r t hm hu hr ht, hbias.2 u hu]
  have hv := hval m u r t hco
  unfold entry at hv
  simp only at hv
  rw [hv]
  congr 1
  unfold convSum
  apply Finset.sum_congr rfl
  intro j hj
  apply Finset.sum_congr rfl
  intro a ha
  apply Finset.sum_congr rfl
  intro e he
  rw [Finset.mem_range] at hj ha he
  have hgr : groups = 1 := by
    rcases Nat.eq_zero_or_pos c with h0 | h0
    · omega
    · have : groups * c = 1 * c := by omega
      exact Nat.eq_of_mul_eq_mul_right h0 this
  rw [hgr, Nat.div_one, Nat.div_eq_of_lt hu, Nat.zero_mul, Nat.zero_add, hfs]
  congr 1
  unfold padded
  rw [Nat.div_one] at hr ht
  rw [if_pos (by simp only [Nat.sub_zero]; omega), hxs, hs.1]
  simp

/-! ### Products -/

/-- The matrix the loader makes of the weights. -/
theorem gemm_matrix_spec (inFirst : Bool) (x w y w₁ w₂ : Tensor R) (o : ℕ) (hw : w.data.length = w.shape.prod)
    (hshape : if inFirst then ∃ dims, w.shape = dims ++ [o] ∧ dims.prod = x.data.length
      else (∃ dims, w.shape = o :: dims ∧ dims.prod = x.data.length) ∨ (w.shape = [x.data.length] ∧ o = 1))
    (hns : inFirst = true → ∃ a b, w.shape = [a, b] ∧ a ≠ b) (h₁ : gemmMatrix w = some w₁) (h₂ : gemmOrient w₁ x.data.length = some w₂) :
    w₂.shape = [o, x.data.length] ∧ w₂.data.length = o * x.data.length ∧ ∀ j k, j < o → k < x.data.length →
      w₂.data.getD (j * x.data.length + k) 0 = w.data.getD (if inFirst then k * o + j else j * x.data.length + k) 0 := by
  obtain ⟨n, hn⟩ : ∃ n, n = x.data.length := ⟨_, rfl⟩
  rw [← hn] at hshape h₂ ⊢
  cases inFirst with
  | true =>
    obtain ⟨a, b, hab, hne⟩ := hns rfl
    obtain ⟨dims, hd, hp⟩ := hshape
    have : dims = [a] ∧ b = o := by
      rw [hab] at hd
      match dims, hd with
      | [d], hd => simp at hd; exact ⟨by rw [hd.1], hd.2⟩
      | [], hd => simp at hd
      | _ :: _ :: _, hd => simp at hd
    obtain ⟨rfl, rfl⟩ := this
    simp only [List.prod_cons, List.prod_nil, Nat.mul_one] at hp
    subst hp
    unfold gemmMatrix at h₁
    rw [hab] at h₁
    simp only [List.prod_cons, List.prod_nil, Nat.mul_one, Option.some.injEq] at h₁
    subst h₁
    rw [hab] at hw
    simp only [List.prod_cons, List.prod_nil, Nat.mul_one] at hw
    obtain ⟨out, t1, t2, t3⟩ := transpose_spec (⟨[a, b], w.data⟩ : Tensor R) a b rfl hw 0
    unfold gemmOrient at h₂
    simp only [List.getElem?_cons_succ, List.getElem?_cons_zero, Option.bind_eq_bind, Option.bind_some, t1] at h₂
    rw [if_pos (Ne.symm hne)] at h₂
    simp only [Option.bind_some, List.getElem?_cons_succ, List.getElem?_cons_zero, if_true, Option.some.injEq] at h₂
    subst h₂
    exact ⟨rfl, t2, fun j k hj hk => by rw [t3 k j hk hj]; rfl⟩
  | false =>
    have hrow : ∀ m : ℕ, w₁ = ⟨[m, n], w.data⟩ → w₂ = w₁ := by
      rintro m rfl
      unfold gemmOrient at h₂
      simp only [List.getElem?_cons_succ, List.getElem?_cons_zero, Option.bind_eq_bind, Option.bind_some, ne_eq, not_true_eq_false, if_false, if_true,
        Option.some.injEq] at h₂
      exact h₂.symm
    rcases hshape with ⟨dims, hd, hp⟩ | ⟨hd, ho⟩
    · unfold gemmMatrix at h₁
      rw [hd] at h₁ hw
      match dims, hp with
      | [], hp =>
        simp only [List.prod_nil, Option.some.injEq] at hp h₁
        subst hp
        simp only [List.prod_cons, List.prod_nil, Nat.mul_one] at hw
        by_cases ho : o = 1
        · subst ho
          have := hrow 1 h₁.symm
          subst this
          subst h₁
          exact ⟨rfl, by simpa using hw, fun j k _ _ => rfl⟩
        · subst h₁
          obtain ⟨out, t1, t2, t3⟩ := transpose_spec (⟨[1, o], w.data⟩ : Tensor R) 1 o rfl (by simpa using hw) 0
          unfold gemmOrient at h₂
          simp only [List.getElem?_cons_succ, List.getElem?_cons_zero, Option.bind_eq_bind, Option.bind_some, t1] at h₂
          rw [if_pos ho] at h₂
          simp only [Option.bind_some, List.getElem?_cons_succ, List.getElem?_cons_zero, if_true, Option.some.injEq] at h₂
          subst h₂
          refine ⟨rfl, t2, fun j k hj hk => ?_⟩
          obtain rfl : k = 0 := by omega
          rw [t3 0 j (by decide) hj]
          simp
      | b :: rest, hp =>
        simp only [Option.some.injEq] at h₁
        rw [hp] at h₁
        have := hrow o h₁.symm
        subst this
        subst h₁
        exact ⟨rfl, by rw [hw, List.prod_cons, hp], fun j k _ _ => rfl⟩
    · unfold gemmMatrix at h₁
      rw [hd] at h₁ hw
      simp only [Option.some.injEq] at h₁
      subst ho
      have := hrow 1 h₁.symm
      subst this
      subst h₁
      exact ⟨rfl, by simpa using hw, fun j k _ _ => rfl⟩

end Lemmas
