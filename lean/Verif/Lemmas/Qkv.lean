import Verif.Model.Qkv
import Verif.Lemmas.ConcatMatMul

/-!
Lemmas for C77.
-/

namespace Lemmas
open Spec Model

theorem addDim2_spec {α : Type} [AddZeroClass α] (t b : Tensor α) (m n : ℕ) (hn : 0 < n) (ht : t.shape = [m, n]) (htl : t.data.length = m * n) (hb : b.shape = [n]) (hbl : b.data.length = n) :
    ∃ out, t.addDim2 b = some ⟨[m, n], out⟩ ∧ out.length = m * n ∧ ∀ i j, i < m → j < n → out.getD (i * n + j) 0 = t.data.getD (i * n + j) 0 + b.data.getD j 0 := by
  obtain ⟨gs, hgs⟩ : ∃ gs, gs = (List.range m).map fun i => List.zipWith (· + ·) ((t.data.drop (n * i)).take n) b.data := ⟨_, rfl⟩
  have hrow : ∀ i < m, ((t.data.drop (n * i)).take n).length = n := by
    intro i hi
    have : (i + 1) * n ≤ m * n := Nat.mul_le_mul_right _ hi
    rw [List.length_take, List.length_drop, htl]
    rw [add_mul, one_mul, mul_comm i] at this
    omega
  have hg : ∀ g ∈ gs, g.length = n := by
    intro g hg
    rw [hgs] at hg
    obtain ⟨i, hi, rfl⟩ := List.mem_map.mp hg
    rw [List.length_zipWith, hrow i (List.mem_range.mp hi), hbl, min_self]
  refine ⟨gs.flatten, ?_, ?_, ?_⟩
  · unfold Tensor.addDim2
    rw [ht, hb]
    simp only [hn, and_self, if_true]
    rw [chunks_eq n m hn t.data (by rw [htl, mul_comm]), List.flatMap_def, List.map_map, hgs]
    rfl
  · rw [length_flatten' n _ hg, hgs]; simp
  · intro i j hi hj
    have hil : i < gs.length := by rw [hgs]; simpa using hi
    rw [getD_flatten n gs hg i j 0 hil hj]
    have : gs[i] = List.zipWith (· + ·) ((t.data.drop (n * i)).take n) b.data := by simp only [hgs, List.getElem_map, List.getElem_range]
    have hb' : i * n + j < t.data.length := by
      have : (i + 1) * n ≤ m * n := Nat.mul_le_mul_right _ hi
      rw [add_mul, one_mul] at this; omega
    rw [this, List.getD_eq_getElem _ _ (by rw [List.length_zipWith, hrow i hi, hbl, min_self]; exact hj), List.getElem_zipWith, List.getD_eq_getElem _ _ hb', List.getD_eq_getElem _ _ (by omega)]
    simp [mul_comm]

theorem qkvProject_spec {α : Type} [Semiring α] (x w b : Tensor α) (m e n : ℕ) (hn : 0 < n) (hx : x.shape = [m, e]) (hw : w.shape = [e, n]) (hb : b.shape = [n]) (hxl : x.data.length = m * e)
    (hwl : w.data.length = e * n) (hbl : b.data.length = n) :
    ∃ out, qkvProject x w b = some ⟨[m, n], out⟩ ∧ out.length = m * n ∧ ∀ i j, i < m → j < n →
      out.getD (i * n + j) 0 = (∑ k ∈ Finset.range e, x.data.getD (i * e + k) 0 * w.data.getD (k * n + j) 0) + b.data.getD j 0 := by
  obtain ⟨y, h1, h2, h3⟩ := matmul_spec x w m e n hx hw hxl hwl
  obtain ⟨out, g1, g2, g3⟩ := addDim2_spec ⟨[m, n], y⟩ b m n hn rfl h2 hb hbl
  refine ⟨out, ?_, g2, ?_⟩
  · unfold qkvProject
    rw [h1]
    exact g1
  · intro i j hi hj
    rw [g3 i j hi hj, h3 i j hi hj]

theorem padMinimum_ge (n : ℕ) : n ≤ padMinimum n ∧ nextPow2 n ≤ padMinimum n := by
  have := le_nextPow2 n
  unfold padMinimum
  simp only
  split <;> omega

theorem padQkvWeight_spec {α : Type} [Zero α] (cols H hd : ℕ) (hH : 0 < H) (hhd : 0 < hd) (w : Tensor α) (e : ℕ) (he : 0 < e) (hec : e ≤ cols) (hs : w.shape = [e, H * hd])
    (hl : w.data.length = e * (H * hd)) :
    ∃ out, padQkvWeight cols H hd w = some ⟨[padMinimum cols, padMinimum H * padMinimum hd], out⟩ ∧ out.length = padMinimum cols * (padMinimum H * padMinimum hd) ∧
      ∀ i h d, i < padMinimum cols → h < padMinimum H → d < padMinimum hd → out.getD (i * (padMinimum H * padMinimum hd) + (h * padMinimum hd + d)) 0
        = if i < e ∧ h < H ∧ d < hd then w.data.getD (i * (H * hd) + (h * hd + d)) 0 else 0 := by
  have hc := (padMinimum_ge cols).1
  have hH' := (padMinimum_ge H).1
  have hd' := (padMinimum_ge hd).1
  obtain ⟨out, h1, h2, h3, h4⟩ := padToShape_spec (⟨[e, H, hd], w.data⟩ : Tensor α) [padMinimum cols, padMinimum H, padMinimum hd] (by simpa using hl)
    (.cons ⟨he, by omega⟩ (.cons ⟨hH, by omega⟩ (.cons ⟨hhd, by omega⟩ .nil)))
  refine ⟨out, ?_, by simpa using h2, ?_⟩
  · unfold padQkvWeight
    rw [hs]
    simp only [if_pos hec]
    have : w.reshape [e, H, hd] = some ⟨[e, H, hd], w.data⟩ := by simp [Tensor.reshape, hs]
    simp only [this, h1, Option.bind_eq_bind, Option.bind_some]
    simp [Tensor.reshape]
  · intro i h d hi hh hdd
    have hf : ∀ a b c : ℕ, flat [a, b, c] [i, h, d] = i * (b * c) + (h * c + d) := by intro a b c; simp [flat]
    have hiff : InRange [e, H, hd] [i, h, d] ↔ i < e ∧ h < H ∧ d < hd := by simp [inRange_cons_cons, inRange_nil]
    split
    · rename_i hin
      have := h3 [i, h, d] (hiff.2 hin)
      rwa [hf, hf] at this
    · rename_i hin
      have := h4 [i, h, d] (by simp [inRange_cons_cons, inRange_nil, hi, hh, hdd]) (fun h' => hin (hiff.1 h'))
      rwa [hf] at this

theorem padQkvBias_spec {α : Type} [Zero α] (H hd : ℕ) (hH : 0 < H) (hhd : 0 < hd) (b : Tensor α) (hs : b.shape = [H * hd]) (hl : b.data.length = H * hd) :
    ∃ out, padQkvBias H hd b = some ⟨[padMinimum H * padMinimum hd], out⟩ ∧ out.length = padMinimum H * padMinimum hd ∧
      ∀ h d, h < padMinimum H → d < padMinimum hd → out.getD (h * padMinimum hd + d) 0 = if h < H ∧ d < hd then b.data.getD (h * hd + d) 0 else 0 := by
  have hH' := (padMinimum_ge H).1
  have hd' := (padMinimum_ge hd).1
  obtain ⟨out, h1, h2, h3, h4⟩ := padToShape_spec (⟨[H, hd], b.data⟩ : Tensor α) [padMinimum H, padMinimum hd] (by simpa using hl)
    (.cons ⟨hH, by omega⟩ (.cons ⟨hhd, by omega⟩ .nil))
  refine ⟨out, ?_, by simpa using h2, ?_⟩
  · unfold padQkvBias
    have : b.reshape [H, hd] = some ⟨[H, hd], b.data⟩ := by simp [Tensor.reshape, hs]
    simp only [this, h1, Option.bind_eq_bind, Option.bind_some]
    simp [Tensor.reshape]
  · intro h d hh hdd
    have hiff : InRange [H, hd] [h, d] ↔ h < H ∧ d < hd := by simp [inRange_cons_cons, inRange_nil]
    have hf : ∀ a c : ℕ, flat [a, c] [h, d] = h * c + d := by intro a c; simp [flat]
    split
    · rename_i hin
      have := h3 [h, d] (hiff.2 hin)
      rwa [hf, hf] at this
    · rename_i hin
      have := h4 [h, d] (by simp [inRange_cons_cons, inRange_nil, hh, hdd]) (fun h' => hin (hiff.1 h'))
      rwa [hf] at this

variable {F : Type} [Field F]

theorem fixHighVars_mle (n m : ℕ) (t r : List F) (ht : t.length = 2 ^ (n + m)) (hr : r.length = m) :
    ∃ u, (⟨n + m, t⟩ : Mle F).fixHighVariables r = some ⟨n, u⟩ ∧ u.length = 2 ^ n ∧ ∀ pt, pt.length = n → mle u pt = mle t (pt ++ r) := by
  obtain ⟨u, h1, h2, h3⟩ := fixHigh_mle n m t r ht hr
  rw [fixHighVariablesInPlace_eq ⟨n + m, t⟩ ht r (by simp; omega)] at h1
  exact ⟨u, by rw [fixHighVariables_eq ⟨n + m, t⟩ ht r (by simp; omega), h1], h2, h3⟩

theorem buildVP_qkv (heap : ℕ → Mle F) (n : ℕ) (h : ∀ a, (heap a).numVars = n) (c1 c2 : F) :
    buildVP heap n [(1, [0, 1]), (c1, [2, 3]), (c2, [4, 5])]
      = some ⟨2, n, [(1, [0, 1]), (c1, [2, 3]), (c2, [4, 5])], [0, 1, 2, 3, 4, 5], [(5, 5), (4, 4), (3, 3), (2, 2), (1, 1), (0, 0)]⟩ := by
  simp [buildVP, VirtualPoly.addMleList, VirtualPoly.new, VirtualPoly.internList, VirtualPoly.intern, h, List.lookup]

variable [DecidableEq F]

theorem qkvTables_spec (r k c : ℕ) (x w : List F) (hx : x.length = 2 ^ (k + r)) (hw : w.length = 2 ^ (c + k)) (claim : Claim F) (hp : claim.point.length = r + c) :
    ∃ u v, qkvTables r k c x claim w = some (⟨k, u⟩, ⟨k, v⟩) ∧ u.length = 2 ^ k ∧ v.length = 2 ^ k ∧
      ∀ pt : List F, pt.length = k → mle u pt = mle x (pt ++ claim.point.drop c) ∧ mle v pt = mle w (claim.point.take c ++ pt) := by
  obtain ⟨u, u1, u2, u3⟩ := fixHighVars_mle k r x (claim.point.drop c) hx (by simp; omega)
  have hw' : w.length = 2 ^ (k + c) := by rw [hw, add_comm]
  obtain ⟨v, v1, v2, v3⟩ := fixLow_mle k c w (claim.point.take c) hw' (by simp; omega)
  refine ⟨u, v, ?_, u2, v2, fun pt hpt => ⟨u3 pt hpt, v3 pt⟩⟩
  unfold qkvTables qkvSplit
  rw [add_comm c k]
  simp [hp, Mle.ofEvals, hx, hw', u1, v1]

theorem qkvBiasClaim_spec (r c : ℕ) (claim : Claim F) (bias : List F) (hb : bias.length = 2 ^ c) (hp : claim.point.length = r + c) :
    qkvBiasClaim r c claim bias = some (⟨claim.point.take c, mle bias (claim.point.take c)⟩, claim.eval - mle bias (claim.point.take c)) := by
  unfold qkvBiasClaim qkvSplit
  rw [if_pos hp]
  simp only [Option.bind_eq_bind, Option.bind_some, Mle.ofEvals, if_pos hb]
  rw [evaluate_eq ⟨c, bias⟩ hb _ (by simp; omega)]
  rfl

theorem qkvClaims_spec (r c : ℕ) (claim : Claim F) (hp : claim.point.length = r + c) (pt : List F) (e : F × F) :
    qkvClaims r c claim pt e = some (⟨pt ++ claim.point.drop c, e.1⟩, ⟨claim.point.take c ++ pt, e.2⟩) := by
  unfold qkvClaims qkvSplit
  rw [if_pos hp]
  rfl

end Lemmas
