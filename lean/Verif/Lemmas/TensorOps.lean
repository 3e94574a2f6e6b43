import Verif.Lemmas.TensorIndex
import Mathlib.Algebra.BigOperators.Intervals
import Mathlib.Data.List.Nodup
import Mathlib.Tactic.IntervalCases

namespace Lemmas

open Model Spec

/-! ### Gathers -/

theorem getElem?_of_lt {α : Type} (l : List α) (i : ℕ) (z : α) (h : i < l.length) : l[i]? = some (l.getD i z) := by
  rw [List.getD_eq_getElem _ _ h, List.getElem?_eq_getElem h]

theorem getD_map_range' {α : Type} (f : ℕ → α) (n i : ℕ) (z : α) (h : i < n) : ((List.range n).map f).getD i z = f i := by
  rw [List.getD_eq_getElem _ _ (by simpa using h)]; simp

theorem flat_two (m n i j : ℕ) : flat [m, n] [i, j] = i * n + j := by simp [flat]

theorem flat_three (a b c i j k : ℕ) : flat [a, b, c] [i, j, k] = i * (b * c) + (j * c + k) := by simp [flat]

theorem mul_add_lt {a b i j : ℕ} (hi : i < a) (hj : j < b) : i * b + j < a * b := by
  calc i * b + j < i * b + b := by omega
    _ = (i + 1) * b := by ring
    _ ≤ a * b := Nat.mul_le_mul_right _ hi

theorem mul_add_div' {b i j : ℕ} (hj : j < b) : (i * b + j) / b = i := by
  rw [mul_comm, Nat.mul_add_div (by omega), Nat.div_eq_of_lt hj, add_zero]

theorem mul_add_mod' {b i j : ℕ} (hj : j < b) : (i * b + j) % b = j := by
  rw [mul_comm, Nat.mul_add_mod, Nat.mod_eq_of_lt hj]

theorem transpose_spec {α : Type} (t : Tensor α) (m n : ℕ) (hs : t.shape = [m, n]) (hlen : t.data.length = m * n) (z : α) :
    ∃ out, t.transpose = some ⟨[n, m], out⟩ ∧ out.length = n * m ∧
      ∀ i j, i < m → j < n → out.getD (j * m + i) z = t.data.getD (i * n + j) z := by
  refine ⟨(List.range (n * m)).map fun idx => t.data.getD (idx % m * n + idx / m) z, ?_, by simp, ?_⟩
  · unfold Tensor.transpose
    rw [hs]
    show (do let data ← (List.range (n * m)).mapM fun idx => t.data[idx % m * n + idx / m]?; some (⟨[n, m], data⟩ : Tensor α)) = _
    rw [mapM_some' _ fun idx => t.data.getD (idx % m * n + idx / m) z]
    · rfl
    · intro idx hidx
      apply getElem?_of_lt
      rw [List.mem_range] at hidx
      have hm : 0 < m := by
        rcases Nat.eq_zero_or_pos m with h | h
        · rw [h] at hidx; omega
        · exact h
      rw [hlen]
      exact mul_add_lt (Nat.mod_lt _ hm) ((Nat.div_lt_iff_lt_mul hm).2 hidx)
  · intro i j hi hj
    rw [getD_map_range' _ _ _ _ (mul_add_lt hj hi), mul_add_mod' hi, mul_add_div' hi]

/-! ### Scatters -/

theorem foldl_set_getD {α β : Type} (loc : β → ℕ) (val : β → α) (z : α) : ∀ (l : List β) (init : List α),
    (∀ x ∈ l, loc x < init.length) → (l.map loc).Nodup →
    (l.foldl (fun d x => d.set (loc x) (val x)) init).length = init.length ∧
    (∀ x ∈ l, (l.foldl (fun d x => d.set (loc x) (val x)) init).getD (loc x) z = val x) ∧
    (∀ p, (∀ x ∈ l, loc x ≠ p) → (l.foldl (fun d x => d.set (loc x) (val x)) init).getD p z = init.getD p z) := by
  intro l
  induction l with
  | nil => intro init _ _; exact ⟨rfl, fun x hx => absurd hx List.not_mem_nil, fun _ _ => rfl⟩
  | cons a l ih =>
    intro init hlt hnd
    rw [List.map_cons, List.nodup_cons] at hnd
    obtain ⟨h1, h2, h3⟩ := ih (init.set (loc a) (val a)) (by
      intro x hx; rw [List.length_set]; exact hlt x (List.mem_cons_of_mem _ hx)) hnd.2
    rw [List.foldl_cons]
    refine ⟨by rw [h1, List.length_set], ?_, ?_⟩
    · intro x hx
      rcases List.mem_cons.1 hx with rfl | hx
      · rw [h3 _ fun y hy he => hnd.1 (List.mem_map.2 ⟨y, hy, he⟩)]
        simp [List.getD_eq_getElem?_getD, hlt x List.mem_cons_self]
      · exact h2 x hx
    · intro p hp
      rw [h3 p fun y hy => hp y (List.mem_cons_of_mem _ hy)]
      have := hp a List.mem_cons_self
      simp [List.getD_eq_getElem?_getD, List.getElem?_set, this]

theorem foldlM_set {α β : Type} (loc : β → ℕ) (val : β → α) (step : List α → β → Option (List α)) (n : ℕ) :
    ∀ (l : List β) (init : List α), init.length = n →
    (∀ x ∈ l, ∀ d : List α, d.length = n → step d x = some (d.set (loc x) (val x))) →
    l.foldlM step init = some (l.foldl (fun d x => d.set (loc x) (val x)) init) := by
  intro l
  induction l with
  | nil => intro init _ _; rfl
  | cons a l ih =>
    intro init hn h
    rw [List.foldlM_cons, h a List.mem_cons_self init hn, List.foldl_cons]
    exact ih _ (by rw [List.length_set]; exact hn) fun x hx => h x (List.mem_cons_of_mem _ hx)

theorem mem_triples (a b c : ℕ) (x : ℕ × ℕ × ℕ) : x ∈ triples a b c ↔ x.1 < a ∧ x.2.1 < b ∧ x.2.2 < c := by
  obtain ⟨i, j, k⟩ := x
  simp [triples]

theorem nodup_triples (a b c : ℕ) : (triples a b c).Nodup := by
  unfold triples
  refine List.nodup_flatMap.2 ⟨?_, ?_⟩
  · intro i _
    refine List.nodup_flatMap.2 ⟨?_, ?_⟩
    · intro j _
      exact List.nodup_range.map fun k k' h => by simpa using h
    · refine List.Pairwise.imp ?_ (List.nodup_range (n := b))
      intro j j' hne x hx hx'
      obtain ⟨k, _, rfl⟩ := List.mem_map.1 hx
      obtain ⟨k', _, h⟩ := List.mem_map.1 hx'
      simp at h
      exact hne h.1.symm
  · refine List.Pairwise.imp ?_ (List.nodup_range (n := a))
    intro i i' hne x hx hx'
    obtain ⟨j, _, hx⟩ := List.mem_flatMap.1 hx
    obtain ⟨j', _, hx'⟩ := List.mem_flatMap.1 hx'
    obtain ⟨k, _, rfl⟩ := List.mem_map.1 hx
    obtain ⟨k', _, h⟩ := List.mem_map.1 hx'
    simp at h
    exact hne h.1.symm

/-- `permute3d`, for one of the six orders: entry (i, j, k) goes to the position with permuted coordinates. -/
theorem permute_spec {α : Type} [Zero α] (t : Tensor α) (a b c : ℕ) (hs : t.shape = [a, b, c])
    (hlen : t.data.length = a * b * c) (o0 o1 o2 : ℕ) (hperm : [o0, o1, o2].Perm [0, 1, 2]) :
    ∃ out, t.permute3d [o0, o1, o2] = some ⟨[o0, o1, o2].map (fun o => [a, b, c].getD o 0), out⟩ ∧
      out.length = a * b * c ∧
      ∀ i j k, i < a → j < b → k < c →
        out.getD (flat ([o0, o1, o2].map fun o => [a, b, c].getD o 0) ([o0, o1, o2].map fun o => [i, j, k].getD o 0)) 0
          = t.data.getD (flat [a, b, c] [i, j, k]) 0 := by
  obtain ⟨na, hna⟩ : ∃ x, x = [a, b, c].getD o0 0 := ⟨_, rfl⟩
  obtain ⟨nb, hnb⟩ : ∃ x, x = [a, b, c].getD o1 0 := ⟨_, rfl⟩
  obtain ⟨nc, hnc⟩ : ∃ x, x = [a, b, c].getD o2 0 := ⟨_, rfl⟩
  have hmem : ∀ o ∈ [o0, o1, o2], o < 3 := by
    intro o ho
    have := hperm.mem_iff.1 ho
    simp at this; omega
  have hnd : [o0, o1, o2].Nodup := hperm.nodup_iff.2 (by decide)
  have h0 := hmem o0 (by simp)
  have h1 := hmem o1 (by simp)
  have h2 := hmem o2 (by simp)
  simp only [List.nodup_cons, List.mem_cons, List.not_mem_nil, or_false, not_or] at hnd
  obtain ⟨⟨n01, n02⟩, n12, _⟩ := hnd
  -- the permuted coordinate
  have hin : ∀ i j k, i < a → j < b → k < c →
      InRange [na, nb, nc] [[i, j, k].getD o0 0, [i, j, k].getD o1 0, [i, j, k].getD o2 0] := by
    intro i j k hi hj hk
    simp only [inRange_cons_cons, inRange_nil, and_true]
    have : ∀ o, o < 3 → [i, j, k].getD o 0 < [a, b, c].getD o 0 := by
      intro o ho
      interval_cases o <;> simpa
    exact ⟨hna ▸ this o0 h0, hnb ▸ this o1 h1, hnc ▸ this o2 h2⟩
  have hprod : na * nb * nc = a * b * c := by
    clear hin
    rw [hna, hnb, hnc]
    interval_cases o0 <;> interval_cases o1 <;> interval_cases o2 <;>
      first | omega | rfl | (simp only [List.getD_cons_zero, List.getD_cons_succ]; ring)
  have hinj : ∀ i j k i' j' k', [[i, j, k].getD o0 0, [i, j, k].getD o1 0, [i, j, k].getD o2 0]
      = [[i', j', k'].getD o0 0, [i', j', k'].getD o1 0, [i', j', k'].getD o2 0] → i = i' ∧ j = j' ∧ k = k' := by
    intro i j k i' j' k' h
    interval_cases o0 <;> interval_cases o1 <;> interval_cases o2 <;> simp_all
  obtain ⟨loc, hloc⟩ : ∃ loc : ℕ × ℕ × ℕ → ℕ, loc = fun p => flat [na, nb, nc] [[p.1, p.2.1, p.2.2].getD o0 0,
    [p.1, p.2.1, p.2.2].getD o1 0, [p.1, p.2.1, p.2.2].getD o2 0] := ⟨_, rfl⟩
  have hloclt : ∀ p ∈ triples a b c, loc p < a * b * c := by
    intro p hp
    rw [mem_triples] at hp
    rw [hloc]
    have := flat_lt (hin p.1 p.2.1 p.2.2 hp.1 hp.2.1 hp.2.2)
    simp only [List.prod_cons, List.prod_nil, mul_one] at this
    rw [← hprod, mul_assoc]
    exact this
  have hstep : ∀ p ∈ triples a b c, ∀ d : List α, d.length = a * b * c →
      permuteStep t.data a b c o0 o1 o2 na nb nc d p
        = some (d.set (loc p) (t.data.getD (flat [a, b, c] [p.1, p.2.1, p.2.2]) 0)) := by
    intro p hp d hd
    have hl := hloclt p hp
    rw [mem_triples] at hp
    unfold permuteStep
    have hpos : ∀ o, o < 3 → [p.1, p.2.1, p.2.2][o]? = some ([p.1, p.2.1, p.2.2].getD o 0) := by
      intro o ho; exact getElem?_of_lt _ _ _ (by simpa using ho)
    have hle : [p.1, p.2.1, p.2.2].getD o0 0 * nb * nc + [p.1, p.2.1, p.2.2].getD o1 0 * nc + [p.1, p.2.1, p.2.2].getD o2 0
        = loc p := by
      rw [hloc]; simp only [flat_three]; ring
    have hold : p.1 * b * c + p.2.1 * c + p.2.2 = flat [a, b, c] [p.1, p.2.1, p.2.2] := by
      rw [flat_three]; ring
    have hlt' : flat [a, b, c] [p.1, p.2.1, p.2.2] < t.data.length := by
      have := flat_lt (shape := [a, b, c]) (c := [p.1, p.2.1, p.2.2])
        ((inRange_cons_cons _ _ _ _).2 ⟨hp.1, (inRange_cons_cons _ _ _ _).2 ⟨hp.2.1, (inRange_cons_cons _ _ _ _).2
          ⟨hp.2.2, (inRange_nil _).2 rfl⟩⟩⟩)
      simp only [List.prod_cons, List.prod_nil, mul_one] at this
      rw [hlen, mul_assoc]; exact this
    simp only [hpos o0 h0, hpos o1 h1, hpos o2 h2, Option.bind_eq_bind, Option.bind_some, hle, hold, hprod, if_pos hl,
      getElem?_of_lt t.data _ 0 hlt']
    rw [set?, if_pos (by omega)]
  have hndl : ((triples a b c).map loc).Nodup := by
    refine List.Nodup.map_on ?_ (nodup_triples a b c)
    intro p hp q hq h
    rw [mem_triples] at hp hq
    rw [hloc] at h
    have := hinj _ _ _ _ _ _ (flat_inj (hin p.1 p.2.1 p.2.2 hp.1 hp.2.1 hp.2.2) (hin q.1 q.2.1 q.2.2 hq.1 hq.2.1 hq.2.2) h)
    obtain ⟨p1, p2, p3⟩ := p
    obtain ⟨q1, q2, q3⟩ := q
    simp only at this
    rw [this.1, this.2.1, this.2.2]
  obtain ⟨g1, g2, g3⟩ := foldl_set_getD loc (fun p => t.data.getD (flat [a, b, c] [p.1, p.2.1, p.2.2]) 0) 0 (triples a b c)
    (List.replicate (a * b * c) 0) (by intro x hx; rw [List.length_replicate]; exact hloclt x hx) hndl
  have hshape : [o0, o1, o2].map (fun o => [a, b, c].getD o 0) = [na, nb, nc] := by simp [hna, hnb, hnc]
  refine ⟨_, ?_, by rw [g1, List.length_replicate], ?_⟩
  · unfold Tensor.permute3d
    have hgo : ∀ o, o < 3 → t.shape[o]? = some ([a, b, c].getD o 0) := by
      intro o ho; rw [hs]; exact getElem?_of_lt _ _ _ (by simpa using ho)
    rw [hshape]
    rw [hs] at hgo ⊢
    simp only [hgo o0 h0, hgo o1 h1, hgo o2 h2, Option.bind_eq_bind, Option.bind_some, ← hna, ← hnb, ← hnc]
    rw [foldlM_set loc (fun p => t.data.getD (flat [a, b, c] [p.1, p.2.1, p.2.2]) 0) _ (a * b * c) _ _ (by simp) hstep]
    rfl
  · intro i j k hi hj hk
    have := g2 (i, j, k) ((mem_triples _ _ _ _).2 ⟨hi, hj, hk⟩)
    rw [hshape]
    rw [← this, hloc]
    rfl

/-! ### Products -/

theorem list_sum_map_range {α : Type} [Semiring α] (n : ℕ) (f : ℕ → α) :
    ((List.range n).map f).sum = ∑ k ∈ Finset.range n, f k := by
  induction n with
  | zero => simp
  | succ n ih => rw [List.range_succ, List.map_append, List.sum_append, ih, Finset.sum_range_succ]; simp

theorem dot_eq {α : Type} [Semiring α] (n : ℕ) (x y : List α) (f g : ℕ → ℕ) (hf : ∀ k, k < n → f k < x.length)
    (hg : ∀ k, k < n → g k < y.length) :
    dot? n x y f g = some (∑ k ∈ Finset.range n, x.getD (f k) 0 * y.getD (g k) 0) := by
  unfold dot?
  rw [mapM_some' _ fun k => x.getD (f k) 0 * y.getD (g k) 0]
  · simp only [Option.bind_eq_bind, Option.bind_some, list_sum_map_range]
  · intro k hk
    rw [List.mem_range] at hk
    rw [getElem?_of_lt x _ 0 (hf k hk), getElem?_of_lt y _ 0 (hg k hk)]
    rfl

theorem matmul_spec {α : Type} [Semiring α] (x y : Tensor α) (m n p : ℕ) (hx : x.shape = [m, n]) (hy : y.shape = [n, p])
    (hxl : x.data.length = m * n) (hyl : y.data.length = n * p) :
    ∃ out, x.matmul y = some ⟨[m, p], out⟩ ∧ out.length = m * p ∧ ∀ i j, i < m → j < p →
      out.getD (i * p + j) 0 = ∑ k ∈ Finset.range n, x.data.getD (i * n + k) 0 * y.data.getD (k * p + j) 0 := by
  refine ⟨(List.range (m * p)).map fun idx => ∑ k ∈ Finset.range n, x.data.getD (idx / p * n + k) 0 *
    y.data.getD (k * p + idx % p) 0, ?_, by simp, ?_⟩
  · unfold Tensor.matmul
    rw [hx, hy]
    simp only [if_true]
    rw [mapM_some' _ fun idx => ∑ k ∈ Finset.range n, x.data.getD (idx / p * n + k) 0 * y.data.getD (k * p + idx % p) 0]
    · rfl
    · intro idx hidx
      rw [List.mem_range] at hidx
      have hp : 0 < p := by
        rcases Nat.eq_zero_or_pos p with h | h
        · rw [h] at hidx; omega
        · exact h
      apply dot_eq
      · intro k hk; rw [hxl]; exact mul_add_lt ((Nat.div_lt_iff_lt_mul hp).2 hidx) hk
      · intro k hk; rw [hyl]; exact mul_add_lt hk (Nat.mod_lt _ hp)
  · intro i j hi hj
    rw [getD_map_range' _ _ _ _ (mul_add_lt hi hj), mul_add_div' hj, mul_add_mod' hj]

theorem matvec_spec {α : Type} [Semiring α] (x v : Tensor α) (m n : ℕ) (hx : x.shape = [m, n]) (hv : v.shape = [n])
    (hxl : x.data.length = m * n) (hvl : v.data.length = n) :
    ∃ out, x.matvec v = some ⟨[m], out⟩ ∧ out.length = m ∧ ∀ i, i < m →
      out.getD i 0 = ∑ k ∈ Finset.range n, x.data.getD (i * n + k) 0 * v.data.getD k 0 := by
  refine ⟨(List.range m).map fun i => ∑ k ∈ Finset.range n, x.data.getD (i * n + k) 0 * v.data.getD k 0, ?_, by simp, ?_⟩
  · unfold Tensor.matvec Tensor.isVector
    rw [hx, hv]
    simp only [List.head?_cons, and_self, if_true]
    rw [mapM_some' _ fun i => ∑ k ∈ Finset.range n, x.data.getD (i * n + k) 0 * v.data.getD k 0]
    · rfl
    · intro i hi
      rw [List.mem_range] at hi
      apply dot_eq
      · intro k hk; rw [hxl]; exact mul_add_lt hi hk
      · intro k hk; omega
  · intro i hi
    rw [getD_map_range' _ _ _ _ hi]

/-! ### Maxima -/

theorem foldl_max {α : Type} [LinearOrder α] : ∀ (l : List α) (a : α),
    (a ≤ l.foldl max a ∧ ∀ x ∈ l, x ≤ l.foldl max a) ∧ (l.foldl max a = a ∨ l.foldl max a ∈ l) := by
  intro l
  induction l with
  | nil => intro a; simp
  | cons b l ih =>
    intro a
    rw [List.foldl_cons]
    obtain ⟨⟨h1, h2⟩, h3⟩ := ih (max a b)
    refine ⟨⟨le_trans (le_max_left _ _) h1, ?_⟩, ?_⟩
    · intro x hx
      rcases List.mem_cons.1 hx with rfl | hx
      · exact le_trans (le_max_right _ _) h1
      · exact h2 x hx
    · rcases h3 with h3 | h3
      · rw [h3]
        rcases le_total a b with h | h
        · right; rw [max_eq_right h]; exact List.mem_cons_self
        · left; exact max_eq_left h
      · right; exact List.mem_cons_of_mem _ h3

/-- The scan for the first maximum. -/
theorem argmax_fold {α : Type} [LinearOrder α] : ∀ (rest done : List α) (i : ℕ) (x : α),
    (done[i]? = some x ∧ (∀ (j : ℕ) y, done[j]? = some y → y ≤ x) ∧ ∀ (j : ℕ) y, j < i → done[j]? = some y → y < x) →
    ∃ i' x', (rest.zipIdx done.length).foldl (fun acc y => if acc.2 < y.1 then (y.2, y.1) else acc) (i, x) = (i', x') ∧
      ((done ++ rest)[i']? = some x' ∧ (∀ (j : ℕ) y, (done ++ rest)[j]? = some y → y ≤ x') ∧
        ∀ (j : ℕ) y, j < i' → (done ++ rest)[j]? = some y → y < x') := by
  intro rest
  induction rest with
  | nil => intro done i x h; exact ⟨i, x, rfl, by simpa using h⟩
  | cons b rest ih =>
    intro done i x ⟨h1, h2, h3⟩
    rw [List.zipIdx_cons, List.foldl_cons]
    have hl : done.length + 1 = (done ++ [b]).length := by simp
    rw [hl, show done ++ b :: rest = (done ++ [b]) ++ rest by simp]
    have hi : i < done.length := by
      by_contra h
      rw [List.getElem?_eq_none (by omega)] at h1
      exact absurd h1 (by simp)
    have hcase : ∀ (j : ℕ) y, (done ++ [b])[j]? = some y → done[j]? = some y ∨ (j = done.length ∧ y = b) := by
      intro j y hy
      rw [List.getElem?_append] at hy
      split at hy
      · exact Or.inl hy
      · rename_i hj
        have : j = done.length := by
          by_contra hne
          rw [List.getElem?_eq_none (by simp; omega)] at hy
          exact absurd hy (by simp)
        subst this
        simp at hy
        exact Or.inr ⟨rfl, hy.symm⟩
    have hlt : ∀ (j : ℕ) y, done[j]? = some y → j < done.length := by
      intro j y hy
      by_contra h
      rw [List.getElem?_eq_none (by omega)] at hy
      exact absurd hy (by simp)
    show ∃ i' x', List.foldl _ (if x < b then (done.length, b) else (i, x)) _ = _ ∧ _
    by_cases hb : x < b
    · rw [if_pos hb]
      apply ih
      refine ⟨by simp, ?_, ?_⟩
      · intro j y hy
        rcases hcase j y hy with h | ⟨_, h⟩
        · exact le_of_lt (lt_of_le_of_lt (h2 j y h) hb)
        · rw [h]
      · intro j y hj hy
        rcases hcase j y hy with h | ⟨h, _⟩
        · exact lt_of_le_of_lt (h2 j y h) hb
        · omega
    · rw [if_neg hb]
      apply ih
      refine ⟨by rw [List.getElem?_append_left hi]; exact h1, ?_, ?_⟩
      · intro j y hy
        rcases hcase j y hy with h | ⟨_, h⟩
        · exact h2 j y h
        · rw [h]; exact not_lt.1 hb
      · intro j y hj hy
        rcases hcase j y hy with h | ⟨h, _⟩
        · exact h3 j y hj h
        · omega

/-! ### Pooling -/

theorem poolWindow_spec {α : Type} [LinearOrder α] (data : List α) (base w stride kernel i j : ℕ) (z : α) (hk : 0 < kernel)
    (h : ∀ ki kj, ki < kernel → kj < kernel → base + (i * stride + ki) * w + (j * stride + kj) < data.length) :
    ∃ v, poolWindow data base w stride kernel i j = some v ∧
      (∀ ki kj, ki < kernel → kj < kernel → data.getD (base + (i * stride + ki) * w + (j * stride + kj)) z ≤ v) ∧
      ∃ ki kj, ki < kernel ∧ kj < kernel ∧ v = data.getD (base + (i * stride + ki) * w + (j * stride + kj)) z := by
  unfold poolWindow
  have h0 := h 0 0 hk hk
  simp only [Nat.add_zero] at h0
  rw [getElem?_of_lt data _ z h0, mapM_some' _ fun k => data.getD (base + (i * stride + k.1) * w + (j * stride + k.2)) z]
  · obtain ⟨⟨g1, g2⟩, g3⟩ := foldl_max (((List.range kernel).flatMap fun ki => (List.range kernel).map fun kj => (ki, kj)).map
      fun k => data.getD (base + (i * stride + k.1) * w + (j * stride + k.2)) z)
      (data.getD (base + i * stride * w + j * stride) z)
    refine ⟨_, rfl, ?_, ?_⟩
    · intro ki kj h1 h2
      apply g2
      exact List.mem_map.2 ⟨(ki, kj), by simp [h1, h2], rfl⟩
    · rcases g3 with g3 | g3
      · exact ⟨0, 0, hk, hk, by rw [g3]; simp⟩
      · obtain ⟨⟨ki, kj⟩, hm, he⟩ := List.mem_map.1 g3
        simp at hm
        exact ⟨ki, kj, hm.1, hm.2, he.symm⟩
  · intro k hm
    apply getElem?_of_lt
    obtain ⟨ki, kj⟩ := k
    simp at hm
    exact h ki kj hm.1 hm.2

/-! ### Broadcasting -/

theorem flatRev_lt : ∀ {ds cs : List ℕ}, List.Forall₂ (fun x d => x < d) cs ds → flatRev ds cs < ds.prod := by
  intro ds
  induction ds with
  | nil => intro cs h; cases h; simp [flatRev]
  | cons d ds ih =>
    intro cs h
    cases h with
    | cons h1 h2 =>
      have := ih h2
      rw [flatRev, List.prod_cons]
      rename_i c cs
      calc c + d * flatRev ds cs < d + d * flatRev ds cs := by omega
        _ = d * (flatRev ds cs + 1) := by ring
        _ ≤ d * ds.prod := Nat.mul_le_mul_left _ this

theorem expandLoop_spec {α : Type} (z : α) : ∀ (news olds : List ℕ) (data : List α) (chunk : ℕ), 0 < chunk →
    news.length = olds.length → (∀ p ∈ news.zip olds, expandOk p.1 p.2 = true) → data.length = chunk * olds.prod →
    (expandLoop (news.zip olds) data chunk).length = chunk * news.prod ∧
    ∀ x cs, x < chunk → List.Forall₂ (fun c n => c < n) cs news →
      (expandLoop (news.zip olds) data chunk).getD (x + chunk * flatRev news cs) z
        = data.getD (x + chunk * flatRev olds ((cs.zip olds).map fun xd => if xd.2 = 1 then 0 else xd.1)) z := by
  intro news
  induction news with
  | nil =>
    intro olds data chunk _ hl _ hd
    cases olds with
    | cons => simp at hl
    | nil =>
      refine ⟨by simpa [expandLoop] using hd, ?_⟩
      intro x cs _ h
      cases h
      rfl
  | cons new news ih =>
    intro olds data chunk hc hl hok hd
    cases olds with
    | nil => simp at hl
    | cons old olds =>
      have hl' : news.length = olds.length := by simpa using hl
      have hok' : ∀ p ∈ news.zip olds, expandOk p.1 p.2 = true := fun p hp => hok p (by simp [hp])
      have h0 := hok (new, old) (by simp)
      simp only [expandOk, Bool.and_eq_true, Bool.or_eq_true, beq_iff_eq, decide_eq_true_eq] at h0
      obtain ⟨hnew, hold⟩ := h0
      have hnp : 0 < new := by simp at hnew; omega
      rw [List.prod_cons] at hd
      rw [List.zip_cons_cons]
      by_cases heq : old = new
      · subst heq
        rw [expandLoop, if_pos rfl]
        obtain ⟨g1, g2⟩ := ih olds data (chunk * old) (Nat.mul_pos hc hnp) hl' hok' (by rw [hd]; ring)
        refine ⟨by rw [g1, List.prod_cons]; ring, ?_⟩
        intro x cs hx hcs
        cases hcs with
        | cons h1 h2 =>
          rename_i c cs
          have hlt : x + chunk * c < chunk * old := by
            have := mul_add_lt h1 hx
            rw [mul_comm c, mul_comm old] at this
            omega
          have hclamp : (if old = 1 then 0 else c) = c := by
            split
            · omega
            · rfl
          rw [flatRev, List.zip_cons_cons, List.map_cons, flatRev]
          simp only [hclamp]
          have := g2 (x + chunk * c) cs hlt h2
          rw [show x + chunk * (c + old * flatRev news cs) = x + chunk * c + chunk * old * flatRev news cs by ring, this]
          congr 1
          ring
      · have ho : old = 1 := hold.resolve_right heq
        subst ho
        rw [expandLoop, if_neg heq]
        obtain ⟨M, hM⟩ : ∃ M, M = olds.prod := ⟨_, rfl⟩
        rw [one_mul, ← hM] at hd
        have hchunk : ∀ i, i < M → ((data.drop (chunk * i)).take chunk).length = chunk := by
          intro i hi
          rw [List.length_take, List.length_drop, hd]
          have : chunk * i + chunk ≤ chunk * M := by rw [← Nat.mul_succ]; exact Nat.mul_le_mul_left _ hi
          omega
        obtain ⟨groups, hgr⟩ : ∃ G, G = (List.range M).map fun i =>
            (List.replicate new ((data.drop (chunk * i)).take chunk)).flatten := ⟨_, rfl⟩
        have hdata' : ((chunks chunk data).flatMap fun c => (List.replicate new c).flatten) = groups.flatten := by
          rw [chunks_eq chunk M hc data hd, hgr, List.flatMap_def, List.map_map]
          rfl
        have hgk : ∀ g ∈ groups, g.length = new * chunk := by
          intro g hg
          rw [hgr] at hg
          obtain ⟨i, hi, rfl⟩ := List.mem_map.1 hg
          rw [List.length_flatten, List.map_replicate, hchunk i (List.mem_range.1 hi)]
          simp
        have hgl : groups.length = M := by rw [hgr]; simp
        have hlen' : groups.flatten.length = chunk * new * M := by
          rw [List.length_flatten, List.eq_replicate_of_mem (a := new * chunk) (l := groups.map List.length) (by simpa using hgk)]
          simp [hgl]; ring
        rw [hdata']
        obtain ⟨g1, g2⟩ := ih olds groups.flatten (chunk * new) (Nat.mul_pos hc hnp) hl' hok' (by rw [hlen', hM])
        refine ⟨by rw [g1, List.prod_cons]; ring, ?_⟩
        intro x cs hx hcs
        cases hcs with
        | cons h1 h2 =>
          rename_i c cs
          have hlt : x + chunk * c < chunk * new := by
            have := mul_add_lt h1 hx
            rw [mul_comm c, mul_comm new] at this
            omega
          have hR : flatRev olds ((cs.zip olds).map fun xd => if xd.2 = 1 then 0 else xd.1) < M := by
            rw [hM]
            apply flatRev_lt
            clear g1 g2 hlen' ih hdata' hgk hgl hgr hchunk hd hl hok hlt
            clear hM
            induction news generalizing olds cs with
            | nil => cases olds <;> simp_all
            | cons n ns ihn =>
              cases olds with
              | nil => simp at hl'
              | cons o os =>
                cases h2 with
                | cons h3 h4 =>
                  rename_i c0 cs0
                  rw [List.zip_cons_cons, List.map_cons]
                  refine .cons ?_ (ihn os (by simpa using hl') (fun p hp => hok' p (by simp [hp])) h4)
                  have := hok' (n, o) (by simp)
                  simp only [expandOk, Bool.and_eq_true, Bool.or_eq_true, beq_iff_eq, decide_eq_true_eq] at this
                  show (if o = 1 then 0 else c0) < o
                  split
                  · omega
                  · omega
          rw [flatRev, List.zip_cons_cons, List.map_cons, flatRev]
          simp only [if_true, zero_add, one_mul]
          have := g2 (x + chunk * c) cs hlt h2
          rw [show x + chunk * (c + new * flatRev news cs) = x + chunk * c + chunk * new * flatRev news cs by ring, this]
          obtain ⟨R, hR'⟩ : ∃ R, R = flatRev olds ((cs.zip olds).map fun xd => if xd.2 = 1 then 0 else xd.1) := ⟨_, rfl⟩
          rw [← hR'] at hR ⊢
          rw [show x + chunk * c + chunk * new * R = R * (new * chunk) + (c * chunk + x) by ring]
          have hin : c * chunk + x < new * chunk := mul_add_lt h1 hx
          rw [getD_flatten (new * chunk) groups hgk R _ z (by omega) hin]
          have hg : groups[R]'(by omega) = (List.replicate new ((data.drop (chunk * R)).take chunk)).flatten := by
            simp [hgr]
          rw [hg, getD_flatten chunk _ (by intro g hg'; rw [List.eq_of_mem_replicate hg']; exact hchunk R hR) c x z
            (by simpa using h1) hx]
          simp only [List.getElem_replicate, List.getD_eq_getElem?_getD, List.getElem?_take, if_pos hx, List.getElem?_drop]
          rw [add_comm]

theorem sum_range_mul' {α : Type} [Semiring α] (b : ℕ) (f : ℕ → α) : ∀ a : ℕ,
    ∑ k ∈ Finset.range (a * b), f k = ∑ i ∈ Finset.range a, ∑ j ∈ Finset.range b, f (i * b + j) := by
  intro a
  induction a with
  | zero => simp
  | succ a ih => rw [Finset.sum_range_succ, ← ih, Nat.succ_mul, Finset.sum_range_add]

/-- Restricting a sum to the range where the terms are not zero. -/
theorem sum_range_le {α : Type} [Semiring α] (a b : ℕ) (f : ℕ → α) (h : a ≤ b) :
    ∑ k ∈ Finset.range b, (if k < a then f k else 0) = ∑ k ∈ Finset.range a, f k := by
  rw [← Finset.sum_filter]
  congr 1
  ext k
  simp only [Finset.mem_filter, Finset.mem_range]
  omega

end Lemmas
