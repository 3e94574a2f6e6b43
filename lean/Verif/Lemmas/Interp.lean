import Verif.Model.Sumcheck
import Verif.Lemmas.Mle
import Mathlib.LinearAlgebra.Lagrange

namespace Lemmas
open Model Spec Polynomial

variable {F : Type} [Field F] [DecidableEq F]

/-! ### batch inversion -/

theorem invPass1_append (a b : List F) (t : F) :
    invPass1 (a ++ b) t = ((invPass1 a t).1 ++ (invPass1 b (invPass1 a t).2).1,
      (invPass1 b (invPass1 a t).2).2) := by
  induction a generalizing t with
  | nil => simp [invPass1]
  | cons f fs ih =>
    simp only [List.cons_append, invPass1]
    split
    · exact ih t
    · simp [ih]

theorem invPass1_ne_zero (v : List F) (t : F) (ht : t ≠ 0) : (invPass1 v t).2 ≠ 0 := by
  induction v generalizing t with
  | nil => simpa [invPass1]
  | cons f fs ih =>
    simp only [invPass1]
    split
    · exact ih t ht
    · exact ih _ (mul_ne_zero ht ‹_›)

/-- The last running product is the final `tmp`. -/
theorem invPass1_last (v : List F) (t : F) :
    t :: (invPass1 v t).1 = (t :: (invPass1 v t).1).dropLast ++ [(invPass1 v t).2] := by
  induction v generalizing t with
  | nil => simp [invPass1]
  | cons f fs ih =>
    simp only [invPass1]
    split
    · exact ih t
    · have := ih (t * f)
      rw [List.dropLast_cons_of_ne_nil (by simp)]
      simp only [List.cons_append]
      rw [← this]

theorem invPass1_nil_zero (v : List F) (t : F) (h : (invPass1 v t).1 = []) : ∀ f ∈ v, f = 0 := by
  induction v generalizing t with
  | nil => simp
  | cons f fs ih =>
    simp only [invPass1] at h
    split at h
    · simpa [‹f = 0›] using ih t h
    · simp at h

theorem invPass2_zeros (v ss : List F) (t : F) (h : ∀ f ∈ v, f = 0) : invPass2 v ss t = v := by
  induction v with
  | nil => simp [invPass2]
  | cons f fs ih =>
    have hf : f = 0 := h f (by simp)
    simp only [invPass2, hf, if_true]
    rw [ih (fun g hg => h g (by simp [hg]))]

theorem invPass1_nil_one (v : List F) (t : F) (h : (invPass1 v t).1 = []) : (invPass1 v t).2 = t := by
  have := invPass1_last v t
  rw [h] at this
  simpa using this.symm

theorem invPass2_spec (v : List F) (c : F) :
    invPass2 v.reverse ((invPass1 v 1).1.reverse.drop 1 ++ [1]) ((invPass1 v 1).2⁻¹ * c)
      = v.reverse.map fun f => if f = 0 then 0 else c * f⁻¹ := by
  induction v using List.reverseRecOn with
  | nil => simp [invPass2, invPass1]
  | append_singleton v f ih =>
    rw [List.reverse_append, invPass1_append]
    by_cases hf : f = 0
    · simp only [invPass1, hf, if_true, List.append_nil, List.reverse_cons, List.reverse_nil,
        List.nil_append, List.singleton_append, invPass2, List.map_cons]
      rw [ih]
    · simp only [invPass1, hf, if_false, List.reverse_cons, List.reverse_nil, List.nil_append,
        List.singleton_append, List.reverse_append, List.drop_succ_cons, List.drop_zero, List.map_cons]
      have hlast := invPass1_last v 1
      have hT := invPass1_ne_zero v 1 one_ne_zero
      by_cases hnil : (invPass1 v 1).1 = []
      · have hz := invPass1_nil_zero v 1 hnil
        rw [hnil, invPass1_nil_one v 1 hnil]
        simp only [List.reverse_nil, List.nil_append, invPass2, hf, if_false, one_mul]
        congr 1
        · ring
        · rw [invPass2_zeros _ _ _ (fun g hg => hz g (by simpa using hg))]
          symm
          rw [List.map_congr_left (g := id)]
          · simp
          · intro g hg
            have : g = 0 := hz g (by simpa using hg)
            simp [this]
      generalize hP : (invPass1 v 1).1 = P at *
      generalize hTT : (invPass1 v 1).2 = T at *
      have e : P.reverse ++ [1] = T :: (P.reverse.drop 1 ++ [1]) := by
        obtain ⟨Q, q, rfl⟩ : ∃ Q q, P = Q ++ [q] :=
          ⟨P.dropLast, P.getLast hnil, (List.dropLast_append_getLast hnil).symm⟩
        have : q = T := by
          rw [← List.cons_append, List.dropLast_concat] at hlast
          simpa using hlast
        simp [this]
      rw [e]
      simp only [invPass2, hf, if_false]
      congr 1
      · field_simp
      · rw [← ih]
        congr 1
        field_simp

theorem serialBatchInversionAndMul_eq (v : List F) (c : F) :
    serialBatchInversionAndMul v c = some (v.map fun f => if f = 0 then 0 else c * f⁻¹) := by
  unfold serialBatchInversionAndMul
  have hT := invPass1_ne_zero v 1 one_ne_zero
  simp only [hT, if_false]
  rw [invPass2_spec]
  simp

theorem chunksOf_flatten (k : ℕ) (hk : 0 < k) (fuel : ℕ) (l : List F) (h : l.length ≤ fuel) :
    (chunksOf k fuel l).flatten = l := by
  induction fuel generalizing l with
  | zero => simp [chunksOf, List.length_eq_zero_iff.mp (Nat.le_zero.mp h)]
  | succ n ih =>
    unfold chunksOf
    split
    · simp [*]
    · rename_i hne
      have : 0 < l.length := List.length_pos_iff.mpr hne
      rw [List.flatten_cons, ih _ (by rw [List.length_drop]; omega), List.take_append_drop]

theorem mapM_some {α β : Type} (f : α → Option β) (g : α → β) (l : List α)
    (h : ∀ a ∈ l, f a = some (g a)) : l.mapM f = some (l.map g) := by
  induction l with
  | nil => rfl
  | cons a l ih =>
    rw [List.mapM_cons, h a (by simp), ih (fun b hb => h b (by simp [hb]))]
    rfl

theorem batchInversionAndMul_eq (t : ℕ) (ht : 0 < t) (v : List F) (c : F) :
    batchInversionAndMul t v c = some (v.map fun f => if f = 0 then 0 else c * f⁻¹) := by
  unfold batchInversionAndMul
  rw [if_neg (by omega)]
  simp only
  rw [mapM_some _ (fun l => l.map fun f => if f = 0 then 0 else c * f⁻¹) _
    (fun l _ => serialBatchInversionAndMul_eq l c)]
  simp only [Option.bind_eq_bind, Option.bind_some]
  rw [← List.map_flatten, chunksOf_flatten _ (by omega) _ _ le_rfl]

/-- An execution mode with at least one thread. -/
def Exec.ok : Exec → Prop
  | .serial => True
  | .parallel t => 0 < t

theorem batchInversion_eq (ex : Exec) (h : Exec.ok ex) (v : List F) :
    batchInversion ex v = some (v.map fun f => f⁻¹) := by
  have : (fun f : F => if f = 0 then 0 else 1 * f⁻¹) = fun f => f⁻¹ := by
    funext f; split <;> simp [*]
  cases ex with
  | serial => rw [batchInversion, serialBatchInversionAndMul_eq, this]
  | parallel t => rw [batchInversion, batchInversionAndMul_eq t h, this]

/-! ### interpolation -/

theorem barycentricWeights_eq (ex : Exec) (h : Exec.ok ex) (points : List F) :
    barycentricWeights ex points = some ((List.range points.length).map fun j =>
      (∏ i ∈ (Finset.range points.length).erase j, (points.getD j 0 - points.getD i 0))⁻¹) := by
  unfold barycentricWeights
  rw [batchInversion_eq ex h, List.map_map]
  congr 1
  apply List.map_congr_left
  intro j _
  simp only [Function.comp]
  congr 1
  rw [← List.prod_toFinset _ ((List.nodup_range).filter _)]
  apply Finset.prod_congr _ (fun _ _ => rfl)
  ext i
  simp [and_comm]

theorem sum_zipWith_range (n : ℕ) (f g : ℕ → F) :
    (List.zipWith (· * ·) ((List.range n).map f) ((List.range n).map g)).sum
      = ∑ i ∈ Finset.range n, f i * g i := by
  rw [List.zipWith_map, List.zipWith_self, sum_map_range']
where
  sum_map_range' : ∀ {h : ℕ → F}, ((List.range n).map h).sum = ∑ i ∈ Finset.range n, h i := by
    intro h
    rw [← List.sum_toFinset _ List.nodup_range, List.toFinset_range]

theorem map_eq_range_map {α β : Type} (l : List α) (f : α → β) (d : α) :
    l.map f = (List.range l.length).map fun i => f (l.getD i d) := by
  apply List.ext_getElem (by simp)
  intro i h1 h2
  have : i < l.length := by simpa using h1
  simp [List.getD_eq_getElem?_getD, this]

theorem extrapolate_eq (ex : Exec) (h : Exec.ok ex) (points : List F) (hnd : points.Nodup) (P : F[X])
    (hP : P.degree < points.length) (hne : points ≠ []) (x : F) (hx : x ∉ points) :
    (barycentricWeights ex points).bind (fun w => extrapolate ex points w (points.map P.eval) x)
      = some (P.eval x) := by
  set n := points.length with hn
  set v : ℕ → F := fun i => points.getD i 0 with hv
  have hinj : Set.InjOn v (Finset.range n) := by
    intro a ha b hb hab
    simp only [Finset.coe_range, Set.mem_Iio] at ha hb
    have e1 : v a = points[a] := by simp [hv, List.getD_eq_getElem?_getD, ha, ← hn]
    have e2 : v b = points[b] := by simp [hv, List.getD_eq_getElem?_getD, hb, ← hn]
    rw [e1, e2] at hab
    exact (hnd.getElem_inj_iff).mp hab
  have hxv : ∀ i ∈ Finset.range n, x ≠ v i := by
    intro i hi heq
    apply hx
    have hi' : i < points.length := by simpa [hn] using hi
    rw [heq, hv]
    simp [List.getD_eq_getElem?_getD, hi']
  rw [barycentricWeights_eq ex h, Option.bind_some]
  unfold extrapolate
  rw [batchInversion_eq ex h, List.map_map, map_eq_range_map points _ 0, map_eq_range_map points P.eval 0,
    ← hn]
  simp only [Option.bind_eq_bind, Option.bind_some, Function.comp]
  rw [List.zipWith_map, List.zipWith_self, sum_zipWith_range,
    sum_zipWith_range.sum_map_range']
  have key := Lagrange.eval_interpolate_not_at_node' (s := Finset.range n) (v := v)
    (r := fun i => P.eval (v i)) hinj (by
      rw [Finset.nonempty_range_iff]
      have := List.length_pos_iff.mpr hne
      omega) hxv
  rw [← Lagrange.eq_interpolate_of_eval_eq (f := P) (s := Finset.range n) (v := v)
    (fun i => P.eval (v i)) hinj (by simpa using hP) (fun _ _ => rfl)] at key
  rw [key]
  have hw : ∀ i ∈ Finset.range n, (x - v i)⁻¹ * (∏ j ∈ (Finset.range n).erase i, (v i - v j))⁻¹
      = Lagrange.nodalWeight (Finset.range n) v i * (x - v i)⁻¹ := by
    intro i _
    rw [Lagrange.nodalWeight, Finset.prod_inv_distrib, mul_comm]
  rw [Finset.sum_congr rfl (fun i hi => hw i hi)]
  have hw2 : ∀ i ∈ Finset.range n, (x - v i)⁻¹ * (∏ j ∈ (Finset.range n).erase i, (v i - v j))⁻¹ * P.eval (v i)
      = Lagrange.nodalWeight (Finset.range n) v i * (x - v i)⁻¹ * P.eval (v i) := by
    intro i hi
    rw [hw i hi]
  rw [Finset.sum_congr rfl (fun i hi => hw2 i hi)]
  congr 1
  split
  · rename_i h0
    rw [h0]; simp
  · rw [div_eq_mul_inv]

theorem fieldFactorial_eq (a : ℕ) : (fieldFactorial a : F) = (a.factorial : F) := by
  unfold fieldFactorial
  have : ∀ k, (List.range k).foldl (fun res i => res * ((i + 2 : ℕ) : F)) 1 = ((k + 1).factorial : F) := by
    intro k
    induction k with
    | zero => simp
    | succ k ih => rw [List.range_succ, List.foldl_append, ih]; simp [Nat.factorial_succ]; ring
  rw [this]
  rcases a with _ | a
  · simp
  · simp

theorem prod_foldl_range (n : ℕ) (f : ℕ → F) :
    (List.range n).foldl (fun acc e => acc * f e) 1 = ∏ e ∈ Finset.range n, f e := by
  induction n with
  | zero => simp
  | succ n ih => rw [List.range_succ, List.foldl_append, ih, Finset.prod_range_succ]; simp

/-- Denominator after `m` steps. -/
def interpUp (L m : ℕ) : F := ((L - 1).factorial : F) * (-1) ^ m * (m.factorial : F)

theorem interp_fold (p : List F) (x prod : F) (L : ℕ) (hL : p.length = L)
    (hchar : ∀ k, 0 < k → k < L → (k : F) ≠ 0) (hx : ∀ k, k < L → x ≠ (k : F)) (j : ℕ) (hj : j ≤ L)
    (res : F) :
    ∃ s, (List.range j).reverse.foldlM (interpStep p x prod)
        (res, interpUp L (L - j), ((L - 1).descFactorial (L - j) : F)) = some s ∧
      s.1 = res + ∑ i ∈ Finset.range j,
        p.getD i 0 * prod * ((L - 1).descFactorial (L - 1 - i) : F)
          * (interpUp L (L - 1 - i) * (x - (i : F)))⁻¹ := by
  have hfac : ∀ k, k < L → ((k.factorial : ℕ) : F) ≠ 0 := by
    intro k
    induction k with
    | zero => simp
    | succ k ih =>
      intro hk
      rw [Nat.factorial_succ, Nat.cast_mul]
      exact mul_ne_zero (hchar _ (by omega) hk) (ih (by omega))
  induction j generalizing res with
  | zero => exact ⟨_, rfl, by simp⟩
  | succ j ih =>
    rw [List.range_succ, List.reverse_append, List.reverse_singleton, List.singleton_append,
      List.foldlM_cons]
    have hup : (interpUp L (L - (j + 1)) : F) * (x - (j : F)) ≠ 0 := by
      unfold interpUp
      refine mul_ne_zero (mul_ne_zero (mul_ne_zero (hfac _ (by omega)) ?_) (hfac _ (by omega)))
        (sub_ne_zero.mpr (hx j (by omega)))
      exact pow_ne_zero _ (neg_ne_zero.mpr one_ne_zero)
    unfold interpStep
    simp only [hup, if_false]
    have e1 : L - (j + 1) = L - 1 - j := by omega
    by_cases h0 : j = 0
    · subst h0
      simp only [ne_eq, not_true_eq_false, if_false]
      refine ⟨_, rfl, ?_⟩
      rw [zero_add, Finset.sum_range_one]
      rfl
    · simp only [ne_eq, h0, not_false_eq_true, if_true, Option.bind_eq_bind, Option.bind_some]
      have e2 : L - j = (L - 1 - j) + 1 := by omega
      have hU : (interpUp L (L - (j + 1)) : F) * (-((p.length - j : ℕ) : F)) = interpUp L (L - j) := by
        unfold interpUp
        rw [hL, e1, e2, Nat.factorial_succ, pow_succ]
        push_cast
        ring
      have hD : (((L - 1).descFactorial (L - (j + 1)) : ℕ) : F) * (j : F)
          = ((L - 1).descFactorial (L - j) : ℕ) := by
        rw [e1, e2, Nat.descFactorial_succ, Nat.cast_mul]
        have : L - 1 - (L - 1 - j) = j := by omega
        rw [this, mul_comm]
      rw [hU, hD]
      obtain ⟨s, hs, hs1⟩ := ih (by omega) (res + p.getD j 0 * prod
        * ((L - 1).descFactorial (L - (j + 1)) : F) * (interpUp L (L - (j + 1)) * (x - (j : F)))⁻¹)
      refine ⟨s, hs, ?_⟩
      rw [hs1, Finset.sum_range_succ, e1]
      ring

theorem prod_erase_factorial (L i : ℕ) (hi : i < L) :
    ∏ j ∈ (Finset.range L).erase i, ((i : F) - (j : F))
      = (i.factorial : F) * (-1) ^ (L - 1 - i) * ((L - 1 - i).factorial : F) := by
  have hsplit : (Finset.range L).erase i = Finset.range i ∪ Finset.Ico (i + 1) L := by
    ext j; simp; omega
  have hdis : Disjoint (Finset.range i) (Finset.Ico (i + 1) L) := by
    rw [Finset.disjoint_left]; intro j; simp; omega
  rw [hsplit, Finset.prod_union hdis]
  have h1 : ∀ i : ℕ, ∏ j ∈ Finset.range i, ((i : F) - (j : F)) = (i.factorial : F) := by
    intro i
    rw [← Finset.prod_range_reflect, ← Finset.prod_range_add_one_eq_factorial]
    push_cast
    apply Finset.prod_congr rfl
    intro j hj
    have hj' : j < i := by simpa using hj
    have : i - 1 - j = i - (j + 1) := by omega
    rw [this, Nat.cast_sub (by omega)]
    push_cast; ring
  have h2 : ∏ j ∈ Finset.Ico (i + 1) L, ((i : F) - (j : F))
      = (-1) ^ (L - 1 - i) * ((L - 1 - i).factorial : F) := by
    rw [Finset.prod_Ico_eq_prod_range, ← Finset.prod_range_add_one_eq_factorial]
    have : L - (i + 1) = L - 1 - i := by omega
    rw [this]
    push_cast
    rw [show ((-1 : F)) ^ (L - 1 - i) = ∏ _j ∈ Finset.range (L - 1 - i), (-1 : F) by simp,
      ← Finset.prod_mul_distrib]
    apply Finset.prod_congr rfl
    intro j _
    ring
  rw [h1, h2]; ring

/-- `interpolate_uni_poly` on the values of a polynomial at `0..L-1`. -/
theorem interpolateUniPoly_eq (p : List F) (L : ℕ) (hL : p.length = L) (hpos : 0 < L)
    (hchar : ∀ k, 0 < k → k < L → (k : F) ≠ 0) (P : F[X]) (hP : P.degree < L)
    (hp : ∀ i, i < L → p.getD i 0 = P.eval (i : F)) (x : F) (hx : ∀ k, k < L → x ≠ (k : F)) :
    interpolateUniPoly p x = some (P.eval x) := by
  unfold interpolateUniPoly
  rw [if_neg (by omega)]
  simp only
  rw [prod_foldl_range p.length (fun e => x - (e : F)), hL]
  obtain ⟨s, hs, hs1⟩ := interp_fold p x (∏ e ∈ Finset.range L, (x - (e : F))) L hL hchar hx L le_rfl 0
  have h0 : (interpUp L (L - L) : F) = fieldFactorial (L - 1) := by
    rw [fieldFactorial_eq]; simp [interpUp]
  have h1 : ((L - 1).descFactorial (L - L) : F) = 1 := by simp
  rw [h0, h1] at hs
  simp only [hs, Option.bind_eq_bind, Option.bind_some]
  congr 1
  rw [hs1, zero_add]
  have hfac : ∀ k, k < L → ((k.factorial : ℕ) : F) ≠ 0 := by
    intro k
    induction k with
    | zero => simp
    | succ k ih =>
      intro hk
      rw [Nat.factorial_succ, Nat.cast_mul]
      exact mul_ne_zero (hchar _ (by omega) hk) (ih (by omega))
  have hinj : Set.InjOn (fun i : ℕ => (i : F)) (Finset.range L) := by
    intro a ha b hb hab
    simp only [Finset.coe_range, Set.mem_Iio] at ha hb
    by_contra hne
    rcases Nat.lt_or_ge a b with h | h
    · apply hchar (b - a) (by omega) (by omega)
      rw [Nat.cast_sub h.le]; simp only at hab; rw [hab]; simp
    · apply hchar (a - b) (by omega) (by omega)
      rw [Nat.cast_sub h]; simp only at hab; rw [hab]; simp
  have key := Lagrange.eval_interpolate_not_at_node (s := Finset.range L) (v := fun i : ℕ => (i : F)) (x := x)
    (fun i => P.eval (i : F)) (by
      intro i hi; exact hx i (by simpa using hi))
  rw [← Lagrange.eq_interpolate_of_eval_eq (f := P) (s := Finset.range L) (v := fun i : ℕ => (i : F))
    (fun i => P.eval (i : F)) hinj (by simpa using hP) (fun _ _ => rfl)] at key
  rw [key, Lagrange.eval_nodal, Finset.mul_sum]
  apply Finset.sum_congr rfl
  intro i hi
  have hi' : i < L := by simpa using hi
  rw [hp i hi', Lagrange.nodalWeight, Finset.prod_inv_distrib, prod_erase_factorial L i hi']
  have hd : (((L - 1).factorial : ℕ) : F) = (i.factorial : F) * ((L - 1).descFactorial (L - 1 - i) : F) := by
    rw [← Nat.cast_mul, ← Nat.factorial_mul_descFactorial (n := L - 1) (k := L - 1 - i) (by omega)]
    have : L - 1 - (L - 1 - i) = i := by omega
    rw [this]
  have hdne : ((L - 1).descFactorial (L - 1 - i) : F) ≠ 0 := by
    intro h
    rw [h, mul_zero] at hd
    exact hfac _ (by omega) hd
  have hi1 := hfac i hi'
  have hi2 := hfac (L - 1 - i) (by omega)
  have hxi : x - (i : F) ≠ 0 := sub_ne_zero.mpr (hx i hi')
  have hneg : ((-1 : F)) ^ (L - 1 - i) ≠ 0 := pow_ne_zero _ (neg_ne_zero.mpr one_ne_zero)
  unfold interpUp
  rw [hd]
  field_simp

theorem foldlM_none {α β : Type} (f : β → α → Option β) (l : List α) (a : α) (ha : a ∈ l)
    (h : ∀ s, f s a = none) (s : β) : l.foldlM f s = none := by
  induction l generalizing s with
  | nil => simp at ha
  | cons b l ih =>
    rw [List.foldlM_cons]
    rcases List.mem_cons.mp ha with rfl | h'
    · rw [h]; rfl
    · cases f s b with
      | none => rfl
      | some s' => exact ih h' s'

theorem interpolateUniPoly_none (p : List F) (x : F) (k : ℕ) (hk : k < p.length) (hx : x = (k : F)) :
    interpolateUniPoly p x = none := by
  unfold interpolateUniPoly
  rw [if_neg (by omega)]
  simp only
  rw [foldlM_none _ _ k (by simpa using hk)]
  · rfl
  · intro s
    simp [interpStep, hx]

end Lemmas
