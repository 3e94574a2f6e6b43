import Verif.Lemmas.Interp
import Verif.Lemmas.Eq
import Verif.Spec.Sumcheck

namespace Lemmas
open Model Spec Polynomial

variable {F : Type} [Field F]

theorem bitsPoint_succ (n b : ℕ) :
    (bitsPoint (n + 1) b : List F) = (if b.testBit 0 then 1 else 0) :: bitsPoint n (b / 2) := by
  unfold bitsPoint
  rw [List.range_succ_eq_map, List.map_cons, List.map_map]
  congr 1
  apply List.map_congr_left
  intro j _
  simp [Nat.testBit_succ]

theorem cubeSum_zero (g : List F → F) : cubeSum 0 g = g [] := by
  simp [cubeSum, bitsPoint]

theorem cubeSum_succ (n : ℕ) (g : List F → F) :
    cubeSum (n + 1) g = cubeSum n (fun b => g (0 :: b)) + cubeSum n (fun b => g (1 :: b)) := by
  unfold cubeSum
  rw [pow_succ, mul_comm, sum_range_two_mul, ← Finset.sum_add_distrib]
  apply Finset.sum_congr rfl
  intro b _
  rw [bitsPoint_succ, bitsPoint_succ]
  have h1 : (2 * b).testBit 0 = false := by simp
  have h2 : (2 * b + 1).testBit 0 = true := by simp [Nat.testBit_zero]
  have h3 : (2 * b + 1) / 2 = b := by omega
  have h4 : 2 * b / 2 = b := by omega
  rw [h1, h2, h3, h4]
  simp

theorem cubeSum_congr (n : ℕ) (g h : List F → F) (e : ∀ p, p.length = n → g p = h p) :
    cubeSum n g = cubeSum n h := by
  unfold cubeSum
  exact Finset.sum_congr rfl fun b _ => e _ (bitsPoint_length n b)

theorem cubeSum_add (n : ℕ) (g h : List F → F) :
    cubeSum n (fun p => g p + h p) = cubeSum n g + cubeSum n h := by
  unfold cubeSum; exact Finset.sum_add_distrib

theorem cubeSum_smul (n : ℕ) (c : F) (g : List F → F) :
    cubeSum n (fun p => c * g p) = c * cubeSum n g := by
  unfold cubeSum; rw [Finset.mul_sum]

theorem cubeSum_zero' (n : ℕ) : cubeSum n (fun _ => (0 : F)) = 0 := by
  unfold cubeSum; simp

theorem cubeSum_const (n : ℕ) (c : F) : cubeSum n (fun _ => c) = 2 ^ n * c := by
  unfold cubeSum; simp

/-- A function of the first `k` variables only. -/
theorem cubeSum_take (n k : ℕ) (hk : k ≤ n) (g : List F → F) :
    cubeSum n (fun p => g (p.take k)) = 2 ^ (n - k) * cubeSum k g := by
  induction k generalizing n g with
  | zero =>
    simp only [List.take_zero]
    rw [cubeSum_const, cubeSum_zero]; simp
  | succ k ih =>
    obtain ⟨n, rfl⟩ : ∃ m, n = m + 1 := ⟨n - 1, by omega⟩
    rw [cubeSum_succ, cubeSum_succ]
    simp only [List.take_succ_cons]
    rw [ih n (by omega) (fun p => g (0 :: p)), ih n (by omega) (fun p => g (1 :: p))]
    rw [show n + 1 - (k + 1) = n - k by omega]
    ring

theorem cubeSum_sum {ι : Type} (n : ℕ) (l : List ι) (g : ι → List F → F) :
    cubeSum n (fun p => (l.map fun i => g i p).sum) = (l.map fun i => cubeSum n (g i)).sum := by
  induction l with
  | nil => simp [cubeSum_zero']
  | cons a l ih => simp only [List.map_cons, List.sum_cons]; rw [cubeSum_add, ih]

/-! ### generated code -/

theorem cTerm_eq (d : F) (j : ℕ) : cTerm d j = (2 ^ j : ℕ) * d := by
  induction j with
  | zero => simp [cTerm]
  | succ j ih => rw [cTerm, ih, pow_succ]; push_cast; ring

theorem sum_oneBits (n m : ℕ) :
    (((List.range m).filter fun j => n.testBit j).map fun j => 2 ^ j).sum = n % 2 ^ m := by
  induction m with
  | zero => simp [Nat.mod_one]
  | succ m ih =>
    rw [List.range_succ, List.filter_append, List.map_append, List.sum_append, ih, Nat.mod_pow_succ]
    have hb : n.testBit m = decide (n / 2 ^ m % 2 = 1) := Nat.testBit_eq_decide_div_mod_eq
    rcases Nat.mod_two_eq_zero_or_one (n / 2 ^ m) with h | h <;> simp [hb, h]

theorem rowFactor_eq (i : ℕ) (lo hi : F) :
    rowFactor (i + 1) lo hi = lo + (i : F) * (hi - lo) := by
  unfold rowFactor
  by_cases h1 : i = 0
  · simp [h1]
  by_cases h2 : i = 1
  · simp [h2]
  rw [if_neg (by omega), if_neg (by omega)]
  have h : ((idxOfOneBits (i + 1 - 2)).map (cTerm (hi - lo))).sum = ((i - 1 : ℕ) : F) * (hi - lo) := by
    have e : ((idxOfOneBits (i + 1 - 2)).map fun j => 2 ^ j).sum = i - 1 := by
      unfold idxOfOneBits
      rw [sum_oneBits, show i + 1 - 2 = i - 1 by omega, Nat.mod_eq_of_lt]
      exact Nat.lt_log2_self
    rw [← e]
    generalize idxOfOneBits (i + 1 - 2) = l
    induction l with
    | nil => simp
    | cons a l ih => rw [List.map_cons, List.sum_cons, ih, cTerm_eq, List.map_cons, List.sum_cons]; push_cast; ring
  rw [h, Nat.cast_sub (by omega)]
  push_cast; ring

/-- Value of a table with the first variable set to `x` at the cube point `b`. -/
theorem mle_cons_bits (v : List F) (k : ℕ) (hv : v.length = 2 ^ (k + 1)) (x : F) (b : ℕ) (hb : b < 2 ^ k) :
    mle v (x :: bitsPoint k b) = v.getD (2 * b) 0 + x * (v.getD (2 * b + 1) 0 - v.getD (2 * b) 0) := by
  have he : v.length % 2 = 0 := by rw [hv, pow_succ]; omega
  rw [mle_cons v he, mle_bitsPoint _ k b hb, chunkFix_getD _ _ he]
  ring

theorem prod_map_congr {α : Type} (l : List α) (f g : α → F) (h : ∀ a ∈ l, f a = g a) :
    (l.map f).prod = (l.map g).prod := by rw [List.map_congr_left h]

/-- The generated code computes the round polynomial of a product of tables at `0..d`. -/
theorem codegen_eq (vs : List (List F)) (hne : vs ≠ []) (k n round : ℕ) (hr : 1 ≤ round)
    (hvs : ∀ v ∈ vs, v.length = 2 ^ k) (hk : k ≤ n + 1) :
    codegen (n + round) round vs = some ((List.range (vs.length + 1)).map fun x : ℕ =>
      cubeSum n fun b => (vs.map fun v => mle v (((x : F) :: b).take k)).prod) := by
  obtain ⟨v1, vs', rfl⟩ := List.exists_cons_of_ne_nil hne
  have hv1 : v1.length = 2 ^ k := hvs v1 (by simp)
  unfold codegen
  simp only
  rw [if_pos]
  swap
  · rw [List.all_eq_true]
    intro v hv
    rw [hvs v hv, hv1]; simp
  rw [hv1, ceilLog2_pow]
  simp only [Option.bind_eq_bind, Option.bind_some]
  rw [if_pos (by omega)]
  generalize hvv : v1 :: vs' = vs at *
  rcases k with _ | k
  · -- tables without variables
    simp only [pow_zero, if_true]
    have hval : ∀ x : F, cubeSum n (fun b => (vs.map fun v => mle v ((x :: b).take 0)).prod)
        = 2 ^ n * rowItem 1 0 vs := by
      intro x
      simp only [List.take_zero]
      rw [cubeSum_const]
      congr 1
      unfold rowItem
      apply prod_map_congr
      intro v hv
      rw [mle_nil]
      simp [rowFactor]
    simp only [hval]
    have e : n + round - (max 0 1 + round - 1) = n := by omega
    rw [e, List.map_replicate]
    rw [List.map_const', List.length_range]
    congr 1
    split
    · congr 1; push_cast; ring
    · have : n = 0 := by omega
      subst this; simp
  · have h1 : (2 : ℕ) ^ (k + 1) ≠ 1 := by
      rw [pow_succ]; omega
    rw [if_neg h1]
    have e : n + round - (max (k + 1) 1 + round - 1) = n - k := by omega
    rw [e, show 2 ^ (k + 1) / 2 = 2 ^ k by rw [pow_succ]; omega]
    have hval : ∀ x : ℕ, cubeSum n (fun b => (vs.map fun v => mle v (((x : F) :: b).take (k + 1))).prod)
        = ((List.range (2 ^ k)).map fun h => rowItem (x + 1) (2 * h) vs).sum * ((2 ^ (n - k) : ℕ) : F) := by
      intro x
      simp only [List.take_succ_cons]
      rw [cubeSum_take n k (by omega) (fun b => (vs.map fun v => mle v ((x : F) :: b)).prod), sum_map_range]
      push_cast
      rw [mul_comm]
      congr 1
      unfold cubeSum
      apply Finset.sum_congr rfl
      intro b hb
      unfold rowItem
      apply prod_map_congr
      intro v hv
      rw [mle_cons_bits v k (hvs v hv) _ b (by simpa using hb), rowFactor_eq]
    simp only [hval]
    congr 1
    split
    · rw [List.map_map]; rfl
    · have : n - k = 0 := by omega
      simp [this]

/-- Existence of the round polynomial of a product. -/
theorem prod_poly (vs : List (List F)) (k : ℕ) (hvs : ∀ v ∈ vs, v.length = 2 ^ k) (b : List F) :
    ∃ P : F[X], P.natDegree ≤ vs.length ∧
      ∀ x, (vs.map fun v => mle v ((x :: b).take k)).prod = P.eval x := by
  induction vs with
  | nil => exact ⟨1, by simp, by simp⟩
  | cons v vs ih =>
    obtain ⟨P, hP, hPe⟩ := ih (fun w hw => hvs w (by simp [hw]))
    have hv := hvs v (by simp)
    obtain ⟨Q, hQ, hQe⟩ : ∃ Q : F[X], Q.natDegree ≤ 1 ∧ ∀ x, mle v ((x :: b).take k) = Q.eval x := by
      rcases k with _ | k
      · exact ⟨C (mle v []), by simp, by simp⟩
      · refine ⟨C (mle v (0 :: b.take k)) + C (mle v (1 :: b.take k) - mle v (0 :: b.take k)) * X, ?_, ?_⟩
        · refine (natDegree_add_le _ _).trans ?_
          simp only [natDegree_C, zero_le, sup_of_le_right]
          exact (natDegree_C_mul_le _ _).trans natDegree_X_le
        · intro x
          simp only [List.take_succ_cons, eval_add, eval_C, eval_mul, eval_X]
          have he : v.length % 2 = 0 := by rw [hv, pow_succ]; omega
          have key : ∀ y, mle v (y :: b.take k) = ∑ j ∈ Finset.range (2 ^ (b.take k).length),
              (y * (v.getD (2 * j + 1) 0 - v.getD (2 * j) 0) + v.getD (2 * j) 0) * chi (b.take k) j := by
            intro y
            rw [mle_cons v he, mle]
            apply Finset.sum_congr rfl
            intro j _
            rw [chunkFix_getD _ _ he]
          rw [key x, key 0, key 1, ← Finset.sum_sub_distrib, Finset.sum_mul, ← Finset.sum_add_distrib]
          apply Finset.sum_congr rfl
          intro j _
          ring
    refine ⟨Q * P, ?_, ?_⟩
    · refine natDegree_mul_le.trans ?_
      rw [List.length_cons]; omega
    · intro x
      rw [List.map_cons, List.prod_cons, hQe, hPe, eval_mul]

theorem cubeSum_poly (n d : ℕ) (g : F → List F → F)
    (h : ∀ b, b.length = n → ∃ P : F[X], P.natDegree ≤ d ∧ ∀ x, g x b = P.eval x) :
    ∃ P : F[X], P.natDegree ≤ d ∧ ∀ x, cubeSum n (g x) = P.eval x := by
  choose! P hP hPe using h
  refine ⟨∑ b ∈ Finset.range (2 ^ n), P (bitsPoint n b), ?_, ?_⟩
  · apply natDegree_sum_le_of_forall_le
    intro b _
    exact hP _ (bitsPoint_length n b)
  · intro x
    rw [eval_finset_sum]
    unfold cubeSum
    exact Finset.sum_congr rfl fun b _ => hPe _ (bitsPoint_length n b) x

/-! ### one round of the prover -/

/-- Well-formed sumcheck instance over `n` variables with degree bound `D`. -/
structure ProverWF (D n : ℕ) (products : List (F × List ℕ)) (mles : List (Mle F)) : Prop where
  tables : ∀ m ∈ mles, m.evals.length = 2 ^ m.numVars ∧ m.numVars ≤ n
  prods : ∀ p ∈ products, p.2 ≠ [] ∧ p.2.length ≤ 5 ∧ p.2.length ≤ D ∧
    ∃ k, ∀ i ∈ p.2, ∃ m, mles[i]? = some m ∧ m.numVars = k

/-- The polynomial a prover state stands for. -/
def polyVal (products : List (F × List ℕ)) (mles : List (Mle F)) (pt : List F) : F :=
  (products.map fun p => p.1 * (p.2.map fun i =>
    mle (mles.getD i ⟨0, []⟩).evals (pt.take (mles.getD i ⟨0, []⟩).numVars)).prod).sum

/-- The honest round message. -/
def roundMsg (D n : ℕ) (g : List F → F) : List F :=
  (List.range (D + 1)).map fun x : ℕ => cubeSum n fun b => g ((x : F) :: b)

variable [DecidableEq F]

theorem aux_get (t D : ℕ) (ht : 0 < t) : ∃ aux : List (List F × List F), extrapolationAux t D = some aux ∧
    ∀ k, k < D - 1 → ∃ w, aux[k]? = some ((List.range (k + 2)).map (fun i : ℕ => (i : F)), w) ∧
      barycentricWeights (.parallel t) ((List.range (k + 2)).map (fun i : ℕ => (i : F))) = some w := by
  unfold extrapolationAux
  have hw : ∀ pts : List F, ∃ w, barycentricWeights (.parallel t) pts = some w := fun pts =>
    ⟨_, barycentricWeights_eq (.parallel t) ht pts⟩
  choose W hW using hw
  refine ⟨_, mapM_some _ (fun k => ((List.range (k + 2)).map (fun i : ℕ => (i : F)),
    W ((List.range (k + 2)).map (fun i : ℕ => (i : F))))) _ ?_, ?_⟩
  · intro k _
    simp only [hW]; rfl
  · intro k hk
    refine ⟨W ((List.range (k + 2)).map (fun i : ℕ => (i : F))), ?_, hW _⟩
    simp [hk]

theorem cast_ne_of_char (D : ℕ) (hchar : ∀ k, 0 < k → k ≤ D → (k : F) ≠ 0) (a b : ℕ) (hab : a < b)
    (hb : b ≤ D) : (a : F) ≠ (b : F) := by
  intro h
  apply hchar (b - a) (by omega) (by omega)
  rw [Nat.cast_sub hab.le, h]; simp

theorem extrapolate_range (ex : Exec) (hex : Exec.ok ex) (t D : ℕ) (ht : 0 < t)
    (hchar : ∀ k, 0 < k → k ≤ D → (k : F) ≠ 0) (d : ℕ) (w : List F)
    (hw : barycentricWeights (.parallel t) ((List.range (d + 1)).map (fun i : ℕ => (i : F))) = some w)
    (P : F[X]) (hP : P.natDegree ≤ d) (y : ℕ) (hy : d < y) (hyD : y ≤ D) :
    extrapolate ex ((List.range (d + 1)).map (fun i : ℕ => (i : F))) w
      ((List.range (d + 1)).map fun i : ℕ => P.eval (i : F)) (y : F) = some (P.eval (y : F)) := by
  have key := extrapolate_eq ex hex ((List.range (d + 1)).map (fun i : ℕ => (i : F))) ?_ P ?_ (by simp)
    (y : F) ?_
  · rw [barycentricWeights_eq ex hex, ← barycentricWeights_eq (.parallel t) ht, hw, Option.bind_some,
      List.map_map] at key
    exact key
  · rw [List.nodup_map_iff_inj_on List.nodup_range]
    intro a ha b hb hab
    simp only [List.mem_range] at ha hb
    by_contra hne
    rcases Nat.lt_or_ge a b with h | h
    · exact cast_ne_of_char D hchar a b h (by omega) hab
    · exact cast_ne_of_char D hchar b a (by omega) (by omega) hab.symm
  · rw [List.length_map, List.length_range]
    exact lt_of_le_of_lt degree_le_natDegree (by exact_mod_cast Nat.lt_succ_of_le hP)
  · intro hmem
    obtain ⟨a, ha, hae⟩ := List.mem_map.mp hmem
    simp only [List.mem_range] at ha
    exact cast_ne_of_char D hchar a y (by omega) hyD hae

theorem mapM_getElem? {α : Type} (l : List α) (is : List ℕ) (d : α)
    (h : ∀ i ∈ is, ∃ m, l[i]? = some m) :
    is.mapM (fun i => l[i]?) = some (is.map fun i => l.getD i d) := by
  apply mapM_some
  intro i hi
  obtain ⟨m, hm⟩ := h i hi
  rw [List.getD_eq_getElem?_getD, hm]; rfl

theorem range_append_map {α : Type} (a b : ℕ) (f : ℕ → α) :
    (List.range a).map f ++ (List.range b).map (fun i => f (a + i)) = (List.range (a + b)).map f := by
  rw [List.range_add, List.map_append, List.map_map]; rfl

theorem productMessage_eq (ex : Exec) (hex : Exec.ok ex) (t : ℕ) (ht : 0 < t) (st : ProverState F) (n : ℕ)
    (hr : 1 ≤ st.round) (hn : st.maxNumVars = n + st.round)
    (hwf : ProverWF st.maxDegree (n + 1) st.products st.mles)
    (hchar : ∀ k, 0 < k → k ≤ st.maxDegree → (k : F) ≠ 0)
    (haux : ∀ k, k < st.maxDegree - 1 → ∃ w,
      st.aux[k]? = some ((List.range (k + 2)).map (fun i : ℕ => (i : F)), w) ∧
      barycentricWeights (.parallel t) ((List.range (k + 2)).map (fun i : ℕ => (i : F))) = some w)
    (p : F × List ℕ) (hp : p ∈ st.products) :
    productMessage ex st p = some (roundMsg st.maxDegree n fun pt => p.1 * (p.2.map fun i =>
      mle (st.mles.getD i ⟨0, []⟩).evals (pt.take (st.mles.getD i ⟨0, []⟩).numVars)).prod) := by
  obtain ⟨hne, h5, hD, k, hk⟩ := hwf.prods p hp
  have hlen : 0 < p.2.length := List.length_pos_iff.mpr hne
  unfold productMessage
  rw [mapM_getElem? st.mles p.2 ⟨0, []⟩ (fun i hi => by obtain ⟨m, hm, _⟩ := hk i hi; exact ⟨m, hm⟩)]
  simp only [Option.bind_eq_bind, Option.bind_some]
  rw [if_pos ⟨by simp only [List.mem_cons, List.not_mem_nil, or_false]; omega, hD⟩]
  have hmem : ∀ i ∈ p.2, st.mles.getD i ⟨0, []⟩ ∈ st.mles ∧ (st.mles.getD i ⟨0, []⟩).numVars = k := by
    intro i hi
    obtain ⟨m, hm, hmk⟩ := hk i hi
    rw [List.getD_eq_getElem?_getD, hm]
    exact ⟨List.mem_of_getElem? hm, hmk⟩
  obtain ⟨i0, hi0⟩ := List.exists_mem_of_ne_nil _ hne
  have hkn : k ≤ n + 1 := by
    have := hmem i0 hi0
    rw [← this.2]; exact (hwf.tables _ this.1).2
  set vs : List (List F) := (p.2.map fun i => st.mles.getD i ⟨0, []⟩).map (fun m => m.evals) with hvs
  have hvlen : vs.length = p.2.length := by simp [hvs]
  have hvs' : ∀ v ∈ vs, v.length = 2 ^ k := by
    intro v hv
    rw [hvs, List.map_map] at hv
    obtain ⟨i, hi, rfl⟩ := List.mem_map.mp hv
    have := hmem i hi
    simp only [Function.comp]
    rw [(hwf.tables _ this.1).1, this.2]
  have hprod : ∀ pt : List F, (p.2.map fun i =>
      mle (st.mles.getD i ⟨0, []⟩).evals (pt.take (st.mles.getD i ⟨0, []⟩).numVars)).prod
      = (vs.map fun v => mle v (pt.take k)).prod := by
    intro pt
    rw [hvs, List.map_map, List.map_map]
    apply prod_map_congr
    intro i hi
    simp only [Function.comp]
    rw [(hmem i hi).2]
  simp only [hprod]
  rw [hn, codegen_eq vs (by intro h; rw [h] at hvlen; simp at hvlen; omega) k n st.round hr hvs' hkn,
    Option.bind_some, hvlen, List.map_map]
  obtain ⟨P, hP, hPe⟩ := cubeSum_poly n p.2.length
    (fun x b => p.1 * (vs.map fun v => mle v ((x :: b).take k)).prod) (by
      intro b _
      obtain ⟨Q, hQ, hQe⟩ := prod_poly vs k hvs' b
      refine ⟨C p.1 * Q, (natDegree_C_mul_le _ _).trans (by rw [← hvlen]; exact hQ), ?_⟩
      intro x; rw [hQe]; simp)
  have hsum : (List.range (p.2.length + 1)).map ((fun s => s * p.1) ∘ fun x : ℕ => cubeSum n fun b =>
      (vs.map fun v => mle v (((x : F) :: b).take k)).prod)
      = (List.range (p.2.length + 1)).map fun x : ℕ => P.eval (x : F) := by
    apply List.map_congr_left
    intro x _
    simp only [Function.comp]
    rw [← hPe, cubeSum_smul, mul_comm]
  rw [hsum]
  rw [mapM_some _ (fun i : ℕ => P.eval ((p.2.length + 1 + i : ℕ) : F))]
  · simp only [Option.bind_some]
    congr 1
    rw [range_append_map (p.2.length + 1) _ (fun x : ℕ => P.eval (x : F)), roundMsg,
      show p.2.length + 1 + (st.maxDegree - p.2.length) = st.maxDegree + 1 by omega]
    apply List.map_congr_left
    intro x _
    rw [← hPe]
  · intro i hi
    simp only [List.mem_range] at hi
    obtain ⟨w, hw, hbw⟩ := haux (p.2.length - 1) (by omega)
    rw [hw]
    simp only [Option.bind_some]
    have e : p.2.length - 1 + 2 = p.2.length + 1 := by omega
    rw [e] at hbw ⊢
    exact extrapolate_range ex hex t st.maxDegree ht hchar p.2.length w hbw P hP _ (by omega) (by omega)

theorem zipWith_add_map (l : List ℕ) (f g : ℕ → F) :
    List.zipWith (· + ·) (l.map f) (l.map g) = l.map fun x => f x + g x := by
  rw [List.zipWith_map, List.zipWith_self]

theorem foldl_addVec {ι : Type} (D n : ℕ) (ps : List ι) (g : ι → List F → F) (acc : List F → F) :
    (ps.map fun p => roundMsg D n (g p)).foldl addVec (roundMsg D n acc)
      = roundMsg D n fun pt => acc pt + (ps.map fun p => g p pt).sum := by
  induction ps generalizing acc with
  | nil => simp
  | cons p ps ih =>
    rw [List.map_cons, List.foldl_cons]
    have : addVec (roundMsg D n acc) (roundMsg D n (g p)) = roundMsg D n (fun pt => acc pt + g p pt) := by
      unfold addVec roundMsg
      rw [zipWith_add_map]
      apply List.map_congr_left
      intro x _
      rw [cubeSum_add]
    rw [this, ih]
    congr 1
    funext pt
    simp [add_assoc]

theorem roundMsg_zero (D n : ℕ) : roundMsg D n (fun _ => (0 : F)) = List.replicate (D + 1) 0 := by
  unfold roundMsg
  simp only [cubeSum_zero']
  rw [List.map_const', List.length_range]

/-- The table of `m` after binding its first variable (if it has one). -/
def bindMle (r : F) (m : Mle F) : Mle F :=
  if m.numVars = 0 then m else ⟨m.numVars - 1, chunkFix r m.evals⟩

theorem fixFirst_eq (ex : Exec) (r : F) (m : Mle F) (hm : m.evals.length = 2 ^ m.numVars)
    (h : 0 < m.numVars) : fixFirst ex r m = some (bindMle r m) := by
  unfold fixFirst bindMle
  rw [if_pos h, if_neg (by omega)]
  cases ex with
  | serial => simp only; rw [fixVariables_eq m hm [r] (by simp; omega)]; rfl
  | parallel t => simp only; rw [fixVariablesParallel_eq m hm [r] (by simp; omega)]; rfl

theorem fixNext_eq (ex : Exec) (r : F) (m : Mle F) (hm : m.evals.length = 2 ^ m.numVars) :
    fixNext ex r m = some (bindMle r m) := by
  unfold fixNext bindMle
  by_cases h : 0 < m.numVars
  · rw [if_pos h, if_neg (by omega)]
    cases ex with
    | serial => simp only; rw [fixVariablesInPlace_eq m hm [r] (by simp; omega)]; rfl
    | parallel t => simp only; rw [fixVariablesInPlaceParallel_eq m hm [r] (by simp; omega)]; rfl
  · rw [if_neg h, if_pos (by omega)]

omit [DecidableEq F] in
theorem bindMle_table (r : F) (m : Mle F) (hm : m.evals.length = 2 ^ m.numVars) :
    (bindMle r m).evals.length = 2 ^ (bindMle r m).numVars := by
  unfold bindMle
  split
  · exact hm
  · obtain ⟨k, hk⟩ : ∃ k, m.numVars = k + 1 := ⟨m.numVars - 1, by omega⟩
    simp only [hk, Nat.add_sub_cancel]
    exact chunkFix_pow_length r _ k (by rw [hm, hk])

omit [DecidableEq F] in
theorem bindMle_mle (r : F) (m : Mle F) (hm : m.evals.length = 2 ^ m.numVars) (pt : List F) :
    mle (bindMle r m).evals (pt.take (bindMle r m).numVars) = mle m.evals ((r :: pt).take m.numVars) := by
  unfold bindMle
  split
  · rename_i h; rw [h]; simp
  · obtain ⟨k, hk⟩ : ∃ k, m.numVars = k + 1 := ⟨m.numVars - 1, by omega⟩
    simp only [hk, Nat.add_sub_cancel, List.take_succ_cons]
    rw [mle_cons _ (by rw [hm, hk, pow_succ]; omega)]

omit [DecidableEq F] in
theorem getD_map_bind (mles : List (Mle F)) (r : F) (i : ℕ) :
    (mles.map (bindMle r)).getD i ⟨0, []⟩ = bindMle r (mles.getD i ⟨0, []⟩) := by
  rw [List.getD_eq_getElem?_getD, List.getD_eq_getElem?_getD, List.getElem?_map]
  cases mles[i]? with
  | none => simp [bindMle]
  | some m => simp

omit [DecidableEq F] in
theorem ProverWF.bind {D n : ℕ} {products : List (F × List ℕ)} {mles : List (Mle F)}
    (h : ProverWF D (n + 1) products mles) (r : F) : ProverWF D n products (mles.map (bindMle r)) := by
  refine ⟨?_, ?_⟩
  · intro m hm
    obtain ⟨m', hm', rfl⟩ := List.mem_map.mp hm
    refine ⟨bindMle_table r m' (h.tables m' hm').1, ?_⟩
    have := (h.tables m' hm').2
    unfold bindMle
    split
    · omega
    · simp only; omega
  · intro p hp
    obtain ⟨h1, h2, h3, k, hk⟩ := h.prods p hp
    refine ⟨h1, h2, h3, k - 1, ?_⟩
    intro i hi
    obtain ⟨m, hm, hmk⟩ := hk i hi
    refine ⟨bindMle r m, by rw [List.getElem?_map, hm]; rfl, ?_⟩
    unfold bindMle
    split
    · omega
    · simp only; omega

omit [DecidableEq F] in
theorem polyVal_bind {D n : ℕ} {products : List (F × List ℕ)} {mles : List (Mle F)}
    (h : ProverWF D n products mles) (r : F) (pt : List F) :
    polyVal products (mles.map (bindMle r)) pt = polyVal products mles (r :: pt) := by
  unfold polyVal
  congr 1
  apply List.map_congr_left
  intro p hp
  congr 1
  apply prod_map_congr
  intro i hi
  obtain ⟨_, _, _, k, hk⟩ := h.prods p hp
  obtain ⟨m, hm, _⟩ := hk i hi
  rw [getD_map_bind]
  apply bindMle_mle
  have : mles.getD i ⟨0, []⟩ = m := by rw [List.getD_eq_getElem?_getD, hm]; rfl
  rw [this]
  exact (h.tables m (List.mem_of_getElem? hm)).1

omit [DecidableEq F] in
/-- In each variable the polynomial of a well-formed instance has degree at most `D`. -/
theorem polyVal_degree {D n : ℕ} {products : List (F × List ℕ)} {mles : List (Mle F)}
    (h : ProverWF D n products mles) (b : List F) :
    ∃ P : F[X], P.natDegree ≤ D ∧ ∀ x, polyVal products mles (x :: b) = P.eval x := by
  unfold polyVal
  have hall : ∀ p ∈ products, ∃ P : F[X], P.natDegree ≤ D ∧ ∀ x, p.1 * (p.2.map fun i =>
      mle (mles.getD i ⟨0, []⟩).evals ((x :: b).take (mles.getD i ⟨0, []⟩).numVars)).prod = P.eval x := by
    intro p hp
    obtain ⟨_, _, h3, k, hk⟩ := h.prods p hp
    obtain ⟨Q, hQ, hQe⟩ := prod_poly (p.2.map fun i => (mles.getD i ⟨0, []⟩).evals) k (by
      intro v hv
      obtain ⟨i, hi, rfl⟩ := List.mem_map.mp hv
      obtain ⟨m, hm, hmk⟩ := hk i hi
      have : mles.getD i ⟨0, []⟩ = m := by rw [List.getD_eq_getElem?_getD, hm]; rfl
      rw [this, (h.tables m (List.mem_of_getElem? hm)).1, hmk]) b
    refine ⟨C p.1 * Q, (natDegree_C_mul_le _ _).trans (hQ.trans (by simpa using h3)), ?_⟩
    intro x
    rw [eval_mul, eval_C, ← hQe, List.map_map]
    congr 1
    apply prod_map_congr
    intro i hi
    obtain ⟨m, hm, hmk⟩ := hk i hi
    have : mles.getD i ⟨0, []⟩ = m := by rw [List.getD_eq_getElem?_getD, hm]; rfl
    simp only [Function.comp, this, hmk]
  clear h
  induction products with
  | nil => exact ⟨0, by simp, by simp⟩
  | cons p ps ih =>
    obtain ⟨P, hP, hPe⟩ := hall p (by simp)
    obtain ⟨Q, hQ, hQe⟩ := ih (fun q hq => hall q (by simp [hq]))
    refine ⟨P + Q, (natDegree_add_le _ _).trans (by simp [hP, hQ]), ?_⟩
    intro x
    rw [List.map_cons, List.sum_cons, hPe, hQe, eval_add]

end Lemmas
