import Verif.Spec.Mle
import Verif.Model.Mle
import Mathlib.Tactic.Ring
import Mathlib.Tactic.Linarith
import Mathlib.Algebra.BigOperators.Ring.Finset
import Mathlib.Algebra.BigOperators.Intervals

namespace Lemmas
open Spec Model Finset

variable {F : Type} [Field F]

theorem chi_nil (b : ℕ) : chi ([] : List F) b = 1 := by simp [chi]

theorem chi_cons (x : F) (xs : List F) (b : ℕ) :
    chi (x :: xs) b = (if b % 2 = 1 then x else 1 - x) * chi xs (b / 2) := by
  unfold chi
  rw [show (∏ j : Fin (x :: xs).length, if b.testBit j then (x :: xs)[j] else 1 - (x :: xs)[j])
    = ∏ j : Fin (xs.length + 1), if b.testBit j then (x :: xs)[j] else 1 - (x :: xs)[j] from rfl]
  rw [Fin.prod_univ_succ]
  congr 1
  · simp [Nat.testBit_zero]
  · apply Finset.prod_congr rfl
    intro j _
    simp [Nat.testBit_succ]

theorem sum_range_two_mul (f : ℕ → F) (m : ℕ) :
    ∑ b ∈ range (2 * m), f b = ∑ j ∈ range m, (f (2 * j) + f (2 * j + 1)) := by
  induction m with
  | zero => simp
  | succ m ih =>
    rw [Nat.mul_succ, Finset.sum_range_succ, Finset.sum_range_succ, ih, Finset.sum_range_succ]
    ring

theorem chunkFix_length (p : F) (t : List F) : (chunkFix p t).length = t.length / 2 := by
  induction t using chunkFix.induct with
  | case1 a b t ih => simp [chunkFix, ih]; omega
  | case2 t h =>
    match t, h with
    | [], _ => simp [chunkFix]
    | [a], _ => simp [chunkFix]
    | a :: b :: t, h => exact absurd rfl (h a b t)

theorem chunkFix_getD (p : F) (t : List F) (ht : t.length % 2 = 0) (j : ℕ) :
    (chunkFix p t).getD j 0 = p * (t.getD (2 * j + 1) 0 - t.getD (2 * j) 0) + t.getD (2 * j) 0 := by
  induction t using chunkFix.induct generalizing j with
  | case1 a b t ih =>
    cases j with
    | zero => simp [chunkFix]
    | succ j =>
      have := ih (by simp at ht; omega) j
      simp only [chunkFix, List.getD_cons_succ, this]
      simp [Nat.mul_succ]
  | case2 t h =>
    match t, h with
    | [], _ => simp [chunkFix]
    | [a], _ => simp at ht
    | a :: b :: t, h => exact absurd rfl (h a b t)

theorem mle_nil (t : List F) : mle t [] = t.getD 0 0 := by simp [mle, chi_nil]

/-- Key step: fixing the lowest variable. -/
theorem mle_cons (t : List F) (ht : t.length % 2 = 0) (x : F) (xs : List F) :
    mle t (x :: xs) = mle (chunkFix x t) xs := by
  unfold mle
  rw [List.length_cons, pow_succ, mul_comm, sum_range_two_mul]
  apply Finset.sum_congr rfl
  intro j _
  rw [chunkFix_getD x t ht, chi_cons, chi_cons]
  have h1 : (2 * j) % 2 = 0 := by omega
  have h2 : (2 * j + 1) % 2 = 1 := by omega
  have h3 : (2 * j) / 2 = j := by omega
  have h4 : (2 * j + 1) / 2 = j := by omega
  rw [h1, h2, h3, h4]
  simp
  ring

/-- Pure form of fixing low variables. -/
def fixLow (t : List F) (pp : List F) : List F := pp.foldl (fun e p => chunkFix p e) t

theorem fixLow_length (t : List F) (pp : List F) (n : ℕ) (ht : t.length = 2 ^ n) (h : pp.length ≤ n) :
    (fixLow t pp).length = 2 ^ (n - pp.length) := by
  induction pp generalizing t n with
  | nil => simpa [fixLow] using ht
  | cons p ps ih =>
    obtain ⟨m, rfl⟩ : ∃ m, n = m + 1 := ⟨n - 1, by simp at h; omega⟩
    have := ih (chunkFix p t) m (by rw [chunkFix_length, ht, pow_succ]; omega) (by simpa using h)
    simp only [fixLow, List.foldl_cons, List.length_cons] at this ⊢
    rw [this]; congr 1; omega

theorem mle_append (t : List F) (pp qq : List F) (n : ℕ) (ht : t.length = 2 ^ n)
    (h : pp.length ≤ n) : mle t (pp ++ qq) = mle (fixLow t pp) qq := by
  induction pp generalizing t n with
  | nil => simp [fixLow]
  | cons p ps ih =>
    obtain ⟨m, rfl⟩ : ∃ m, n = m + 1 := ⟨n - 1, by simp at h; omega⟩
    rw [List.cons_append, mle_cons t (by rw [ht, pow_succ]; omega)]
    rw [ih (chunkFix p t) m (by rw [chunkFix_length, ht, pow_succ]; omega) (by simpa using h)]
    rfl

/-! ### In-place loops -/

theorem foldl_range_succ {α : Type} (f : α → ℕ → α) (a : α) (n : ℕ) :
    (List.range (n + 1)).foldl f a = f ((List.range n).foldl f a) n := by
  rw [List.range_succ, List.foldl_append]; rfl

theorem fixInPlace_length (p : F) (e : List F) (k : ℕ) :
    ((List.range k).foldl (fixInPlaceStep p) e).length = e.length := by
  induction k with
  | zero => simp
  | succ k ih => rw [foldl_range_succ]; simp [fixInPlaceStep, ih]

theorem getD_set {α : Type} (l : List α) (i j : ℕ) (a d : α) (h : i < l.length) :
    (l.set i a).getD j d = if j = i then a else l.getD j d := by
  simp only [List.getD_eq_getElem?_getD, List.getElem?_set]
  by_cases hij : i = j
  · subst hij; simp [h]
  · rw [if_neg hij, if_neg (Ne.symm hij)]

theorem fixInPlace_getD (p : F) (e : List F) (k : ℕ) (hk : k ≤ e.length) (j : ℕ) :
    ((List.range k).foldl (fixInPlaceStep p) e).getD j 0 =
      if j < k then e.getD (2 * j) 0 + (e.getD (2 * j + 1) 0 - e.getD (2 * j) 0) * p
      else e.getD j 0 := by
  induction k generalizing j with
  | zero => simp
  | succ k ih =>
    rw [foldl_range_succ]
    have hl := fixInPlace_length p e k
    unfold fixInPlaceStep at hl ⊢
    rw [getD_set _ _ _ _ _ (by rw [hl]; omega)]
    have e1 := ih (by omega) (2 * k)
    have e2 := ih (by omega) (2 * k + 1)
    have e3 := ih (by omega) j
    unfold fixInPlaceStep at e1 e2 e3
    rw [e1, e2, e3]
    by_cases h : j = k
    · subst h
      rcases Nat.eq_zero_or_pos j with h0 | h0
      · subst h0; simp
      · rw [if_neg (show ¬ (2 * j < j) by omega), if_neg (show ¬ (2 * j + 1 < j) by omega)]
        simp
    · rw [if_neg h]
      by_cases h' : j < k
      · rw [if_pos h', if_pos (show j < k + 1 by omega)]
      · rw [if_neg h', if_neg (show ¬ j < k + 1 by omega)]

theorem list_ext_getD {α : Type} (d : α) (l l' : List α) (hl : l.length = l'.length)
    (h : ∀ j < l.length, l.getD j d = l'.getD j d) : l = l' := by
  apply List.ext_getElem hl
  intro i h1 h2
  have := h i h1
  simpa [List.getD_eq_getElem?_getD, h1, h2] using this

theorem getD_take {α : Type} (l : List α) (n j : ℕ) (d : α) (h : j < n) :
    (l.take n).getD j d = l.getD j d := by
  simp [List.getD_eq_getElem?_getD, h]

theorem chunkFix_getD' (p : F) (t : List F) (j : ℕ) (hj : 2 * j + 1 < t.length) :
    (chunkFix p t).getD j 0 = p * (t.getD (2 * j + 1) 0 - t.getD (2 * j) 0) + t.getD (2 * j) 0 := by
  induction t using chunkFix.induct generalizing j with
  | case1 a b t ih =>
    cases j with
    | zero => simp [chunkFix]
    | succ j =>
      have := ih j (by simp at hj; omega)
      simp only [chunkFix, List.getD_cons_succ, this]
      simp [Nat.mul_succ]
  | case2 t h =>
    match t, h with
    | [], _ => simp at hj
    | [a], _ => simp at hj
    | a :: b :: t, h => exact absurd rfl (h a b t)

/-- The in-place loop on a vector with a stale tail: the live prefix behaves like `chunkFix`. -/
theorem fixInPlacePoint_take (p : F) (e : List F) (m : ℕ) (h : 2 * m ≤ e.length) :
    (fixInPlacePoint p e).take m = chunkFix p (e.take (2 * m)) := by
  apply list_ext_getD 0
  · simp [fixInPlacePoint, fixInPlace_length, chunkFix_length]; omega
  intro j hj
  have hj' : j < m := by simp at hj; omega
  rw [getD_take _ _ _ _ hj', fixInPlacePoint, fixInPlace_getD p e _ (by omega),
    if_pos (by omega), chunkFix_getD' _ _ _ (by simp; omega),
    getD_take _ _ _ _ (by omega), getD_take _ _ _ _ (by omega)]
  ring

theorem fixInPlacePoint_length (p : F) (e : List F) : (fixInPlacePoint p e).length = e.length :=
  fixInPlace_length p e _

theorem fixInPlace_foldl (pp : List F) (e : List F) (n : ℕ) (hn : 2 ^ n ≤ e.length)
    (h : pp.length ≤ n) :
    (pp.foldl (fun e p => fixInPlacePoint p e) e).take (2 ^ (n - pp.length)) =
      fixLow (e.take (2 ^ n)) pp := by
  induction pp generalizing e n with
  | nil => simp [fixLow]
  | cons p ps ih =>
    obtain ⟨m, rfl⟩ : ∃ m, n = m + 1 := ⟨n - 1, by simp at h; omega⟩
    have hp : 2 ^ (m + 1) = 2 * 2 ^ m := by rw [pow_succ]; ring
    simp only [List.foldl_cons, fixLow, List.length_cons]
    have := ih (fixInPlacePoint p e) m (by rw [fixInPlacePoint_length]; omega) (by simpa using h)
    rw [show m + 1 - (ps.length + 1) = m - ps.length by omega, this,
      fixInPlacePoint_take p e (2 ^ m) (by omega), hp]
    rfl

theorem fixVariablesInPlace_eq (m : Mle F) (hm : m.evals.length = 2 ^ m.numVars) (pp : List F)
    (h : pp.length ≤ m.numVars) :
    m.fixVariablesInPlace pp = some ⟨m.numVars - pp.length, fixLow m.evals pp⟩ := by
  unfold Mle.fixVariablesInPlace
  rw [if_pos h]
  simp only [fixInPlace_foldl pp m.evals m.numVars hm.ge h]
  rw [List.take_of_length_le hm.le]

theorem chunkFix_pow_length (p : F) (t : List F) (n : ℕ) (h : t.length = 2 ^ (n + 1)) :
    (chunkFix p t).length = 2 ^ n := by
  rw [chunkFix_length, h, pow_succ]; omega

theorem fixLow_cons (t : List F) (p : F) (ps : List F) :
    fixLow t (p :: ps) = fixLow (chunkFix p t) ps := rfl

theorem foldlM_fixInPlace (ps : List F) (m : Mle F) (hm : m.evals.length = 2 ^ m.numVars)
    (h : ps.length ≤ m.numVars) :
    ps.foldlM (fun q p => Mle.fixVariablesInPlace q [p]) m
      = some ⟨m.numVars - ps.length, fixLow m.evals ps⟩ := by
  induction ps generalizing m with
  | nil => simp [fixLow]
  | cons p ps ih =>
    simp only [List.length_cons] at h
    obtain ⟨k, hk⟩ : ∃ k, m.numVars = k + 1 := ⟨m.numVars - 1, by omega⟩
    rw [List.foldlM_cons, fixVariablesInPlace_eq m hm [p] (by simp; omega)]
    simp only [Option.bind_eq_bind, Option.bind_some]
    rw [ih]
    · simp only [List.length_cons, List.length_nil, fixLow_cons]
      congr 2
      omega
    · simp only [List.length_cons, List.length_nil, hk]
      exact chunkFix_pow_length p m.evals k (by rw [hm, hk])
    · simp; omega

theorem fixVariables_eq (m : Mle F) (hm : m.evals.length = 2 ^ m.numVars) (pp : List F)
    (h : pp.length ≤ m.numVars) :
    m.fixVariables pp = some ⟨m.numVars - pp.length, fixLow m.evals pp⟩ := by
  unfold Mle.fixVariables
  rw [if_pos h]
  cases pp with
  | nil => simp [fixLow]
  | cons p ps =>
    simp only [List.length_cons] at h
    obtain ⟨k, hk⟩ : ∃ k, m.numVars = k + 1 := ⟨m.numVars - 1, by omega⟩
    have hl : (chunkFix p m.evals).length = 2 ^ k := chunkFix_pow_length p _ k (by rw [hm, hk])
    simp only [Mle.ofEvals, hk, Nat.add_sub_cancel, hl, if_true, Option.bind_eq_bind,
      Option.bind_some]
    rw [foldlM_fixInPlace ps ⟨k, chunkFix p m.evals⟩ hl (by simp; omega)]
    simp only [fixLow_cons, List.length_cons]
    congr 2
    omega

/-! ### Parallel in-place -/

theorem fixParChunks_length (p : F) (e : List F) : (fixParChunks p e).length = e.length := by
  induction e using fixParChunks.induct with
  | case1 a b t ih => simp [fixParChunks, ih]
  | case2 t h =>
    match t, h with
    | [], _ => simp [fixParChunks]
    | [a], _ => simp [fixParChunks]
    | a :: b :: t, h => exact absurd rfl (h a b t)

theorem fixParChunks_getD (p : F) (e : List F) (j : ℕ) (hj : 2 * j + 1 < e.length) :
    (fixParChunks p e).getD (2 * j) 0
      = e.getD (2 * j) 0 + (e.getD (2 * j + 1) 0 - e.getD (2 * j) 0) * p := by
  induction e using fixParChunks.induct generalizing j with
  | case1 a b t ih =>
    cases j with
    | zero => simp [fixParChunks]
    | succ j =>
      have := ih j (by simp at hj; omega)
      simp only [fixParChunks, Nat.mul_succ]
      simpa using this
  | case2 t h =>
    match t, h with
    | [], _ => simp at hj
    | [a], _ => simp at hj
    | a :: b :: t, h => exact absurd rfl (h a b t)

theorem compact_length (e : List F) (k : ℕ) :
    ((List.range k).foldl compactStep e).length = e.length := by
  induction k with
  | zero => simp
  | succ k ih => rw [foldl_range_succ]; simp [compactStep, ih]

theorem compact_getD (e : List F) (k : ℕ) (hk : k ≤ e.length) (j : ℕ) :
    ((List.range k).foldl compactStep e).getD j 0 =
      if j < k then e.getD (2 * j) 0 else e.getD j 0 := by
  induction k generalizing j with
  | zero => simp
  | succ k ih =>
    rw [foldl_range_succ]
    have hl := compact_length e k
    unfold compactStep at hl ⊢
    rw [getD_set _ _ _ _ _ (by rw [hl]; omega)]
    have e1 := ih (by omega) (2 * k)
    have e3 := ih (by omega) j
    unfold compactStep at e1 e3
    rw [e1, e3]
    by_cases h : j = k
    · subst h
      rcases Nat.eq_zero_or_pos j with h0 | h0
      · subst h0; simp
      · rw [if_neg (show ¬ (2 * j < j) by omega)]
        simp
    · rw [if_neg h]
      by_cases h' : j < k
      · rw [if_pos h', if_pos (show j < k + 1 by omega)]
      · rw [if_neg h', if_neg (show ¬ j < k + 1 by omega)]

theorem fixParPoint_length (n : ℕ) (p : F) (e : List F) :
    (fixParPoint n p e).length = e.length := by
  rw [fixParPoint, compact_length, fixParChunks_length]

theorem fixParPoint_take (p : F) (e : List F) (k : ℕ) (h : 2 ^ (k + 1) ≤ e.length) :
    (fixParPoint (k + 1) p e).take (2 ^ k) = chunkFix p (e.take (2 ^ (k + 1))) := by
  have hp : 2 ^ (k + 1) = 2 * 2 ^ k := by rw [pow_succ]; ring
  apply list_ext_getD 0
  · simp [fixParPoint_length, chunkFix_length, hp]; omega
  intro j hj
  have hj' : j < 2 ^ k := by simp at hj; omega
  rw [getD_take _ _ _ _ hj', fixParPoint, Nat.add_sub_cancel,
    compact_getD _ _ (by rw [fixParChunks_length]; omega), if_pos hj',
    fixParChunks_getD _ _ _ (by omega), chunkFix_getD' _ _ _ (by simp; omega),
    getD_take _ _ _ _ (by omega), getD_take _ _ _ _ (by omega)]
  ring

theorem fixPar_foldl (pp : List F) (e : List F) (n s : ℕ) (hn : 2 ^ (n - s) ≤ e.length)
    (h : pp.length + s ≤ n) :
    ((pp.zipIdx s).foldl (fun e pi => fixParPoint (n - pi.2) pi.1 e) e).take
        (2 ^ (n - s - pp.length)) =
      fixLow (e.take (2 ^ (n - s))) pp := by
  induction pp generalizing e s with
  | nil => simp [fixLow]
  | cons p ps ih =>
    simp only [List.length_cons] at h
    obtain ⟨m, hm⟩ : ∃ m, n - s = m + 1 := ⟨n - s - 1, by omega⟩
    simp only [List.zipIdx_cons, List.foldl_cons, List.length_cons]
    have hs : n - (s + 1) = m := by omega
    have hp : 2 ^ (m + 1) = 2 * 2 ^ m := by rw [pow_succ]; ring
    have := ih (fixParPoint (n - s) p e) (s + 1)
      (by rw [fixParPoint_length, hs]; rw [hm] at hn; omega) (by omega)
    rw [show n - s - (ps.length + 1) = n - (s + 1) - ps.length by omega, this, hs, hm,
      fixParPoint_take p e m (by rw [← hm]; exact hn)]
    rfl

theorem fixVariablesInPlaceParallel_eq (m : Mle F) (hm : m.evals.length = 2 ^ m.numVars)
    (pp : List F) (h : pp.length ≤ m.numVars) :
    m.fixVariablesInPlaceParallel pp = some ⟨m.numVars - pp.length, fixLow m.evals pp⟩ := by
  unfold Mle.fixVariablesInPlaceParallel
  rw [if_pos h]
  have := fixPar_foldl pp m.evals m.numVars 0 (by simpa using hm.ge) (by simpa using h)
  simp only [Nat.sub_zero] at this
  simp only [this]
  rw [List.take_of_length_le hm.le]

theorem foldlM_fixInPlacePar (ps : List F) (m : Mle F) (hm : m.evals.length = 2 ^ m.numVars)
    (h : ps.length ≤ m.numVars) :
    ps.foldlM (fun q p => Mle.fixVariablesInPlaceParallel q [p]) m
      = some ⟨m.numVars - ps.length, fixLow m.evals ps⟩ := by
  induction ps generalizing m with
  | nil => simp [fixLow]
  | cons p ps ih =>
    simp only [List.length_cons] at h
    obtain ⟨k, hk⟩ : ∃ k, m.numVars = k + 1 := ⟨m.numVars - 1, by omega⟩
    rw [List.foldlM_cons, fixVariablesInPlaceParallel_eq m hm [p] (by simp; omega)]
    simp only [Option.bind_eq_bind, Option.bind_some]
    rw [ih]
    · simp only [List.length_cons, List.length_nil, fixLow_cons]
      congr 2
      omega
    · simp only [List.length_cons, List.length_nil, hk]
      exact chunkFix_pow_length p m.evals k (by rw [hm, hk])
    · simp; omega

theorem fixVariablesParallel_eq (m : Mle F) (hm : m.evals.length = 2 ^ m.numVars) (pp : List F)
    (h : pp.length ≤ m.numVars) :
    m.fixVariablesParallel pp = some ⟨m.numVars - pp.length, fixLow m.evals pp⟩ := by
  unfold Mle.fixVariablesParallel
  rw [if_pos h]
  cases pp with
  | nil => simp [fixLow]
  | cons p ps =>
    simp only [List.length_cons] at h
    obtain ⟨k, hk⟩ : ∃ k, m.numVars = k + 1 := ⟨m.numVars - 1, by omega⟩
    have hl : (chunkFix p m.evals).length = 2 ^ k := chunkFix_pow_length p _ k (by rw [hm, hk])
    simp only [Mle.ofEvals, hk, Nat.add_sub_cancel, hl, if_true, Option.bind_eq_bind,
      Option.bind_some]
    rw [foldlM_fixInPlacePar ps ⟨k, chunkFix p m.evals⟩ hl (by simp; omega)]
    simp only [fixLow_cons, List.length_cons]
    congr 2
    omega

theorem evaluate_eq (m : Mle F) (hm : m.evals.length = 2 ^ m.numVars) (point : List F)
    (h : point.length = m.numVars) : m.evaluate point = some (mle m.evals point) := by
  unfold Mle.evaluate
  rw [if_pos h.symm, fixVariablesParallel_eq m hm point h.le]
  simp only [Option.bind_eq_bind, Option.bind_some]
  have hl := fixLow_length m.evals point m.numVars hm h.le
  rw [h] at hl
  have := mle_append m.evals point [] m.numVars hm h.le
  rw [List.append_nil, mle_nil] at this
  rw [this]
  simp only [Nat.sub_self, pow_zero] at hl
  obtain ⟨v, hv⟩ := List.length_eq_one_iff.mp hl
  rw [hv]
  rfl

/-! ### High variables -/

theorem chi_append (xs ys : List F) (b : ℕ) :
    chi (xs ++ ys) b = chi xs b * chi ys (b / 2 ^ xs.length) := by
  induction xs generalizing b with
  | nil => simp [chi_nil]
  | cons x xs ih =>
    rw [List.cons_append, chi_cons, chi_cons, ih, List.length_cons, Nat.div_div_eq_div_mul,
      pow_succ, mul_assoc, mul_comm 2]

theorem chi_add_mul (xs : List F) (b k : ℕ) : chi xs (b + 2 ^ xs.length * k) = chi xs b := by
  induction xs generalizing b with
  | nil => simp [chi_nil]
  | cons x xs ih =>
    rw [chi_cons, chi_cons, List.length_cons]
    have e : b + 2 ^ (xs.length + 1) * k = b + 2 * (2 ^ xs.length * k) := by rw [pow_succ]; ring
    have h1 : (b + 2 ^ (xs.length + 1) * k) % 2 = b % 2 := by rw [e]; omega
    have h2 : (b + 2 ^ (xs.length + 1) * k) / 2 = b / 2 + 2 ^ xs.length * k := by rw [e]; omega
    rw [h1, h2, ih]

theorem chi_singleton (p : F) (b : ℕ) : chi [p] b = if b % 2 = 1 then p else 1 - p := by
  rw [chi_cons, chi_nil, mul_one]

theorem getD_drop {α : Type} (l : List α) (n j : ℕ) (d : α) :
    (l.drop n).getD j d = l.getD (n + j) d := by
  simp [List.getD_eq_getElem?_getD]

theorem highFix_length (p : F) (half : ℕ) (e : List F) (h : 2 * half ≤ e.length) :
    (highFix p half e).length = half := by
  simp [highFix]; omega

theorem zipWith_getD (f : F → F → F) (l l' : List F) (j : ℕ) (h : j < l.length) (h' : j < l'.length) :
    (List.zipWith f l l').getD j 0 = f (l.getD j 0) (l'.getD j 0) := by
  simp [List.getD_eq_getElem?_getD, h, h']

theorem highFix_getD (p : F) (half : ℕ) (e : List F) (h : 2 * half ≤ e.length) (j : ℕ)
    (hj : j < half) :
    (highFix p half e).getD j 0
      = p * (e.getD (half + j) 0 - e.getD j 0) + e.getD j 0 := by
  rw [highFix, zipWith_getD _ _ _ _ (by simp; omega) (by simp; omega), getD_take _ _ _ _ hj,
    getD_drop]

theorem mle_snoc (t : List F) (qq : List F) (p : F) (ht : t.length = 2 ^ (qq.length + 1)) :
    mle t (qq ++ [p]) = mle (highFix p (2 ^ qq.length) t) qq := by
  unfold mle
  have hp : 2 ^ (qq.length + 1) = 2 ^ qq.length + 2 ^ qq.length := by rw [pow_succ]; ring
  rw [List.length_append, List.length_singleton, hp, Finset.sum_range_add,
    ← Finset.sum_add_distrib]
  apply Finset.sum_congr rfl
  intro j hj
  have hj' : j < 2 ^ qq.length := Finset.mem_range.mp hj
  rw [highFix_getD _ _ _ (by omega) _ hj', chi_append, chi_append]
  have e1 : 2 ^ qq.length + j = j + 2 ^ qq.length * 1 := by ring
  have e2 : chi qq (2 ^ qq.length + j) = chi qq j := by rw [e1, chi_add_mul]
  have e3 : (2 ^ qq.length + j) / 2 ^ qq.length = 1 := by
    rw [Nat.add_div_left _ (by positivity), Nat.div_eq_of_lt hj']
  rw [e2, e3, Nat.div_eq_of_lt hj', chi_singleton, chi_singleton]
  simp
  ring

/-- Pure form of fixing high variables (points consumed from the last). -/
def fixHigh (t : List F) (rev : List F) : List F :=
  rev.foldl (fun e p => highFix p (e.length / 2) e) t

theorem fixHigh_length (t : List F) (rev : List F) (n : ℕ) (ht : t.length = 2 ^ n)
    (h : rev.length ≤ n) : (fixHigh t rev).length = 2 ^ (n - rev.length) := by
  induction rev generalizing t n with
  | nil => simpa [fixHigh] using ht
  | cons p ps ih =>
    simp only [List.length_cons] at h
    obtain ⟨m, rfl⟩ : ∃ m, n = m + 1 := ⟨n - 1, by omega⟩
    have hp : 2 ^ (m + 1) = 2 * 2 ^ m := by rw [pow_succ]; ring
    have := ih (highFix p (t.length / 2) t) m
      (by rw [highFix_length _ _ _ (by omega), ht]; omega) (by omega)
    simp only [fixHigh, List.foldl_cons, List.length_cons] at this ⊢
    rw [this]; congr 1; omega

theorem mle_fixHigh (t : List F) (qq rev : List F) (ht : t.length = 2 ^ (qq.length + rev.length)) :
    mle t (qq ++ rev.reverse) = mle (fixHigh t rev) qq := by
  induction rev generalizing t with
  | nil => simp [fixHigh]
  | cons p ps ih =>
    simp only [List.length_cons] at ht
    have hp : 2 ^ (qq.length + (ps.length + 1)) = 2 * 2 ^ (qq.length + ps.length) := by
      rw [← add_assoc, pow_succ]; ring
    rw [List.reverse_cons, ← List.append_assoc, mle_snoc _ _ _ (by simpa [add_assoc] using ht)]
    have e : (2 ^ (qq ++ ps.reverse).length) = t.length / 2 := by
      simp only [List.length_append, List.length_reverse]; omega
    rw [e, ih _ (by rw [highFix_length _ _ _ (by omega)]; omega)]
    rfl

theorem highFixInPlace_length (p : F) (half : ℕ) (e : List F) (h : 2 * half ≤ e.length) :
    (highFixInPlace p half e).length = e.length := by
  simp [highFixInPlace]; omega

theorem highFixInPlace_take (p : F) (half : ℕ) (e : List F) (h : 2 * half ≤ e.length) :
    (highFixInPlace p half e).take half = highFix p half (e.take (2 * half)) := by
  apply list_ext_getD 0
  · rw [List.length_take, highFixInPlace_length _ _ _ h, highFix_length _ _ _ (by simp; omega)]; omega
  intro j hj
  have hj' : j < half := by simp at hj; omega
  rw [getD_take _ _ _ _ hj', highFix_getD _ _ _ (by simp; omega) _ hj',
    getD_take _ _ _ _ (by omega), getD_take _ _ _ _ (by omega), highFixInPlace]
  have : ∀ (l l' : List F), j < l.length → (l ++ l').getD j 0 = l.getD j 0 := by
    intro l l' h; simp [List.getD_eq_getElem?_getD, List.getElem?_append, h]
  rw [this _ _ (by simp; omega), zipWith_getD _ _ _ _ (by simp; omega) (by simp; omega),
    getD_take _ _ _ _ hj', getD_drop]
  ring

theorem highInPlace_foldl (rev : List F) (e : List F) (n : ℕ) (hn : 2 ^ n ≤ e.length)
    (h : rev.length ≤ n) :
    let s := rev.foldl (fun (s : List F × ℕ) p => (highFixInPlace p (s.2 / 2) s.1, s.2 / 2)) (e, 2 ^ n)
    s.1.take s.2 = fixHigh (e.take (2 ^ n)) rev := by
  induction rev generalizing e n with
  | nil => simp [fixHigh]
  | cons p ps ih =>
    simp only [List.length_cons] at h
    obtain ⟨m, rfl⟩ : ∃ m, n = m + 1 := ⟨n - 1, by omega⟩
    have hp : 2 ^ (m + 1) / 2 = 2 ^ m := by rw [pow_succ]; omega
    have hp' : 2 ^ (m + 1) = 2 * 2 ^ m := by rw [pow_succ]; ring
    simp only [List.foldl_cons, hp]
    have := ih (highFixInPlace p (2 ^ m) e) m
      (by rw [highFixInPlace_length _ _ _ (by omega)]; omega) (by omega)
    simp only at this
    rw [this, highFixInPlace_take _ _ _ (by omega), fixHigh, fixHigh, List.foldl_cons,
      List.length_take, min_eq_left hn, hp, hp']

theorem fixHighVariablesInPlace_eq (m : Mle F) (hm : m.evals.length = 2 ^ m.numVars) (pp : List F)
    (h : pp.length ≤ m.numVars) :
    m.fixHighVariablesInPlace pp = some ⟨m.numVars - pp.length, fixHigh m.evals pp.reverse⟩ := by
  unfold Mle.fixHighVariablesInPlace
  rw [if_pos h]
  have := highInPlace_foldl pp.reverse m.evals m.numVars hm.ge (by simpa using h)
  simp only at this
  simp only [hm, this]
  rw [List.take_of_length_le hm.le]

theorem foldlM_fixHighInPlace (ps : List F) (m : Mle F) (hm : m.evals.length = 2 ^ m.numVars)
    (h : ps.length ≤ m.numVars) :
    ps.foldlM (fun q p => Mle.fixHighVariablesInPlace q [p]) m
      = some ⟨m.numVars - ps.length, fixHigh m.evals ps⟩ := by
  induction ps generalizing m with
  | nil => simp [fixHigh]
  | cons p ps ih =>
    simp only [List.length_cons] at h
    obtain ⟨k, hk⟩ : ∃ k, m.numVars = k + 1 := ⟨m.numVars - 1, by omega⟩
    rw [List.foldlM_cons, fixHighVariablesInPlace_eq m hm [p] (by simp; omega)]
    simp only [Option.bind_eq_bind, Option.bind_some]
    rw [ih]
    · simp only [List.length_cons, List.length_nil]
      congr 2
      omega
    · simp only [List.length_cons, List.length_nil]
      exact fixHigh_length m.evals [p].reverse m.numVars hm (by simp; omega)
    · simp; omega

theorem fixHighVariables_eq (m : Mle F) (hm : m.evals.length = 2 ^ m.numVars) (pp : List F)
    (h : pp.length ≤ m.numVars) :
    m.fixHighVariables pp = some ⟨m.numVars - pp.length, fixHigh m.evals pp.reverse⟩ := by
  unfold Mle.fixHighVariables
  rw [if_pos h]
  have hr : pp.length = pp.reverse.length := by simp
  rw [hr] at h ⊢
  clear hr
  generalize pp.reverse = rev at h ⊢
  cases rev with
  | nil => simp [fixHigh]
  | cons p ps =>
    simp only [List.length_cons] at h
    obtain ⟨k, hk⟩ : ∃ k, m.numVars = k + 1 := ⟨m.numVars - 1, by omega⟩
    have hp : 2 ^ (k + 1) = 2 * 2 ^ k := by rw [pow_succ]; ring
    have hl : (highFix p (m.evals.length / 2) m.evals).length = 2 ^ k := by
      rw [highFix_length _ _ _ (by omega), hm, hk]; omega
    simp only [Mle.ofEvals, hk, Nat.add_sub_cancel, hl, if_true, Option.bind_eq_bind,
      Option.bind_some]
    rw [foldlM_fixHighInPlace ps ⟨k, highFix p (m.evals.length / 2) m.evals⟩ hl (by simp; omega)]
    simp only [List.length_cons]
    congr 2
    omega

/-- A table is determined by its multilinear extension at 0/1 points. -/
theorem chi_bitsPoint (n b c : ℕ) (hb : b < 2 ^ n) (hc : c < 2 ^ n) :
    chi (bitsPoint n b : List F) c = if c = b then 1 else 0 := by
  induction n generalizing b c with
  | zero =>
    have : b = 0 := by simpa using hb
    have : c = 0 := by simpa using hc
    subst_vars; simp [bitsPoint, chi_nil]
  | succ n ih =>
    have hp : 2 ^ (n + 1) = 2 * 2 ^ n := by rw [pow_succ]; ring
    have hcons : (bitsPoint (n + 1) b : List F)
        = (if b.testBit 0 then 1 else 0) :: bitsPoint n (b / 2) := by
      simp only [bitsPoint, List.range_succ_eq_map, List.map_cons, List.map_map]
      congr 1
      apply List.map_congr_left
      intro j _
      simp [Nat.testBit_succ]
    rw [hcons, chi_cons, ih (b / 2) (c / 2) (by omega) (by omega), Nat.testBit_zero]
    have h2 : b % 2 = 0 ∨ b % 2 = 1 := by omega
    have h2' : c % 2 = 0 ∨ c % 2 = 1 := by omega
    by_cases hcb : c = b
    · subst hcb
      rcases h2 with h2 | h2 <;> simp [h2]
    · by_cases hd : c / 2 = b / 2
      · have hne : c % 2 ≠ b % 2 := by omega
        rcases h2 with h2 | h2 <;> rcases h2' with h2' | h2' <;> simp [h2, h2', hcb, hd] <;> omega
      · simp [hcb, hd]

theorem bitsPoint_length (n b : ℕ) : (bitsPoint n b : List F).length = n := by simp [bitsPoint]

theorem mle_bitsPoint (t : List F) (n b : ℕ) (hb : b < 2 ^ n) :
    mle t (bitsPoint n b) = t.getD b 0 := by
  unfold mle
  rw [bitsPoint_length, Finset.sum_eq_single b]
  · rw [chi_bitsPoint n b b hb hb]; simp
  · intro c hc hne
    rw [chi_bitsPoint n b c hb (Finset.mem_range.mp hc), if_neg hne, mul_zero]
  · intro h; exact absurd (Finset.mem_range.mpr hb) h

theorem ceilLog2_pow (k : ℕ) : ceilLog2 (2 ^ k) = some k := by
  unfold ceilLog2
  have hpos : 0 < 2 ^ k := by positivity
  rw [if_neg (by omega)]
  cases k with
  | zero => simp
  | succ k =>
    have h2 : 2 ^ (k + 1) = 2 * 2 ^ k := by rw [pow_succ]; ring
    have h1 : 1 ≤ 2 ^ k := Nat.one_le_two_pow
    rw [if_neg (by omega)]
    congr 2
    rw [Nat.log2_eq_iff (by omega)]
    constructor <;> omega

end Lemmas
