import Verif.Model.Tables
import Verif.Lemmas.Quant
import Verif.Lemmas.Layers
import Verif.Lemmas.Eq

/-! Lemmas on the lookup tables. -/

namespace Lemmas
open Model Spec Finset

variable {F : Type} [Field F]

theorem irange_length (lo hi : ℤ) : (irange lo hi).length = (hi - lo).toNat := by simp [irange]

theorem mem_irange (lo hi x : ℤ) : x ∈ irange lo hi ↔ lo ≤ x ∧ x < hi := by
  unfold irange
  simp only [List.mem_map, List.mem_range]
  constructor
  · rintro ⟨i, hi, rfl⟩; omega
  · intro h; exact ⟨(x - lo).toNat, by omega, by omega⟩

theorem irange_pow (lo hi : ℤ) (n : ℕ) (h : hi - lo = 2 ^ n) :
    irange lo hi = (List.range (2 ^ n)).map fun (i : ℕ) => lo + i := by
  unfold irange
  rw [h]
  congr 2

/-- Value of the fold over the powers of two. -/
def powSum : List F → ℕ → F
  | [], _ => 0
  | x :: xs, i => x * ((2 ^ i : ℕ) : F) + powSum xs (i + 1)

theorem foldl_powSum (r : List F) (i : ℕ) (a : F) :
    (r.zipIdx i).foldl (fun acc pi => acc + pi.1 * ((2 ^ pi.2 : ℕ) : F)) a = a + powSum r i := by
  induction r generalizing i a with
  | nil => simp [powSum]
  | cons x xs ih =>
    rw [List.zipIdx_cons, List.foldl_cons, ih]
    simp only [powSum]
    ring

theorem powSum_succ (r : List F) (i : ℕ) : powSum r (i + 1) = 2 * powSum r i := by
  induction r generalizing i with
  | nil => simp [powSum]
  | cons x xs ih =>
    simp only [powSum]
    rw [ih (i + 1), pow_succ]
    push_cast
    ring

theorem sum_id_chi (r : List F) : ∑ b ∈ range (2 ^ r.length), ((b : ℕ) : F) * chi r b = powSum r 0 := by
  induction r with
  | nil => simp [powSum]
  | cons x xs ih =>
    rw [List.length_cons, pow_succ, mul_comm (2 ^ _) 2, sum_range_two_mul]
    have : ∀ j ∈ range (2 ^ xs.length),
        ((2 * j : ℕ) : F) * chi (x :: xs) (2 * j) + ((2 * j + 1 : ℕ) : F) * chi (x :: xs) (2 * j + 1)
          = 2 * (((j : ℕ) : F) * chi xs j) + x * chi xs j := by
      intro j _
      rw [chi_cons, chi_cons]
      have h1 : (2 * j) % 2 = 0 := by omega
      have h2 : (2 * j + 1) % 2 = 1 := by omega
      have h3 : (2 * j) / 2 = j := by omega
      have h4 : (2 * j + 1) / 2 = j := by omega
      rw [h1, h2, h3, h4]
      simp only [zero_ne_one, if_false, if_true]
      push_cast
      ring
    rw [Finset.sum_congr rfl this, Finset.sum_add_distrib, ← Finset.mul_sum, ← Finset.mul_sum, ih, sum_chi]
    simp only [powSum]
    rw [powSum_succ]
    simp
    ring

theorem pointSum_eq (r : List F) : pointSum r = powSum r 0 := by
  unfold pointSum
  rw [foldl_powSum, zero_add]

/-- Extension of the column `lo, lo + 1, …`. -/
theorem mle_irange (p n : ℕ) [CharP F p] (lo hi : ℤ) (h : hi - lo = 2 ^ n) (r : List F) (hr : r.length = n)
    (hlo : lo.natAbs ≤ p) (hhi : hi.natAbs ≤ p) :
    mle ((irange lo hi).map (toField p)) r = pointSum r + (lo : F) := by
  rw [irange_pow lo hi n h, List.map_map, mle_map_range n _ r hr, pointSum_eq, ← sum_id_chi, hr]
  have : ∀ i ∈ range (2 ^ n), (toField p ∘ fun (i : ℕ) => lo + (i : ℤ)) i * chi r i
      = ((i : ℕ) : F) * chi r i + (lo : F) * chi r i := by
    intro i hi'
    have hi2 : i < 2 ^ n := Finset.mem_range.mp hi'
    have hc : ((i : ℤ)) < 2 ^ n := by exact_mod_cast hi2
    simp only [Function.comp_apply]
    rw [toField_eq_cast p _ (by omega)]
    push_cast
    ring
  rw [Finset.sum_congr rfl this, Finset.sum_add_distrib, ← Finset.mul_sum, ← hr, sum_chi, mul_one]

theorem powSum_append (r : List F) (x : F) (i : ℕ) : powSum (r ++ [x]) i = powSum r i + x * ((2 ^ (i + r.length) : ℕ) : F) := by
  induction r generalizing i with
  | nil => simp [powSum]
  | cons y r ih =>
    simp only [List.cons_append, powSum, List.length_cons]
    rw [ih (i + 1), show i + 1 + r.length = i + (r.length + 1) by omega]
    ring

theorem reluSecond_eq (init : List F) (x : F) : reluSecond (init ++ [x]) = powSum init 0 * x := by
  unfold reluSecond
  have h1 : ((init ++ [x]).zipIdx).take ((init ++ [x]).length - 1) = init.zipIdx := by
    rw [List.zipIdx_append]
    simp
  have h2 : (init ++ [x]).getD ((init ++ [x]).length - 1) 0 = x := by
    simp [List.getD_eq_getElem?_getD]
  rw [h1, h2]
  have : ∀ (l : List F) (i : ℕ) (a : F), (l.zipIdx i).foldl (fun acc pi => acc + pi.1 * ((2 ^ pi.2 : ℕ) : F) * x) a
      = a + powSum l i * x := by
    intro l
    induction l with
    | nil => intro i a; simp [powSum]
    | cons y l ih =>
      intro i a
      rw [List.zipIdx_cons, List.foldl_cons, ih]
      simp only [powSum]
      ring
  rw [this, zero_add]

theorem chi_snoc (init : List F) (x : F) (b : ℕ) (hb : b < 2 ^ init.length) :
    chi (init ++ [x]) b = chi init b * (1 - x) ∧ chi (init ++ [x]) (2 ^ init.length + b) = chi init b * x := by
  constructor
  · rw [chi_append, Nat.div_eq_of_lt hb, chi_cons]
    simp [chi_nil]
  · rw [chi_append]
    have h1 : chi init (2 ^ init.length + b) = chi init b := by
      have := chi_add_mul init b 1
      rw [mul_one, add_comm] at this
      exact this
    have h2 : (2 ^ init.length + b) / 2 ^ init.length = 1 := by
      rw [Nat.add_div_left _ (by positivity), Nat.div_eq_of_lt hb]
    rw [h1, h2, chi_cons]
    simp [chi_nil]

/-- Extension of the second relu column. -/
theorem mle_relu (p bl : ℕ) (hbl : 1 ≤ bl) [CharP F p] (r : List F) (hr : r.length = bl) (hp : 2 ^ bl ≤ p) :
    mle ((irange (qMin bl - 1) (qMax bl + 1)).map fun i => toField p (reluApply i)) r = reluSecond r := by
  obtain ⟨init, x, rfl⟩ : ∃ init x, r = init ++ [x] := by
    have : r ≠ [] := by intro h; subst h; simp at hr; omega
    exact ⟨r.dropLast, r.getLast this, (List.dropLast_append_getLast this).symm⟩
  have hl : init.length = bl - 1 := by simp at hr; omega
  have hpow : 2 ^ bl = 2 ^ init.length + 2 ^ init.length := by
    rw [hl, ← two_mul, ← pow_succ']; congr 1; omega
  have hz : (qMax bl + 1) - (qMin bl - 1) = 2 ^ bl := by
    unfold qMin qMax
    have : (2 : ℤ) ^ bl = 2 ^ (bl - 1) * 2 := by rw [← pow_succ]; congr 1; omega
    rw [this]; ring
  rw [irange_pow _ _ bl hz, List.map_map, mle_map_range bl _ _ hr, hpow, Finset.sum_range_add]
  have hq : qMin bl - 1 = -((2 ^ init.length : ℕ) : ℤ) := by unfold qMin; rw [hl]; push_cast; ring
  have h1 : ∑ b ∈ range (2 ^ init.length), ((fun i => toField p (reluApply i)) ∘ fun (i : ℕ) => qMin bl - 1 + (i : ℤ)) b
      * chi (init ++ [x]) b = 0 := by
    apply Finset.sum_eq_zero
    intro b hb
    have hb' := Finset.mem_range.mp hb
    have : reluApply (qMin bl - 1 + (b : ℤ)) = 0 := by
      unfold reluApply
      rw [if_pos (by rw [hq]; omega)]
    simp only [Function.comp_apply, this]
    rw [toField_eq_cast p _ (by simp)]
    simp
  have h2 : ∀ b ∈ range (2 ^ init.length), ((fun i => toField p (reluApply i)) ∘ fun (i : ℕ) => qMin bl - 1 + (i : ℤ))
      (2 ^ init.length + b) * chi (init ++ [x]) (2 ^ init.length + b) = ((b : ℕ) : F) * chi init b * x := by
    intro b hb
    have hb' := Finset.mem_range.mp hb
    have : reluApply (qMin bl - 1 + ((2 ^ init.length + b : ℕ) : ℤ)) = (b : ℤ) := by
      unfold reluApply
      rw [hq, if_neg (by push_cast; omega)]
      push_cast
      ring
    simp only [Function.comp_apply, this]
    rw [toField_eq_cast p _ (by omega), (chi_snoc init x b hb').2]
    push_cast
    ring
  rw [h1, zero_add, Finset.sum_congr rfl h2, ← Finset.sum_mul, sum_id_chi, reluSecond_eq]

theorem zero_fold (r : List F) (i : ℕ) (s : F × F) :
    (r.zipIdx i).foldl (fun (s : F × F) pi => (s.1 + pi.1 * ((2 ^ pi.2 : ℕ) : F), s.2 * (1 - pi.1))) s
      = (s.1 + powSum r i, s.2 * chi r 0) := by
  induction r generalizing i s with
  | nil => simp [powSum, chi_nil]
  | cons x xs ih =>
    rw [List.zipIdx_cons, List.foldl_cons, ih, chi_cons]
    simp only [powSum, Nat.zero_mod, zero_ne_one, if_false, Nat.zero_div, Prod.mk.injEq]
    constructor <;> ring

theorem mle_zero_out (p bits : ℕ) [CharP F p] (hp : 1 ≤ p) (r : List F) (hr : r.length = bits) :
    mle ((irange 0 (2 ^ bits)).map fun i => toField p (if i ≠ 0 then 0 else 1)) r = chi r 0 := by
  rw [irange_pow _ _ bits (by ring), List.map_map, mle_map_range bits _ _ hr, Finset.sum_eq_single 0]
  · simp only [Function.comp_apply]
    simp [toField]
  · intro b _ hb
    simp only [Function.comp_apply]
    have : (0 : ℤ) + (b : ℤ) ≠ 0 := by omega
    rw [if_pos this]
    simp [toField]
  · intro h
    exfalso
    apply h
    simp

theorem clampTo_eq (bl : ℕ) (i : ℤ) : clampTo bl i = max (qMin bl) (min (qMax bl) i) := by
  have hp : (0 : ℤ) < 2 ^ (bl - 1) := by positivity
  unfold clampTo qMin qMax
  split
  · omega
  · split <;> omega

end Lemmas
