import Verif.Model.ConvProver
import Verif.Lemmas.Fft
import Verif.Lemmas.FftConv
import Verif.Lemmas.SamePoly
import Verif.Lemmas.Product
import Verif.Props.SamePoly

/-!
The Fourier matrix reduced at a point: `phi_g_init`, and the claims of the delegation.
-/

namespace Lemmas

open Spec Model

variable {F : Type} [Field F]

/-- `∏ (1 - r_j + r_j z^(2^j))`. -/
def phiProd : List F → F → F
  | [], _ => 1
  | x :: xs, z => (1 - x + x * z) * phiProd xs (z * z)

theorem phiProd_sum : ∀ (r : List F) (z : F), ∑ k ∈ Finset.range (2 ^ r.length), chi r k * z ^ k = phiProd r z := by
  intro r
  induction r with
  | nil => intro z; simp [phiProd, chi_nil]
  | cons x xs ih =>
    intro z
    rw [List.length_cons, pow_succ, mul_comm, sum_range_two_mul, phiProd, ← ih (z * z), Finset.mul_sum]
    apply Finset.sum_congr rfl
    intro k _
    rw [chi_cons, chi_cons]
    have h1 : (2 * k) % 2 = 0 := by omega
    have h2 : (2 * k + 1) % 2 = 1 := by omega
    have h3 : (2 * k) / 2 = k := by omega
    have h4 : (2 * k + 1) / 2 = k := by omega
    rw [h1, h2, h3, h4]
    simp only [zero_ne_one, if_false, if_true]
    rw [pow_succ, pow_mul, pow_two]
    ring

theorem xor_high (b k : ℕ) (h : b < 2 ^ k) : b ^^^ (1 <<< k) = 2 ^ k + b := by
  rw [Nat.one_shiftLeft]
  apply Nat.eq_of_testBit_eq
  intro i
  rw [Nat.testBit_xor]
  by_cases hi : i = k
  · subst hi
    rw [Nat.testBit_two_pow_add_eq, Nat.testBit_lt_two_pow h, Nat.testBit_two_pow_self]; rfl
  · rcases Nat.lt_or_gt_of_ne hi with hlt | hgt
    · rw [Nat.testBit_two_pow_add_gt hlt, Nat.testBit_two_pow_of_ne (Ne.symm hi), Bool.xor_false]
    · have h2 : 2 ^ k + b < 2 ^ i := by
        have : 2 ^ (k + 1) ≤ 2 ^ i := Nat.pow_le_pow_right (by omega) hgt
        rw [pow_succ] at this
        omega
      rw [Nat.testBit_lt_two_pow h2, Nat.testBit_two_pow_of_ne (Ne.symm hi), Bool.xor_false]
      exact Nat.testBit_lt_two_pow (by omega)

/-- The entries of the reduced matrix after `c` passes. -/
def phiG (w s : F) (rx : List F) (c b : ℕ) : F := s * phiProd (rx.drop (rx.length - c)) (w ^ (b * 2 ^ (rx.length - c)))

theorem phiG_zero (w s : F) (rx : List F) (b : ℕ) : phiG w s rx 0 b = s := by
  simp [phiG, phiProd]

theorem phiG_succ (w s : F) (rx : List F) (c b : ℕ) (hc : c < rx.length) :
    phiG w s rx (c + 1) b = phiG w s rx c b * (1 - rx.getD (rx.length - (c + 1)) 0 + rx.getD (rx.length - (c + 1)) 0 * w ^ (b * 2 ^ (rx.length - (c + 1)))) := by
  unfold phiG
  rw [List.drop_eq_getElem_cons (i := rx.length - (c + 1)) (by omega), phiProd]
  have h1 : rx.length - (c + 1) + 1 = rx.length - c := by omega
  rw [h1, List.getD_eq_getElem _ _ (by omega), ← pow_add]
  have h2 : b * 2 ^ (rx.length - (c + 1)) + b * 2 ^ (rx.length - (c + 1)) = b * 2 ^ (rx.length - c) := by
    rw [← h1, pow_succ]; ring
  rw [h2]
  ring

theorem phiG_period (w s : F) (rx : List F) (hw : w ^ 2 ^ rx.length = 1) (c b : ℕ) (hc : c ≤ rx.length) :
    phiG w s rx c (2 ^ c + b) = phiG w s rx c b := by
  unfold phiG
  congr 2
  rw [add_mul, pow_add, ← pow_add 2, show c + (rx.length - c) = rx.length by omega, hw, one_mul]

/-- The next pass, upper half: the sign changes. -/
theorem phiG_high (w s : F) (rx : List F) (hneg : w ^ 2 ^ (rx.length - 1) = -1) (c b : ℕ) (hc : c < rx.length) :
    phiG w s rx (c + 1) (2 ^ c + b)
      = phiG w s rx c b * (1 - rx.getD (rx.length - (c + 1)) 0 - rx.getD (rx.length - (c + 1)) 0 * w ^ (b * 2 ^ (rx.length - (c + 1)))) := by
  have hw : w ^ 2 ^ rx.length = 1 := by
    have : rx.length = rx.length - 1 + 1 := by omega
    rw [this, pow_succ, pow_mul, hneg]; simp
  rw [phiG_succ w s rx c _ hc, phiG_period w s rx hw c b (by omega), add_mul, pow_add, ← pow_add 2,
    show c + (rx.length - (c + 1)) = rx.length - 1 by omega, hneg]
  ring

theorem set?_some {α : Type} (l : List α) (i : ℕ) (x : α) (h : i < l.length) : set? l i x = some (l.set i x) := by
  rw [set?, if_pos h]

theorem phiG_inner (rx : List F) (w : F) (i : ℕ) (h1 : 1 ≤ i) (hi : i ≤ rx.length) (v : List F) (hv : v.length = 2 ^ rx.length) (t : ℕ)
    (ht : t ≤ 2 ^ (i - 1)) :
    ∃ v', (List.range t).foldlM (phiGStep rx (twiddles w (2 ^ rx.length)) rx.length i) v = some v' ∧ v'.length = 2 ^ rx.length ∧
      ∀ b, v'.getD b 0 = if b < t then v.getD b 0 * (1 - rx.getD (rx.length - i) 0 + rx.getD (rx.length - i) 0 * w ^ (b * 2 ^ (rx.length - i)))
        else if 2 ^ (i - 1) ≤ b ∧ b < 2 ^ (i - 1) + t then v.getD (b - 2 ^ (i - 1)) 0 *
          (1 - rx.getD (rx.length - i) 0 - rx.getD (rx.length - i) 0 * w ^ ((b - 2 ^ (i - 1)) * 2 ^ (rx.length - i)))
        else v.getD b 0 := by
  induction t with
  | zero =>
    refine ⟨v, rfl, hv, ?_⟩
    intro b
    rw [if_neg (by omega), if_neg (by omega)]
  | succ t ih =>
    obtain ⟨v1, f1, l1, g1⟩ := ih (by omega)
    have hhalf : 2 ^ (i - 1) + 2 ^ (i - 1) ≤ 2 ^ rx.length := by
      have : 2 ^ (i - 1 + 1) ≤ 2 ^ rx.length := Nat.pow_le_pow_right (by omega) (by omega)
      rw [pow_succ] at this; omega
    have htl : t <<< (rx.length - i) < 2 ^ rx.length := by
      rw [Nat.shiftLeft_eq]
      calc t * 2 ^ (rx.length - i) < 2 ^ (i - 1) * 2 ^ (rx.length - i) := Nat.mul_lt_mul_of_pos_right (by omega) (Nat.two_pow_pos _)
        _ = 2 ^ (i - 1 + (rx.length - i)) := by rw [pow_add]
        _ ≤ 2 ^ rx.length := Nat.pow_le_pow_right (by omega) (by omega)
    obtain ⟨x, hx⟩ : ∃ x, x = rx.getD (rx.length - i) 0 := ⟨_, rfl⟩
    rw [← hx] at g1 ⊢
    refine ⟨(v1.set (2 ^ (i - 1) + t) (v.getD t 0 * ((1 - x) - x * w ^ (t * 2 ^ (rx.length - i))))).set t
      (v.getD t 0 * ((1 - x) + x * w ^ (t * 2 ^ (rx.length - i)))), ?_, by simp [l1], ?_⟩
    · rw [List.range_succ, List.foldlM_append, f1]
      have htw := twiddles_getElem w _ _ htl
      rw [show w ^ (t <<< (rx.length - i)) = w ^ (t * 2 ^ (rx.length - i)) by rw [Nat.shiftLeft_eq]] at htw
      have hu : v1[t]? = some (v.getD t 0) := by
        rw [getElem?_of_lt v1 t 0 (by omega), g1 t, if_neg (by omega), if_neg (by omega)]
      simp only [Option.bind_eq_bind, Option.bind_some, List.foldlM_cons, List.foldlM_nil, phiGStep, checkedSub, if_pos hi,
        getElem?_of_lt rx (rx.length - i) 0 (by omega), ← hx, htw, hu, xor_high t (i - 1) (by omega),
        Option.pure_def]
      rw [set?_some _ _ _ (by omega), Option.bind_some, set?_some _ _ _ (by rw [List.length_set]; omega), Option.bind_some]
    · intro b
      rw [getD_set _ _ _ _ _ (by rw [List.length_set]; omega)]
      by_cases hb : b = t
      · subst hb
        rw [if_pos rfl, if_pos (by omega)]
      · rw [if_neg hb, getD_set _ _ _ _ _ (by omega)]
        by_cases hb2 : b = 2 ^ (i - 1) + t
        · subst hb2
          rw [if_pos rfl, if_neg (by omega), if_pos (by omega), Nat.add_sub_cancel_left]
        · rw [if_neg hb2, g1 b]
          by_cases h3 : b < t
          · rw [if_pos h3, if_pos (show b < t + 1 by omega)]
          · rw [if_neg h3, if_neg (show ¬ b < t + 1 by omega)]
            by_cases h4 : 2 ^ (i - 1) ≤ b ∧ b < 2 ^ (i - 1) + t
            · rw [if_pos h4, if_pos (show 2 ^ (i - 1) ≤ b ∧ b < 2 ^ (i - 1) + (t + 1) by omega)]
            · rw [if_neg h4, if_neg (show ¬ (2 ^ (i - 1) ≤ b ∧ b < 2 ^ (i - 1) + (t + 1)) by omega)]

/-- The intermediate vectors. -/
def phiMid (w s : F) (rx : List F) (c : ℕ) : List (List F) := (List.range c).map fun l => (List.range (2 ^ (l + 1))).map (phiG w s rx (l + 1))

theorem phiG_levels (rx : List F) (w s : F) (hneg : w ^ 2 ^ (rx.length - 1) = -1) (c : ℕ) (hc : c ≤ rx.length) :
    ∃ v, (List.range' 1 c).foldlM (phiGLevel rx (twiddles w (2 ^ rx.length)) rx.length) ((List.replicate (2 ^ rx.length) (0 : F)).set 0 s, [])
        = some (v, phiMid w s rx (min c (rx.length - 1))) ∧ v.length = 2 ^ rx.length ∧
      ∀ b, v.getD b 0 = if b < 2 ^ c then phiG w s rx c b else 0 := by
  induction c with
  | zero =>
    refine ⟨_, rfl, by simp, ?_⟩
    intro b
    rw [getD_set _ _ _ _ _ (by simp)]
    by_cases hb : b = 0
    · subst hb; simp [phiG_zero]
    · rw [if_neg hb, if_neg (by simp; omega)]
      rw [List.getD_eq_getElem?_getD, List.getElem?_replicate]; split <;> simp
  | succ c ih =>
    obtain ⟨v, f1, l1, g1⟩ := ih (by omega)
    obtain ⟨v', f2, l2, g2⟩ := phiG_inner rx w (c + 1) (by omega) hc v l1 (2 ^ c) (by simp)
    have hval : ∀ b, v'.getD b 0 = if b < 2 ^ (c + 1) then phiG w s rx (c + 1) b else 0 := by
      intro b
      rw [g2 b]
      simp only [Nat.add_sub_cancel]
      rw [pow_succ]
      by_cases h1 : b < 2 ^ c
      · rw [if_pos h1, if_pos (by omega), g1 b, if_pos h1, phiG_succ w s rx c b (by omega)]
      · rw [if_neg h1]
        by_cases h2 : 2 ^ c ≤ b ∧ b < 2 ^ c + 2 ^ c
        · obtain ⟨d, rfl⟩ : ∃ d, b = 2 ^ c + d := ⟨b - 2 ^ c, by omega⟩
          rw [if_pos h2, if_pos (by omega), Nat.add_sub_cancel_left, g1 d, if_pos (by omega), phiG_high w s rx hneg c d (by omega)]
        · rw [if_neg h2, if_neg (by omega), g1 b, if_neg h1]
    refine ⟨v', ?_, l2, hval⟩
    rw [List.range'_1_concat, List.foldlM_append, f1]
    simp only [Option.bind_eq_bind, Option.bind_some, List.foldlM_cons, List.foldlM_nil, phiGLevel, Option.pure_def, add_comm 1 c, Nat.add_sub_cancel,
      f2]
    congr 2
    by_cases h3 : c + 1 < rx.length
    · rw [if_pos h3, min_eq_left (by omega), min_eq_left (by omega), phiMid, phiMid, List.range_succ, List.map_append, List.map_singleton]
      congr 2
      have hle : 2 ^ (c + 1) ≤ 2 ^ rx.length := Nat.pow_le_pow_right (by omega) hc
      refine list_ext_getD 0 _ _ (by simp [l2, hle]) ?_
      intro b hb
      have hb' : b < 2 ^ (c + 1) := by simp [l2, hle] at hb; omega
      rw [getD_take _ _ _ _ hb', hval, if_pos hb', getD_map_range' _ _ _ _ hb']
    · rw [if_neg h3, min_eq_right (by omega), min_eq_right (by omega)]

/-- The table the passes compute, `full` when the last one fills both halves. -/
def phiTab (w s : F) (rx : List F) (full : Bool) (c b : ℕ) : F :=
  if full = true ∨ c < rx.length ∨ b < 2 ^ (rx.length - 1) then phiG w s rx c b else 0

theorem phiG_lower (rx : List F) (w : F) (h1 : 1 ≤ rx.length) (v : List F) (hv : v.length = 2 ^ rx.length) (t : ℕ) (ht : t ≤ 2 ^ (rx.length - 1)) :
    ∃ v', (List.range t).foldlM (fun v b => do
        let w ← (twiddles w (2 ^ rx.length))[b]?
        let u ← v[b]?
        set? v b (u * ((1 - rx.getD 0 0) + rx.getD 0 0 * w))) v = some v' ∧ v'.length = 2 ^ rx.length ∧
      ∀ b, v'.getD b 0 = if b < t then v.getD b 0 * (1 - rx.getD 0 0 + rx.getD 0 0 * w ^ b) else v.getD b 0 := by
  induction t with
  | zero => exact ⟨v, rfl, hv, fun b => by rw [if_neg (by omega)]⟩
  | succ t ih =>
    obtain ⟨v1, f1, l1, g1⟩ := ih (by omega)
    have hlt : 2 ^ (rx.length - 1) ≤ 2 ^ rx.length := Nat.pow_le_pow_right (by omega) (by omega)
    refine ⟨v1.set t (v.getD t 0 * ((1 - rx.getD 0 0) + rx.getD 0 0 * w ^ t)), ?_, by simp [l1], ?_⟩
    · rw [List.range_succ, List.foldlM_append, f1]
      have hu : v1[t]? = some (v.getD t 0) := by
        rw [getElem?_of_lt v1 t 0 (by omega), g1 t, if_neg (by omega)]
      simp only [Option.bind_eq_bind, Option.bind_some, List.foldlM_cons, List.foldlM_nil, twiddles_getElem w _ t (by omega : t < 2 ^ rx.length), hu,
        Option.pure_def]
      rw [set?_some _ _ _ (by omega), Option.bind_some]
    · intro b
      rw [getD_set _ _ _ _ _ (by omega)]
      by_cases hb : b = t
      · subst hb
        rw [if_pos rfl, if_pos (by omega)]
      · rw [if_neg hb, g1 b]
        by_cases h3 : b < t
        · rw [if_pos h3, if_pos (show b < t + 1 by omega)]
        · rw [if_neg h3, if_neg (show ¬ b < t + 1 by omega)]

/-- The root the transform of `2^n` points uses. -/
theorem phiPow_eq (A : ℕ) (g : F) (n : ℕ) (inv : Bool) (rou : F) (hr : rootOfUnity A g n = some rou) :
    phiPow A g n inv = some (twiddles (if inv then rou⁻¹ else rou) (2 ^ n)) := by
  simp [phiPow, hr]

theorem phiGInit_spec (A : ℕ) (g : F) (rx : List F) (s : F) (full : Bool) (h1 : 1 ≤ rx.length) (rou : F)
    (hr : rootOfUnity A g rx.length = some rou) (hneg : (if full then rou⁻¹ else rou) ^ 2 ^ (rx.length - 1) = -1) :
    phiGInit A g rx s rx.length full = some ((List.range (2 ^ rx.length)).map (phiTab (if full then rou⁻¹ else rou) s rx full rx.length),
      phiMid (if full then rou⁻¹ else rou) s rx (rx.length - 1)) := by
  unfold phiGInit
  rw [phiPow_eq A g _ full rou hr]
  simp only [Option.bind_eq_bind, Option.bind_some]
  cases full with
  | true =>
    rw [if_pos rfl]
    rw [if_pos rfl] at hneg
    obtain ⟨v, f1, l1, g1⟩ := phiG_levels rx rou⁻¹ s hneg rx.length le_rfl
    simp only [if_true] at f1 ⊢
    rw [f1, min_eq_right (by omega)]
    congr 2
    refine list_ext_getD 0 _ _ (by simp [l1]) ?_
    intro b hb
    rw [l1] at hb
    rw [g1, if_pos hb, getD_map_range' _ _ _ _ hb, phiTab, if_pos (Or.inl rfl)]
  | false =>
    simp only [Bool.false_eq_true, if_false] at hneg ⊢
    obtain ⟨v, f1, l1, g1⟩ := phiG_levels rx rou s hneg (rx.length - 1) (by omega)
    obtain ⟨v', f2, l2, g2⟩ := phiG_lower rx rou h1 v l1 (2 ^ (rx.length - 1)) le_rfl
    simp only [checkedSub, if_pos h1, Option.bind_some, f1, getElem?_of_lt rx 0 0 (by omega)]
    simp only [Option.bind_eq_bind] at f2
    rw [f2, Option.bind_some, min_self]
    congr 2
    refine list_ext_getD 0 _ _ (by simp [l2]) ?_
    intro b hb
    rw [l2] at hb
    rw [g2, getD_map_range' _ _ _ _ hb, phiTab]
    by_cases hlt : b < 2 ^ (rx.length - 1)
    · rw [if_pos hlt, if_pos (Or.inr (Or.inr hlt)), g1, if_pos hlt]
      have h3 := phiG_succ rou s rx (rx.length - 1) b (by omega)
      rw [show rx.length - 1 + 1 = rx.length by omega, Nat.sub_self, pow_zero, mul_one] at h3
      exact h3.symm
    · rw [if_neg hlt, if_neg (by simp [hlt]), g1, if_neg hlt]

theorem prove_three [DecidableEq F] (T : Transcript F) (threads : ℕ) (ht : 0 < threads) (n : ℕ) (hchar : ∀ k : ℕ, 0 < k → k ≤ 3 → (k : F) ≠ 0) (a b c : List F)
    (ha : a.length = 2 ^ n) (hb : b.length = 2 ^ n) (hc : c.length = 2 ^ n) (ts : T.State) :
    ∃ proof ts', proveTerms threads T (fun i => if i = 0 then ⟨n, a⟩ else if i = 1 then ⟨n, b⟩ else ⟨n, c⟩) n [(1, [0, 1, 2])] ts
        = some (proof, [mle a proof.point, mle b proof.point, mle c proof.point], ts') ∧ proof.point.length = n ∧
      ((∀ r ∈ proof.point, ∀ k : ℕ, k ≤ 3 → r ≠ (k : F)) →
        verify T (cubeSum n fun pt => mle a pt * mle b pt * mle c pt) proof 3 n ts
          = some (⟨proof.point, mle a proof.point * mle b proof.point * mle c proof.point⟩, ts')) := by
  have hh : ∀ i, ((fun i => if i = 0 then ⟨n, a⟩ else if i = 1 then ⟨n, b⟩ else ⟨n, c⟩ : ℕ → Mle F) i).numVars = n := by
    intro i; beta_reduce; split_ifs <;> rfl
  obtain ⟨proof, ts', h1, h2, h3⟩ := proveTerms_spec T threads ht (fun i => if i = 0 then ⟨n, a⟩ else if i = 1 then ⟨n, b⟩ else ⟨n, c⟩) n
    (by intro i; refine ⟨hh i, ?_⟩; beta_reduce; split_ifs <;> assumption) [(1, [0, 1, 2])] (by simp) (by simp) _
    (buildVP_three _ n hh) hchar ts
  have hval : ∀ pt, termsVal (fun i => if i = 0 then ⟨n, a⟩ else if i = 1 then ⟨n, b⟩ else ⟨n, c⟩ : ℕ → Mle F) [(1, [0, 1, 2])] pt
      = mle a pt * mle b pt * mle c pt := by
    intro pt; simp [termsVal, mul_assoc]
  refine ⟨proof, ts', ?_, h2, ?_⟩
  · rw [h1]; simp
  · intro hg
    have h4 := h3 hg
    rw [hval] at h4
    rw [← h4]
    congr 1
    exact cubeSum_congr _ _ _ fun pt _ => (hval pt).symm

end Lemmas
