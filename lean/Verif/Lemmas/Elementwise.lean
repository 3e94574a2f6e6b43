import Verif.Model.Elementwise
import Verif.Lemmas.Layers
import Verif.Lemmas.Quant
import Verif.Lemmas.TensorPad
import Mathlib.Analysis.SpecialFunctions.Log.Base
import Mathlib.Analysis.SpecialFunctions.Pow.Real

/-! Lemmas about addition and reshaping. -/

namespace Lemmas

open Model Spec

section
variable {F : Type} [Field F] [DecidableEq F]

omit [DecidableEq F] in
theorem mle_zipWith (a b : F) (l r point : List F) (hl : l.length = 2 ^ point.length) (hr : r.length = 2 ^ point.length) :
    mle (List.zipWith (fun x y => x * a + y * b) l r) point = mle l point * a + mle r point * b := by
  unfold mle
  rw [Finset.sum_mul, Finset.sum_mul, ← Finset.sum_add_distrib]
  refine Finset.sum_congr rfl fun i hi => ?_
  have hi := Finset.mem_range.1 hi
  have h1 : i < l.length := by omega
  have h2 : i < r.length := by omega
  rw [List.getD_eq_getElem?_getD, List.getD_eq_getElem?_getD, List.getD_eq_getElem?_getD, List.getElem?_zipWith, List.getElem?_eq_getElem h1,
    List.getElem?_eq_getElem h2]
  simp only [Option.getD_some]
  ring

theorem evaluateTensor_eq (data point : List F) (h : data.length = 2 ^ point.length) : evaluateTensor data point = some (mle data point) := by
  unfold evaluateTensor Mle.ofEvals
  have hk : Nat.log2 data.length = point.length := by rw [h, Nat.log2_two_pow]
  rw [hk]
  simp only [h, if_true, Option.bind_eq_bind, Option.bind_some]
  exact evaluate_eq ⟨point.length, data⟩ h point rfl

end

theorem i64_range {x y : ℤ} (h : i64 x = some y) : y = x ∧ -(2 ^ 63) ≤ x ∧ x < 2 ^ 63 := by
  unfold i64 at h
  split at h
  · rename_i hc
    exact ⟨(Option.some.inj h).symm, hc⟩
  · simp at h

theorem addEvaluate_spec (a b : ℤ) (l r out : List ℤ) (h : addEvaluate a b l r = some out) :
    l.length = r.length ∧ out = List.zipWith (fun x y => x * a + y * b) l r ∧ ∀ z ∈ out, -(2 ^ 63) ≤ z ∧ z < 2 ^ 63 := by
  unfold addEvaluate at h
  split at h
  swap
  · simp at h
  rename_i hl
  refine ⟨hl, ?_⟩
  clear hl
  induction l generalizing r out with
  | nil => simp at h; subst h; simp
  | cons x l ih =>
    cases r with
    | nil => simp at h; subst h; simp
    | cons y r =>
      rw [List.zip_cons_cons, List.mapM_cons] at h
      simp only [Option.bind_eq_bind, Option.bind_eq_some_iff, Option.pure_def, Option.some.injEq] at h
      obtain ⟨z, ⟨u, hu, v, hv, hz⟩, zs, hzs, rfl⟩ := h
      obtain ⟨e1, -⟩ := i64_range hu
      obtain ⟨e2, -⟩ := i64_range hv
      obtain ⟨e3, e4⟩ := i64_range hz
      obtain ⟨i1, i2⟩ := ih r zs hzs
      rw [i1] at i2 ⊢
      refine ⟨by rw [List.zipWith_cons_cons, e3, e1, e2], ?_⟩
      intro w hw
      rcases List.mem_cons.1 hw with rfl | hw
      · rw [e3]; exact e4
      · exact i2 w hw

/-! ### Scales -/

theorem abs_logb (s : ℝ) (h0 : 0 < s) (h1 : s ≤ 1) : |Real.logb 2 s| = -Real.logb 2 s :=
  abs_of_nonpos (Real.logb_nonpos (by norm_num) h0.le h1)

theorem two_rpow_neg_logb (s : ℝ) (h0 : 0 < s) : (2 : ℝ) ^ (Real.logb 2 s) = s := Real.rpow_logb (by norm_num) (by norm_num) h0

/-- The common scale is the scale of the more precise input, with the other one far less precise, or far more precise than both. -/
theorem addCommon_spec (bl : ℕ) (h l o : ℝ) (h0 : 0 < h) (hl : h ≤ l) (o0 : 0 < o) :
    let c := (addCommon bl (-Real.logb 2 h) (-Real.logb 2 l) (-Real.logb 2 o) h o).1
    0 < c ∧ c ≤ h ∧ ((c = h ∧ c * 2 ^ (min bl 8) ≤ l) ∨ c * 2 ^ (min bl 8) ≤ h) := by
  have hb : (0 : ℝ) < 2 := by norm_num
  have l0 : 0 < l := h0.trans_le hl
  have hle : ∀ (m : ℕ) (x : ℝ), 0 ≤ x → min bl 8 ≤ m → x * 2 ^ (min bl 8) ≤ x * 2 ^ m := by
    intro m x hx hm
    exact mul_le_mul_of_nonneg_left (pow_le_pow_right₀ (by norm_num) hm) hx
  have key : ∀ (x y : ℝ) (n : ℕ), 0 < x → 0 < y → (n : ℝ) ≤ -Real.logb 2 x - -Real.logb 2 y → x * 2 ^ n ≤ y := by
    intro x y n hx hy hn
    have h1 : Real.logb 2 x + n ≤ Real.logb 2 y := by linarith
    have h2 := Real.rpow_le_rpow_of_exponent_le (by norm_num : (1 : ℝ) ≤ 2) h1
    rw [Real.rpow_add hb, two_rpow_neg_logb x hx, two_rpow_neg_logb y hy, Real.rpow_natCast] at h2
    exact h2
  have ceil : ∀ n : ℕ, (2 : ℝ) ^ (-((⌈-Real.logb 2 h⌉₊ : ℝ) + n)) * 2 ^ n ≤ h := by
    intro n
    have h1 : -((⌈-Real.logb 2 h⌉₊ : ℝ) + n) + n ≤ Real.logb 2 h := by
      have := Nat.le_ceil (-Real.logb 2 h)
      linarith
    have h2 := Real.rpow_le_rpow_of_exponent_le (by norm_num : (1 : ℝ) ≤ 2) h1
    rw [Real.rpow_add hb, two_rpow_neg_logb h h0, Real.rpow_natCast] at h2
    exact h2
  have one : ∀ (x : ℝ) (m : ℕ), 0 ≤ x → x ≤ x * 2 ^ m := fun x m hx => le_mul_of_one_le_right hx (one_le_pow₀ (by norm_num))
  have fin : ∀ (c : ℝ) (m : ℕ), 0 < c → min bl 8 ≤ m → c * 2 ^ m ≤ h → 0 < c ∧ c ≤ h ∧ ((c = h ∧ c * 2 ^ (min bl 8) ≤ l) ∨ c * 2 ^ (min bl 8) ≤ h) :=
    fun c m hc hm hch => ⟨hc, (one c m hc.le).trans hch, Or.inr ((hle m c hc.le hm).trans hch)⟩
  unfold addCommon
  split
  · split
    · rename_i hd
      exact fin o bl o0 (min_le_left _ _) (key o h bl o0 h0 hd)
    · exact fin _ bl (Real.rpow_pos_of_pos hb _) (min_le_left _ _) (ceil bl)
  · split
    · rename_i he
      have hho : o = h := by
        have : Real.logb 2 o = Real.logb 2 h := by linarith
        rw [← two_rpow_neg_logb o o0, this, two_rpow_neg_logb h h0]
      split
      · rename_i hd
        have hk := key o l bl o0 l0 hd
        refine ⟨o0, hho.le, Or.inl ⟨hho, (hle bl o o0.le (min_le_left _ _)).trans hk⟩⟩
      · exact fin _ bl (Real.rpow_pos_of_pos hb _) (min_le_left _ _) (ceil bl)
    · split
      · rename_i hd
        have hk := key h l 8 h0 l0 (by exact_mod_cast hd)
        exact ⟨h0, le_rfl, Or.inl ⟨rfl, (hle 8 h h0.le (min_le_right _ _)).trans hk⟩⟩
      · refine fin _ 8 (Real.rpow_pos_of_pos hb _) (min_le_right _ _) ?_
        have := ceil 8
        exact_mod_cast this

/-- Rounding the multiplier. -/
theorem mul_round (c s : ℝ) (hc : 0 < c) : |c * (roundAway (s / c) : ℝ) - s| ≤ c / 2 := by
  have h := roundAway_close (s / c)
  have e : c * (roundAway (s / c) : ℝ) - s = c * ((roundAway (s / c) : ℝ) - s / c) := by field_simp
  rw [e, abs_mul, abs_of_pos hc]
  calc c * |(roundAway (s / c) : ℝ) - s / c| ≤ c * (1 / 2) := mul_le_mul_of_nonneg_left h hc.le
    _ = c / 2 := by ring

theorem mul_round_self (c : ℝ) (hc : 0 < c) : c * (roundAway (c / c) : ℝ) - c = 0 := by
  have h := roundAway_int (K := ℝ) 1
  rw [div_self hc.ne']
  rw [Int.cast_one] at h
  rw [h]
  ring

/-- Both multipliers are accurate. -/
theorem addQuant_spec (bl : ℕ) (l r o : ℝ) (l0 : 0 < l) (l1 : l ≤ 1) (r0 : 0 < r) (r1 : r ≤ 1) (o0 : 0 < o) (o1 : o ≤ 1) :
    let q := addQuant bl l r o
    0 < q.common ∧ q.common ≤ min l r ∧ |q.common * q.leftMul - l| ≤ l / 2 ^ (min bl 8 + 1) ∧ |q.common * q.rightMul - r| ≤ r / 2 ^ (min bl 8 + 1) := by
  have hmain : ∀ h w c : ℝ, 0 < h → h ≤ w → 0 < c → c ≤ h → ((c = h ∧ c * 2 ^ (min bl 8) ≤ w) ∨ c * 2 ^ (min bl 8) ≤ h) →
      |c * (roundAway (h / c) : ℝ) - h| ≤ h / 2 ^ (min bl 8 + 1) ∧ |c * (roundAway (w / c) : ℝ) - w| ≤ w / 2 ^ (min bl 8 + 1) := by
    intro h w c h0 hw c0 ch hor
    have hp : (0 : ℝ) < 2 ^ (min bl 8) := by positivity
    have tr : ∀ s : ℝ, c * 2 ^ (min bl 8) ≤ s → |c * (roundAway (s / c) : ℝ) - s| ≤ s / 2 ^ (min bl 8 + 1) := by
      intro s hs
      refine (mul_round c s c0).trans ?_
      rw [pow_succ, div_le_div_iff₀ (by norm_num) (by positivity)]
      nlinarith
    rcases hor with ⟨rfl, h1⟩ | h1
    · refine ⟨?_, tr w h1⟩
      rw [mul_round_self c c0, abs_zero]
      positivity
    · exact ⟨tr h h1, tr w (h1.trans hw)⟩
  intro q
  have hq : q = addQuant bl l r o := rfl
  unfold addQuant at hq
  simp only [abs_logb l l0 l1, abs_logb r r0 r1, abs_logb o o0 o1] at hq
  by_cases hc : -Real.logb 2 l ≤ -Real.logb 2 r
  · rw [if_pos hc] at hq
    have hrl : r ≤ l := by
      have := Real.rpow_le_rpow_of_exponent_le (by norm_num : (1 : ℝ) ≤ 2) (neg_le_neg_iff.1 hc)
      rwa [two_rpow_neg_logb r r0, two_rpow_neg_logb l l0] at this
    obtain ⟨a, b, c⟩ := addCommon_spec bl r l o r0 hrl o0
    obtain ⟨d, e⟩ := hmain r l _ r0 hrl a b c
    rw [hq]
    exact ⟨a, le_min (b.trans hrl) b, e, d⟩
  · rw [if_neg hc] at hq
    have hlr : l ≤ r := by
      have := Real.rpow_le_rpow_of_exponent_le (by norm_num : (1 : ℝ) ≤ 2) (neg_le_neg_iff.1 (not_le.1 hc).le)
      rwa [two_rpow_neg_logb r r0, two_rpow_neg_logb l l0] at this
    obtain ⟨a, b, c⟩ := addCommon_spec bl l r o l0 hlr o0
    obtain ⟨d, e⟩ := hmain l r _ l0 hlr a b c
    rw [hq]
    exact ⟨a, le_min b (b.trans hlr), d, e⟩

/-- The bit size against the common scale. -/
theorem bitSize_ge (q : AddQuant) (h0 : 0 < q.common) (h1 : q.common ≤ 1) : 4 ≤ q.common * 2 ^ q.bitSize ∧ q.common * 2 ^ q.bitSize < 8 := by
  unfold AddQuant.bitSize
  rw [abs_logb _ h0 h1]
  have hn : 0 ≤ -Real.logb 2 q.common := by
    have := Real.logb_nonpos (by norm_num : (1 : ℝ) < 2) h0.le h1
    linarith
  have e : q.common * 2 ^ (⌈-Real.logb 2 q.common⌉₊ + 2) = (2 : ℝ) ^ (Real.logb 2 q.common + ⌈-Real.logb 2 q.common⌉₊) * 4 := by
    rw [Real.rpow_add (by norm_num), two_rpow_neg_logb _ h0, Real.rpow_natCast, pow_add]
    ring
  rw [e]
  have h2 := Nat.le_ceil (-Real.logb 2 q.common)
  have h3 := Nat.ceil_lt_add_one hn
  constructor
  · have := Real.one_le_rpow (by norm_num : (1 : ℝ) ≤ 2) (show 0 ≤ Real.logb 2 q.common + ⌈-Real.logb 2 q.common⌉₊ by linarith)
    linarith
  · have : (2 : ℝ) ^ (Real.logb 2 q.common + ⌈-Real.logb 2 q.common⌉₊) < 2 ^ (1 : ℝ) :=
      Real.rpow_lt_rpow_of_exponent_lt (by norm_num) (by linarith)
    rw [Real.rpow_one] at this
    linarith

/-! ### Reshaping padded tensors -/

theorem flat_append : ∀ (A x B y : List ℕ), A.length = x.length → flat (A ++ B) (x ++ y) = flat A x * B.prod + flat B y := by
  intro A
  induction A with
  | nil => intro x B y h; have : x = [] := List.length_eq_zero_iff.1 h.symm; subst this; simp [flat]
  | cons a A ih =>
    intro x B y h
    cases x with
    | nil => simp at h
    | cons i x =>
      simp only [List.cons_append, flat, List.prod_append]
      rw [ih x B y (by simpa using h)]
      ring

theorem inRange_append (A B c : List ℕ) : InRange (A ++ B) c ↔ ∃ x y, c = x ++ y ∧ InRange A x ∧ InRange B y := by
  induction A generalizing c with
  | nil => simp [inRange_nil]
  | cons a A ih =>
    rw [List.cons_append, inRange_cons]
    constructor
    · rintro ⟨i, cs, rfl, hi, h⟩
      obtain ⟨x, y, rfl, hx, hy⟩ := (ih cs).1 h
      exact ⟨i :: x, y, rfl, (inRange_cons_cons a A i x).2 ⟨hi, hx⟩, hy⟩
    · rintro ⟨x, y, rfl, hx, hy⟩
      obtain ⟨i, cs, rfl, hi, h⟩ := (inRange_cons a A x).1 hx
      exact ⟨i, cs ++ y, rfl, hi, (ih _).2 ⟨cs, y, rfl, h, hy⟩⟩

theorem inRange_append_iff (A B x y : List ℕ) (h : A.length = x.length) : InRange (A ++ B) (x ++ y) ↔ InRange A x ∧ InRange B y := by
  rw [inRange_append]
  constructor
  · rintro ⟨x', y', e, hx, hy⟩
    obtain ⟨rfl, rfl⟩ := List.append_inj e (by rw [inRange_length hx, h])
    exact ⟨hx, hy⟩
  · rintro ⟨hx, hy⟩
    exact ⟨x, y, rfl, hx, hy⟩

theorem nextPow2_mul_pow (a k : ℕ) (ha : 0 < a) : nextPow2 (a * 2 ^ k) = nextPow2 a * 2 ^ k := by
  have hk : 0 < 2 ^ k := Nat.two_pow_pos k
  apply le_antisymm
  · have h1 : a * 2 ^ k ≤ 2 ^ (Nat.clog 2 a + k) := by
      rw [pow_add]
      exact Nat.mul_le_mul_right _ (le_nextPow2 a)
    have := nextPow2_min _ _ h1
    rwa [pow_add] at this
  · have h1 := le_nextPow2 (a * 2 ^ k)
    unfold nextPow2 at h1 ⊢
    have hkm : k ≤ Nat.clog 2 (a * 2 ^ k) := by
      by_contra hc
      push Not at hc
      have := Nat.pow_lt_pow_right (by omega : 1 < 2) hc
      have : 2 ^ k ≤ a * 2 ^ k := Nat.le_mul_of_pos_left _ ha
      omega
    obtain ⟨m, hm⟩ := Nat.exists_eq_add_of_le hkm
    rw [hm, pow_add, mul_comm (2 ^ k)] at h1 ⊢
    have h2 : a ≤ 2 ^ m := Nat.le_of_mul_le_mul_right h1 hk
    exact Nat.mul_le_mul_right _ (nextPow2_min a m h2)

/-- Two shapes of the same data are padded to the same data if corresponding coordinates agree. -/
theorem pad_same {α : Type} (pad : α) (data : List α) (S S' : List ℕ) (hS : S ≠ []) (hS' : S' ≠ []) (hpos : ∀ d ∈ S, 0 < d) (hpos' : ∀ d ∈ S', 0 < d)
    (hl : data.length = S.prod) (hl' : data.length = S'.prod) (hp : (S.map nextPow2).prod = (S'.map nextPow2).prod)
    (hcorr : ∀ c', InRange (S'.map nextPow2) c' → ∃ c, InRange (S.map nextPow2) c ∧ flat (S.map nextPow2) c = flat (S'.map nextPow2) c' ∧
      (InRange S c ↔ InRange S' c') ∧ (InRange S c → flat S c = flat S' c')) :
    ∃ out, (⟨S, data⟩ : Tensor α).padNextPow2 pad = some ⟨S.map nextPow2, out⟩ ∧ (⟨S', data⟩ : Tensor α).padNextPow2 pad = some ⟨S'.map nextPow2, out⟩ ∧
      out.length = (S.map nextPow2).prod := by
  obtain ⟨o, h1, h2, h3⟩ := padNextPow2_spec ⟨S, data⟩ pad hS hpos hl
  obtain ⟨o', h1', h2', h3'⟩ := padNextPow2_spec ⟨S', data⟩ pad hS' hpos' hl'
  have : o = o' := by
    refine ext_coords (S'.map nextPow2) pad o o' (h2.trans hp) h2' fun c' hc' => ?_
    obtain ⟨c, hc, e1, e2, e3⟩ := hcorr c' hc'
    rw [h3' c' hc', ← e1, h3 c hc]
    by_cases hi : InRange S c
    · rw [if_pos hi, if_pos (e2.1 hi), e3 hi]
    · rw [if_neg hi, if_neg (fun h => hi (e2.2 h))]
  subst this
  exact ⟨o, h1, h1', h2⟩

/-- Splitting a dimension whose second factor is a power of two. -/
theorem pad_split {α : Type} (pad : α) (data : List α) (pre post : List ℕ) (a k : ℕ) (ha : 0 < a) (hpre : ∀ d ∈ pre, 0 < d) (hpost : ∀ d ∈ post, 0 < d)
    (hl : data.length = (pre ++ [a * 2 ^ k] ++ post).prod) :
    ∃ out, (⟨pre ++ [a * 2 ^ k] ++ post, data⟩ : Tensor α).padNextPow2 pad = some ⟨(pre ++ [a * 2 ^ k] ++ post).map nextPow2, out⟩ ∧
      (⟨pre ++ [a, 2 ^ k] ++ post, data⟩ : Tensor α).padNextPow2 pad = some ⟨(pre ++ [a, 2 ^ k] ++ post).map nextPow2, out⟩ ∧
      out.length = ((pre ++ [a * 2 ^ k] ++ post).map nextPow2).prod := by
  have hk : 0 < 2 ^ k := Nat.two_pow_pos k
  refine pad_same pad data _ _ (by simp) (by simp) ?_ ?_ hl ?_ ?_ ?_
  · intro d hd
    simp only [List.mem_append, List.mem_singleton] at hd
    rcases hd with (h | rfl) | h
    exacts [hpre d h, Nat.mul_pos ha hk, hpost d h]
  · intro d hd
    simp only [List.mem_append, List.mem_cons, List.not_mem_nil, or_false] at hd
    rcases hd with (h | rfl | rfl) | h
    exacts [hpre d h, ha, hk, hpost d h]
  · rw [hl]; simp [mul_assoc]
  · simp [nextPow2_mul_pow a k ha, nextPow2_pow, mul_assoc]
  · intro c' hc'
    simp only [List.map_append, List.map_cons, List.map_nil, nextPow2_mul_pow a k ha, nextPow2_pow] at hc' ⊢
    obtain ⟨xy, z, rfl, hxy, hz⟩ := (inRange_append _ _ _).1 hc'
    obtain ⟨x, y, rfl, hx, hy⟩ := (inRange_append _ _ _).1 hxy
    obtain ⟨i, w, rfl, hi, hw⟩ := (inRange_cons _ _ _).1 hy
    obtain ⟨j, w, rfl, hj, hw⟩ := (inRange_cons _ _ _).1 hw
    rw [inRange_nil] at hw
    subst hw
    have lx : pre.length = x.length := by rw [inRange_length hx]; simp
    have lx' : (pre.map nextPow2).length = x.length := by simpa using lx
    refine ⟨x ++ [i * 2 ^ k + j] ++ z, ?_, ?_, ?_, ?_⟩
    · rw [inRange_append_iff _ _ _ _ (by simp [lx]), inRange_append_iff _ _ _ _ lx']
      refine ⟨⟨hx, (inRange_cons_cons _ _ _ _).2 ⟨?_, (inRange_nil _).2 rfl⟩⟩, hz⟩
      have := Nat.mul_le_mul_right (2 ^ k) (Nat.succ_le_of_lt hi)
      rw [Nat.succ_mul] at this
      omega
    · rw [flat_append (pre.map nextPow2 ++ [_]) (x ++ [_]) _ _ (by simp [lx]), flat_append (pre.map nextPow2 ++ [_, _]) (x ++ [_, _]) _ _ (by simp [lx]),
        flat_append _ _ [_] [_] lx', flat_append _ _ [_, _] [_, _] lx']
      simp [flat]
    · rw [inRange_append_iff _ _ _ _ (by simp [lx]), inRange_append_iff _ _ _ _ lx, inRange_append_iff _ _ _ _ (by simp [lx]),
        inRange_append_iff _ _ _ _ lx]
      simp only [inRange_cons_cons, inRange_nil, and_true, hj]
      have : i * 2 ^ k + j < a * 2 ^ k ↔ i < a := by
        constructor
        · intro h
          by_contra hc
          have := Nat.mul_le_mul_right (2 ^ k) (not_lt.1 hc)
          omega
        · intro h
          have := Nat.mul_le_mul_right (2 ^ k) (Nat.succ_le_of_lt h)
          rw [Nat.succ_mul] at this
          omega
      rw [this]
    · intro _
      rw [flat_append (pre ++ [_]) (x ++ [_]) _ _ (by simp [lx]), flat_append (pre ++ [_, _]) (x ++ [_, _]) _ _ (by simp [lx]),
        flat_append _ _ [_] [_] lx, flat_append _ _ [_, _] [_, _] lx]
      simp [flat]

/-- Inserting a dimension of size one. -/
theorem pad_squeeze {α : Type} (pad : α) (data : List α) (pre post : List ℕ) (hne : pre ++ post ≠ []) (hpre : ∀ d ∈ pre, 0 < d) (hpost : ∀ d ∈ post, 0 < d)
    (hl : data.length = (pre ++ post).prod) :
    ∃ out, (⟨pre ++ post, data⟩ : Tensor α).padNextPow2 pad = some ⟨(pre ++ post).map nextPow2, out⟩ ∧
      (⟨pre ++ 1 :: post, data⟩ : Tensor α).padNextPow2 pad = some ⟨(pre ++ 1 :: post).map nextPow2, out⟩ ∧
      out.length = ((pre ++ post).map nextPow2).prod := by
  have h1 : nextPow2 1 = 1 := nextPow2_pow 0
  refine pad_same pad data _ _ hne (by simp) ?_ ?_ hl ?_ ?_ ?_
  · intro d hd
    rcases List.mem_append.1 hd with h | h
    exacts [hpre d h, hpost d h]
  · intro d hd
    simp only [List.mem_append, List.mem_cons] at hd
    rcases hd with h | rfl | h
    exacts [hpre d h, by omega, hpost d h]
  · rw [hl]; simp
  · simp [h1]
  · intro c' hc'
    simp only [List.map_append, List.map_cons, h1] at hc' ⊢
    obtain ⟨x, y, rfl, hx, hy⟩ := (inRange_append _ _ _).1 hc'
    obtain ⟨i, z, rfl, hi, hz⟩ := (inRange_cons _ _ _).1 hy
    have lx : pre.length = x.length := by rw [inRange_length hx]; simp
    have lx' : (pre.map nextPow2).length = x.length := by simpa using lx
    have hi0 : i = 0 := by omega
    subst hi0
    refine ⟨x ++ z, (inRange_append_iff _ _ _ _ lx').2 ⟨hx, hz⟩, ?_, ?_, ?_⟩
    · rw [flat_append _ _ _ z lx', flat_append _ _ _ (0 :: z) lx']
      simp [flat]
    · rw [inRange_append_iff _ _ _ _ lx, inRange_append_iff _ _ _ _ lx, inRange_cons_cons]
      simp
    · intro _
      rw [flat_append _ _ _ z lx, flat_append _ _ _ (0 :: z) lx]
      simp [flat]

end Lemmas
