import Verif.Lemmas.Mle
import Verif.Model.Eq

namespace Lemmas
open Spec Model Finset

variable {F : Type} [Field F]

theorem eqStep_length (r : F) (buf : List F) (j : ℕ) : (eqStep r buf j).length = buf.length := by
  simp [eqStep]

theorem eqStep_getD (r : F) (buf : List F) (j b : ℕ) (h : 2 * j + 1 < buf.length) :
    (eqStep r buf j).getD b 0 =
      if b = 2 * j then buf.getD j 0 - r * buf.getD j 0
      else if b = 2 * j + 1 then r * buf.getD j 0 else buf.getD b 0 := by
  unfold eqStep
  simp only
  rw [getD_set _ _ _ _ _ (by simp; omega), getD_set _ _ _ _ _ h]

/-- Descending inner loop: after handling `j = s-1, ..., s-m`. -/
theorem eqRound_aux (r : F) (buf : List F) (s m : ℕ) (hm : m ≤ s) (h : 2 * s ≤ buf.length) :
    let out := ((List.range' (s - m) m).reverse.foldl (eqStep r) buf)
    out.length = buf.length ∧ ∀ b, out.getD b 0 =
      if 2 * (s - m) ≤ b ∧ b < 2 * s then
        (if b % 2 = 1 then r else 1 - r) * buf.getD (b / 2) 0
      else buf.getD b 0 := by
  induction m with
  | zero =>
    simp only [Nat.sub_zero, List.range'_zero, List.reverse_nil, List.foldl_nil, true_and]
    intro b
    rw [if_neg (by omega)]
  | succ m ih =>
    obtain ⟨ih1, ih2⟩ := ih (by omega)
    have hr : List.range' (s - (m + 1)) (m + 1) = (s - (m + 1)) :: List.range' (s - m) m := by
      rw [List.range'_succ]; congr 2; omega
    simp only [hr, List.reverse_cons, List.foldl_append, List.foldl_cons, List.foldl_nil]
    generalize hout : (List.range' (s - m) m).reverse.foldl (eqStep r) buf = out at *
    refine ⟨by rw [eqStep_length, ih1], ?_⟩
    intro b
    rw [eqStep_getD _ _ _ _ (by omega)]
    have hj := ih2 (s - (m + 1))
    have hb := ih2 b
    rw [if_neg (by omega)] at hj
    rw [hj, hb]
    by_cases h1 : b = 2 * (s - (m + 1))
    · rw [if_pos h1, if_pos (by omega)]
      have : b % 2 = 0 := by omega
      have h3 : b / 2 = s - (m + 1) := by omega
      rw [this, h3]; simp; ring
    · rw [if_neg h1]
      by_cases h2 : b = 2 * (s - (m + 1)) + 1
      · rw [if_pos h2, if_pos (by omega)]
        have : b % 2 = 1 := by omega
        have h3 : b / 2 = s - (m + 1) := by omega
        rw [this, h3]; simp
      · rw [if_neg h2]
        by_cases h4 : 2 * (s - m) ≤ b ∧ b < 2 * s
        · rw [if_pos h4, if_pos (show 2 * (s - (m + 1)) ≤ b ∧ b < 2 * s by omega)]
        · rw [if_neg h4, if_neg (show ¬ (2 * (s - (m + 1)) ≤ b ∧ b < 2 * s) by omega)]

theorem eqRound_spec (r : F) (i : ℕ) (buf : List F) (h : 2 ^ (i + 1) ≤ buf.length) :
    (eqRound r i buf).length = buf.length ∧ ∀ b, b < 2 ^ (i + 1) → (eqRound r i buf).getD b 0 =
        (if b % 2 = 1 then r else 1 - r) * buf.getD (b / 2) 0 := by
  have hp : 2 ^ (i + 1) = 2 * 2 ^ i := by rw [pow_succ]; ring
  have := eqRound_aux r buf (2 ^ i) (2 ^ i) le_rfl (by omega)
  simp only [Nat.sub_self, ← List.range_eq_range'] at this
  refine ⟨this.1, ?_⟩
  intro b hb
  have h2 := this.2 b
  rw [if_pos (by omega)] at h2
  exact h2

theorem eqHelper_aux (rr : List F) (s : ℕ) (rs : List F) (hs : rs.length = s) (buf : List F)
    (init : F) (hl : 2 ^ (s + rr.length) ≤ buf.length)
    (hb : ∀ b < 2 ^ s, buf.getD b 0 = init * chi rs b) :
    let out := (rr.zipIdx s).foldl (fun b ri => eqRound ri.1 ri.2 b) buf
    out.length = buf.length ∧
    ∀ b < 2 ^ (s + rr.length), out.getD b 0 = init * chi (rr.reverse ++ rs) b := by
  induction rr generalizing s rs buf with
  | nil => simpa using hb
  | cons r rr ih =>
    have hle : 2 ^ (s + 1) ≤ buf.length := by
      refine le_trans (Nat.pow_le_pow_right (by norm_num) ?_) hl
      simp
    obtain ⟨h1, h2⟩ := eqRound_spec r s buf hle
    have := ih (s + 1) (r :: rs) (by simp [hs]) (eqRound r s buf)
      (by rw [h1]; simpa [add_assoc, add_comm 1] using hl)
      (by
        intro b hb'
        rw [h2 b hb', hb (b / 2) (by rw [pow_succ] at hb'; omega), chi_cons]
        ring)
    simp only [List.zipIdx_cons, List.foldl_cons, List.reverse_cons, List.append_assoc,
      List.singleton_append, List.length_cons]
    rw [← add_assoc, add_right_comm]
    exact ⟨this.1.trans h1, this.2⟩

theorem eqHelper_spec (r : List F) (buf : List F) (init : F) (hl : buf.length = 2 ^ r.length) :
    (eqHelper r buf init).length = 2 ^ r.length ∧
    ∀ b < 2 ^ r.length, (eqHelper r buf init).getD b 0 = init * chi r b := by
  have hpos : 0 < buf.length := by rw [hl]; positivity
  have := eqHelper_aux r.reverse 0 [] rfl (buf.set 0 init) init (by simp [hl]) (by
    intro b hb
    have : b = 0 := by simpa using hb
    subst this
    rw [getD_set _ _ _ _ _ hpos]; simp [chi_nil])
  simp only [List.reverse_reverse, List.append_nil, List.length_reverse, zero_add,
    List.length_set] at this
  exact ⟨this.1.trans hl, this.2⟩

theorem chi_table (r : List F) (l : List F) (hl : l.length = 2 ^ r.length)
    (h : ∀ b < 2 ^ r.length, l.getD b 0 = chi r b) : l = (List.range (2 ^ r.length)).map (chi r) := by
  apply list_ext_getD 0
  · simp [hl]
  · intro j hj
    rw [hl] at hj
    rw [h j hj]
    simp [List.getD_eq_getElem?_getD, hj]

theorem buildEqSeq_spec (r : List F) (g : List F) (hg : g.length = 2 ^ r.length) :
    buildEqSeq r g = (List.range (2 ^ r.length)).map (chi r) := by
  unfold buildEqSeq
  by_cases hr : r = []
  · subst hr; simp [chi_nil]
  · rw [if_neg hr]
    obtain ⟨h1, h2⟩ := eqHelper_spec r g 1 hg
    exact chi_table r _ h1 (by intro b hb; rw [h2 b hb, one_mul])

theorem getD_map_range (f : ℕ → F) (n j : ℕ) (h : j < n) :
    ((List.range n).map f).getD j 0 = f j := by
  simp [List.getD_eq_getElem?_getD, h]

theorem range_mul_flatten (f : ℕ → F) (m n : ℕ) :
    ((List.range m).map fun i => (List.range n).map fun j => f (j + n * i)).flatten
      = (List.range (n * m)).map f := by
  induction m with
  | zero => simp
  | succ m ih =>
    rw [List.range_succ, List.map_append, List.flatten_append, ih, Nat.mul_succ, List.range_add,
      List.map_append]
    simp only [List.map_cons, List.map_nil, List.flatten_cons, List.flatten_nil, List.append_nil,
      List.map_map]
    congr 1
    apply List.map_congr_left
    intro a _
    simp [add_comm]

theorem buildEqPar_spec (nbits : ℕ) (r : List F) (gT : List F) (g : ℕ → List F)
    (hgT : gT.length = 2 ^ min nbits r.length)
    (hg : ∀ tid, (g tid).length = 2 ^ (r.length - nbits)) :
    buildEqPar nbits r gT g = (List.range (2 ^ r.length)).map (chi r) := by
  unfold buildEqPar
  by_cases hr : r = []
  · subst hr; simp [chi_nil]
  rw [if_neg hr]
  by_cases hlt : r.length < nbits
  · rw [if_pos hlt]
    exact buildEqSeq_spec r gT (by rw [hgT, min_eq_right hlt.le])
  rw [if_neg hlt]
  push Not at hlt
  have hd : (r.drop (r.length - nbits)).length = nbits := by simp; omega
  have htk : (r.take (r.length - nbits)).length = r.length - nbits := by simp
  simp only
  rw [buildEqSeq_spec _ gT (by rw [hgT, hd, min_eq_left hlt]), hd]
  have key : ∀ tid ∈ List.range (2 ^ nbits),
      eqHelper (r.take (r.length - nbits)) (g tid)
        (((List.range (2 ^ nbits)).map (chi (r.drop (r.length - nbits)))).getD tid 0)
      = (List.range (2 ^ (r.length - nbits))).map
          fun j => chi r (j + 2 ^ (r.length - nbits) * tid) := by
    intro tid htid
    have htid' : tid < 2 ^ nbits := List.mem_range.mp htid
    rw [getD_map_range _ _ _ htid']
    obtain ⟨h1, h2⟩ := eqHelper_spec (r.take (r.length - nbits)) (g tid)
      (chi (r.drop (r.length - nbits)) tid) (by rw [hg, htk])
    rw [htk] at h1 h2
    apply list_ext_getD 0
    · simp [h1]
    intro j hj
    rw [h1] at hj
    rw [h2 j hj, getD_map_range _ _ _ hj]
    have hsplit : ∀ X, chi r X
        = chi (r.take (r.length - nbits) ++ r.drop (r.length - nbits)) X := by
      intro X; rw [List.take_append_drop]
    rw [hsplit, chi_append, htk]
    have e1 := chi_add_mul (r.take (r.length - nbits)) j tid
    rw [htk] at e1
    rw [e1, Nat.add_mul_div_left _ _ (by positivity), Nat.div_eq_of_lt hj, zero_add, mul_comm]
  rw [List.map_congr_left key, range_mul_flatten, ← pow_add]
  congr 3
  omega

/-! ### compute_betas_eval -/

theorem betas_inner (x : F) (temp betas : List F) (s k : ℕ) (hk : k ≤ s) (h : 2 * s ≤ betas.length) :
    let out := (List.range k).foldl (betasStep x temp) betas
    out.length = betas.length ∧ ∀ b, out.getD b 0 =
      if b < 2 * k then (if b % 2 = 1 then x else 1 - x) * temp.getD (b / 2) 0
      else betas.getD b 0 := by
  induction k with
  | zero => simp
  | succ k ih =>
    obtain ⟨h1, h2⟩ := ih (by omega)
    simp only [foldl_range_succ]
    generalize (List.range k).foldl (betasStep x temp) betas = out at *
    refine ⟨by simp [betasStep, h1], ?_⟩
    intro b
    unfold betasStep
    simp only
    rw [getD_set _ _ _ _ _ (by simp; omega), getD_set _ _ _ _ _ (by omega), h2]
    by_cases e1 : b = 2 * k + 1
    · rw [if_pos e1, if_pos (by omega), if_pos (by omega)]
      rw [show b / 2 = k by omega]
    · rw [if_neg e1]
      by_cases e2 : b = 2 * k
      · rw [if_pos e2, if_pos (by omega), if_neg (by omega), show b / 2 = k by omega]; ring
      · rw [if_neg e2]
        by_cases e3 : b < 2 * k
        · rw [if_pos e3, if_pos (show b < 2 * (k + 1) by omega)]
        · rw [if_neg e3, if_neg (show ¬ b < 2 * (k + 1) by omega)]

theorem computeBetas_spec (r : List F) :
    computeBetas r = (List.range (2 ^ r.length)).map (chi r) := by
  have key : ∀ k ≤ r.length,
      let out := (List.range k).foldl
        (fun betas i => (List.range (2 ^ i)).foldl
          (betasStep (r.getD (r.length - 1 - i) 0) (betas.take (2 ^ i))) betas)
        ((List.replicate (2 ^ r.length) (0 : F)).set 0 1)
      out.length = 2 ^ r.length ∧ ∀ b < 2 ^ k, out.getD b 0 = chi (r.drop (r.length - k)) b := by
    intro k
    induction k with
    | zero =>
      intro _
      simp only [List.range_zero, List.foldl_nil, List.length_set, List.length_replicate, true_and,
        Nat.sub_zero, List.drop_length, chi_nil, pow_zero]
      intro b hb
      have : b = 0 := by omega
      subst this
      rw [getD_set _ _ _ _ _ (by simp)]
      simp
    | succ k ih =>
      intro hk
      obtain ⟨h1, h2⟩ := ih (by omega)
      simp only [foldl_range_succ]
      generalize (List.range k).foldl
        (fun betas i => (List.range (2 ^ i)).foldl
          (betasStep (r.getD (r.length - 1 - i) 0) (betas.take (2 ^ i))) betas)
        ((List.replicate (2 ^ r.length) (0 : F)).set 0 1) = out at *
      have hp : 2 ^ (k + 1) = 2 * 2 ^ k := by rw [pow_succ]; ring
      have hle : 2 ^ (k + 1) ≤ 2 ^ r.length := Nat.pow_le_pow_right (by norm_num) hk
      obtain ⟨g1, g2⟩ := betas_inner (r.getD (r.length - 1 - k) 0) (out.take (2 ^ k)) out (2 ^ k)
        (2 ^ k) le_rfl (by omega)
      refine ⟨g1.trans h1, ?_⟩
      intro b hb
      rw [g2 b, if_pos (by omega), getD_take _ _ _ _ (by omega), h2 _ (by omega)]
      have hlt : r.length - (k + 1) < r.length := by omega
      rw [List.drop_eq_getElem_cons hlt, chi_cons, show r.length - (k + 1) + 1 = r.length - k by omega]
      congr 1
      have : r.getD (r.length - 1 - k) 0 = r[r.length - (k + 1)] := by
        rw [show r.length - 1 - k = r.length - (k + 1) by omega]
        simp [List.getD_eq_getElem?_getD, hlt]
      rw [this]
  obtain ⟨h1, h2⟩ := key r.length le_rfl
  simp only [Nat.sub_self, List.drop_zero] at h2
  exact chi_table r _ h1 h2

/-! ### eq evaluations -/

theorem foldl_mul_eq (g : F × F → F) (l : List (F × F)) (a : F) :
    l.foldl (fun res p => res * g p) a = a * (l.map g).prod := by
  induction l generalizing a with
  | nil => simp
  | cons x xs ih => simp [ih, mul_assoc]

theorem eqPoly_zip (x y : List F) (g : F × F → F)
    (hg : ∀ p, g p = p.1 * p.2 + (1 - p.1) * (1 - p.2)) :
    ((x.zip y).map g).prod = eqPoly x y := by
  induction x generalizing y with
  | nil => simp [eqPoly]
  | cons a x ih =>
    cases y with
    | nil => simp [eqPoly]
    | cons b y => simp [eqPoly, ih, hg]

/-- `eq` of two points is the sum over the hypercube of the product of the indicators. -/
theorem eqPoly_eq_sum (x y : List F) (h : x.length = y.length) :
    eqPoly x y = ∑ b ∈ range (2 ^ x.length), chi x b * chi y b := by
  induction x generalizing y with
  | nil =>
    have : y = [] := List.length_eq_zero_iff.mp h.symm
    subst this; simp [eqPoly, chi_nil]
  | cons a x ih =>
    cases y with
    | nil => simp at h
    | cons b y =>
      rw [eqPoly, ih y (by simpa using h), List.length_cons, pow_succ, mul_comm (2 ^ _) 2,
        sum_range_two_mul, Finset.mul_sum]
      apply Finset.sum_congr rfl
      intro j _
      rw [chi_cons, chi_cons, chi_cons, chi_cons]
      have h1 : (2 * j) % 2 = 0 := by omega
      have h2 : (2 * j + 1) % 2 = 1 := by omega
      have h3 : (2 * j) / 2 = j := by omega
      have h4 : (2 * j + 1) / 2 = j := by omega
      rw [h1, h2, h3, h4]
      simp
      ring

theorem sum_map_range (f : ℕ → F) (n : ℕ) :
    ((List.range n).map f).sum = ∑ i ∈ range n, f i := by
  induction n with
  | zero => simp
  | succ n ih => rw [List.range_succ, List.map_append, List.sum_append, ih, Finset.sum_range_succ]; simp

theorem sum_chi (r : List F) : ∑ b ∈ range (2 ^ r.length), chi r b = 1 := by
  induction r with
  | nil => simp [chi_nil]
  | cons a x ih =>
    rw [List.length_cons, pow_succ, mul_comm (2 ^ _) 2, sum_range_two_mul, ← ih]
    apply Finset.sum_congr rfl
    intro j _
    rw [chi_cons, chi_cons]
    have h1 : (2 * j) % 2 = 0 := by omega
    have h2 : (2 * j + 1) % 2 = 1 := by omega
    have h3 : (2 * j) / 2 = j := by omega
    have h4 : (2 * j + 1) / 2 = j := by omega
    rw [h1, h2, h3, h4]
    simp
    ring

theorem eqPoly_bits (n b c : ℕ) (hb : b < 2 ^ n) (hc : c < 2 ^ n) :
    eqPoly (bitsPoint n b : List F) (bitsPoint n c) = if b = c then 1 else 0 := by
  rw [eqPoly_eq_sum _ _ (by simp [bitsPoint]), bitsPoint_length, Finset.sum_eq_single b]
  · rw [chi_bitsPoint n b b hb hb, chi_bitsPoint n c b hc hb]; simp
  · intro d hd hne
    rw [chi_bitsPoint n b d hb (Finset.mem_range.mp hd), if_neg hne, zero_mul]
  · intro h; exact absurd (Finset.mem_range.mpr hb) h

theorem eqEval_eq (x y : List F) (h : x.length = y.length) : eqEval x y = some (eqPoly x y) := by
  unfold eqEval
  rw [if_pos h, foldl_mul_eq (fun p => p.1 * p.2 + p.1 * p.2 - p.1 - p.2 + 1), one_mul,
    eqPoly_zip x y _ (by intro p; ring)]

theorem identityEval_eq (x y : List F) :
    identityEval x y =
      eqPoly (x.take (min x.length y.length)) (y.take (min x.length y.length)) := by
  unfold identityEval
  simp only
  rw [foldl_mul_eq (fun p => p.1 * p.2 + (1 - p.1) * (1 - p.2)), one_mul,
    eqPoly_zip _ _ _ (by intro p; ring)]

theorem identityEval_eq' (x y : List F) (h : x.length = y.length) :
    identityEval x y = eqPoly x y := by
  rw [identityEval_eq, ← h, min_self, List.take_length, h, List.take_length]

theorem eqXYEval_eq (x y : List F) (hx : x ≠ []) (h : x.length = y.length) :
    eqXYEval x y = some (eqPoly x y) := by
  unfold eqXYEval
  rw [if_pos ⟨hx, h⟩, eqPoly_zip x y _ (by intro p; ring)]

end Lemmas
