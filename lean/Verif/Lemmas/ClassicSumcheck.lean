import Verif.Model.BasefoldBatch
import Verif.Lemmas.BasefoldSound

/-! The sumcheck in coefficient form that batches the claims of an opening. -/

open Spec Model

namespace Lemmas

variable {F : Type} [Field F]

/-! ### One product -/

theorem karatsubaSerial_eq : ∀ (n : ℕ) (l r : List F) (acc : F × F), 2 * n ≤ l.length → 2 * n ≤ r.length →
    karatsubaSerial l r n acc = (acc.1 + ∑ i ∈ Finset.range n, l.getD (2 * i) 0 * r.getD (2 * i) 0,
      acc.2 + ∑ i ∈ Finset.range n, (l.getD (2 * i + 1) 0 - l.getD (2 * i) 0) * (r.getD (2 * i + 1) 0 - r.getD (2 * i) 0)) := by
  intro n
  induction n with
  | zero => intro l r acc _ _; rcases l with _ | ⟨a, _ | ⟨b, l⟩⟩ <;> simp [karatsubaSerial]
  | succ n ih =>
    intro l r acc hl hr
    obtain ⟨l0, l1, ls, rfl⟩ : ∃ l0 l1 ls, l = l0 :: l1 :: ls := by
      rcases l with _ | ⟨a, _ | ⟨b, l⟩⟩
      · simp at hl
      · simp at hl; omega
      · exact ⟨a, b, l, rfl⟩
    obtain ⟨r0, r1, rs, rfl⟩ : ∃ l0 l1 ls, r = l0 :: l1 :: ls := by
      rcases r with _ | ⟨a, _ | ⟨b, l⟩⟩
      · simp at hr
      · simp at hr; omega
      · exact ⟨a, b, l, rfl⟩
    simp only [karatsubaSerial]
    simp only [List.length_cons] at hl hr
    rw [ih ls rs _ (by omega) (by omega)]
    have e : ∀ (a b : F) (t : List F) (i : ℕ), (a :: b :: t).getD (2 * (i + 1)) 0 = t.getD (2 * i) 0 := by
      intro a b t i; rw [show 2 * (i + 1) = 2 * i + 1 + 1 by ring, List.getD_cons_succ, List.getD_cons_succ]
    have e' : ∀ (a b : F) (t : List F) (i : ℕ), (a :: b :: t).getD (2 * (i + 1) + 1) 0 = t.getD (2 * i + 1) 0 := by
      intro a b t i; rw [show 2 * (i + 1) + 1 = 2 * i + 1 + 1 + 1 by ring, List.getD_cons_succ, List.getD_cons_succ]
    rw [Finset.sum_range_succ', Finset.sum_range_succ']
    simp only [e, e', mul_zero, zero_add, List.getD_cons_zero, List.getD_cons_succ]
    refine Prod.ext ?_ ?_ <;> simp only <;> ring

theorem karatsubaSizes_eq (r w : ℕ) (h : w ≤ r) : karatsubaSizes (2 ^ r) (2 ^ (w + 1)) = (2 ^ w, 2 ^ (r - w)) := by
  have hp : 2 ^ (w + 1) = 2 * 2 ^ w := by rw [pow_succ]; ring
  have hpos := Nat.two_pow_pos w
  unfold karatsubaSizes
  by_cases h1 : r = w
  · subst h1
    rw [if_pos (Or.inl (by omega)), Nat.sub_self, pow_zero]
  · have hle : 2 ^ (w + 1) ≤ 2 ^ r := Nat.pow_le_pow_right (by omega) (by omega)
    rw [if_neg (by omega)]
    by_cases h2 : r = w + 1
    · subst h2
      rw [if_pos rfl, show w + 1 - w = 1 by omega, hp]
      simp
    · have hlt : 2 ^ (w + 1) < 2 ^ r := Nat.pow_lt_pow_right (by omega) (by omega)
      rw [if_neg (by omega), show 2 ^ (w + 1) / 2 = 2 ^ w by omega, if_pos (by omega), Nat.pow_div h (by omega)]

/-- A product of two tables of the same size, of at most `rem` variables. -/
structure TermOk (rem : ℕ) (t : ProductTerm F) : Prop where
  same : t.poly.numVars = t.eq.numVars
  eqLen : t.eq.evals.length = 2 ^ t.eq.numVars
  polyLen : t.poly.evals.length = 2 ^ t.eq.numVars
  le : t.eq.numVars ≤ rem

/-- The sum of a product over the cube of `rem` variables. -/
def termSum (rem : ℕ) (t : ProductTerm F) : F :=
  t.scalar * (2 ^ (rem - t.eq.numVars) * dotN (2 ^ t.eq.numVars) t.eq.evals t.poly.evals)

/-- The product with its first variable fixed. -/
def termFix (c : F) (t : ProductTerm F) : ProductTerm F :=
  if t.eq.numVars = 0 then t
  else ⟨t.scalar, ⟨t.eq.numVars - 1, chunkFix c t.eq.evals⟩, ⟨t.eq.numVars - 1, chunkFix c t.poly.evals⟩⟩

theorem fixUnlessConstant_eq (m : Mle F) (hm : m.evals.length = 2 ^ m.numVars) (h : 0 < m.numVars) (c : F) :
    fixUnlessConstant m c = some ⟨m.numVars - 1, chunkFix c m.evals⟩ := by
  unfold fixUnlessConstant
  rw [if_pos h, fixVariablesInPlace_eq m hm [c] (by simp; omega)]
  rfl

theorem nextTerm_eq (rem : ℕ) (first : Bool) (c : F) (t : ProductTerm F) (h : TermOk rem t) (hf : first = true → 0 < t.eq.numVars) :
    Model.nextTerm first c t = some (termFix c t) := by
  unfold Model.nextTerm termFix
  by_cases h0 : t.eq.numVars = 0
  · have hff : first = false := by
      rcases first with _ | _
      · rfl
      · have := hf rfl; omega
    rw [if_pos h0, hff]
    unfold fixPoly fixUnlessConstant
    rw [if_neg (by omega), if_neg (by simp), if_neg (by rw [h.same]; omega)]
    rfl
  · rw [if_neg h0, fixUnlessConstant_eq t.eq h.eqLen (by omega)]
    have hp : t.poly.evals.length = 2 ^ t.poly.numVars := by rw [h.polyLen, h.same]
    have : fixPoly first t.poly c = some ⟨t.eq.numVars - 1, chunkFix c t.poly.evals⟩ := by
      unfold fixPoly
      rcases first with _ | _
      · rw [if_neg (by simp), fixUnlessConstant_eq t.poly hp (by rw [h.same]; omega), h.same]
      · rw [if_pos rfl, fixVariables_eq t.poly hp [c] (by rw [h.same]; simp; omega), h.same]
        rfl
    rw [this]
    rfl

theorem termFix_ok (rem : ℕ) (c : F) (t : ProductTerm F) (h : TermOk (rem + 1) t) : TermOk rem (termFix c t) := by
  unfold termFix
  by_cases h0 : t.eq.numVars = 0
  · rw [if_pos h0]
    exact ⟨h.same, h.eqLen, h.polyLen, by omega⟩
  · rw [if_neg h0]
    obtain ⟨v, hv⟩ : ∃ v, t.eq.numVars = v + 1 := ⟨t.eq.numVars - 1, by omega⟩
    have h1 := h.eqLen
    have h2 := h.polyLen
    have h3 := h.le
    rw [hv] at h1 h2
    refine ⟨rfl, ?_, ?_, ?_⟩
    · simp only [hv, Nat.add_sub_cancel]; exact chunkFix_pow_length _ _ _ h1
    · simp only [hv, Nat.add_sub_cancel]; exact chunkFix_pow_length _ _ _ h2
    · simp only; omega

theorem dotN_pairs (w : ℕ) (l r : List F) (hl : l.length = 2 ^ (w + 1)) (hr : r.length = 2 ^ (w + 1)) :
    dotN (2 ^ (w + 1)) l r
      = 2 * (∑ i ∈ Finset.range (2 ^ w), l.getD (2 * i) 0 * r.getD (2 * i) 0)
        + (∑ i ∈ Finset.range (2 ^ w), ((l.getD (2 * i + 1) 0 - l.getD (2 * i) 0) * r.getD (2 * i) 0 + l.getD (2 * i) 0 * (r.getD (2 * i + 1) 0 - r.getD (2 * i) 0)))
        + ∑ i ∈ Finset.range (2 ^ w), (l.getD (2 * i + 1) 0 - l.getD (2 * i) 0) * (r.getD (2 * i + 1) 0 - r.getD (2 * i) 0) ∧
    ∀ c, dotN (2 ^ w) (chunkFix c l) (chunkFix c r)
      = (∑ i ∈ Finset.range (2 ^ w), l.getD (2 * i) 0 * r.getD (2 * i) 0)
        + c * (∑ i ∈ Finset.range (2 ^ w), ((l.getD (2 * i + 1) 0 - l.getD (2 * i) 0) * r.getD (2 * i) 0 + l.getD (2 * i) 0 * (r.getD (2 * i + 1) 0 - r.getD (2 * i) 0)))
        + c * c * ∑ i ∈ Finset.range (2 ^ w), (l.getD (2 * i + 1) 0 - l.getD (2 * i) 0) * (r.getD (2 * i + 1) 0 - r.getD (2 * i) 0) := by
  have hp : 2 ^ (w + 1) = 2 * 2 ^ w := by rw [pow_succ]; ring
  constructor
  · unfold dotN
    rw [hp, sum_range_two_mul, Finset.mul_sum, ← Finset.sum_add_distrib, ← Finset.sum_add_distrib]
    refine Finset.sum_congr rfl fun i _ => ?_
    ring
  · intro c
    unfold dotN
    rw [Finset.mul_sum, Finset.mul_sum, ← Finset.sum_add_distrib, ← Finset.sum_add_distrib]
    refine Finset.sum_congr rfl fun i _ => ?_
    rw [chunkFix_getD c l (by omega), chunkFix_getD c r (by omega)]
    ring

theorem karatsuba_spec (r : ℕ) (t : ProductTerm F) (h : TermOk (r + 1) t) :
    ∃ k0 k1 k2, karatsuba (2 ^ r) t.eq t.poly = some (k0, k2) ∧ termSum (r + 1) t = t.scalar * (2 * k0 + k1 + k2) ∧
      ∀ c, termSum r (termFix c t) = t.scalar * (k0 + c * k1 + c * c * k2) := by
  have h1 := h.eqLen
  have h2 := h.polyLen
  have h3 := h.le
  unfold karatsuba
  by_cases h0 : t.eq.numVars = 0
  · rw [h0, pow_zero] at h1 h2
    obtain ⟨a, ha⟩ := List.length_eq_one_iff.mp h1
    obtain ⟨b, hb⟩ := List.length_eq_one_iff.mp h2
    refine ⟨a * b * (2 ^ r : ℕ), 0, 0, ?_, ?_, ?_⟩
    · rw [if_pos (by rw [h0, pow_zero]), ha, hb]; simp
    · unfold termSum dotN
      rw [h0, ha, hb]
      simp [pow_succ]
      left; ring
    · intro c
      unfold termFix
      rw [if_pos h0]
      unfold termSum dotN
      rw [h0, ha, hb]
      simp
      left; ring
  · obtain ⟨w, hw⟩ : ∃ w, t.eq.numVars = w + 1 := ⟨t.eq.numVars - 1, by omega⟩
    have hp : 2 ^ (w + 1) = 2 * 2 ^ w := by rw [pow_succ]; ring
    have hpos := Nat.two_pow_pos w
    rw [hw] at h1 h2
    obtain ⟨d1, d2⟩ := dotN_pairs w t.eq.evals t.poly.evals h1 h2
    rw [if_neg (by rw [hw]; omega), hw, karatsubaSizes_eq r w (by omega)]
    dsimp only
    rw [karatsubaSerial_eq (2 ^ w) _ _ _ (by omega) (by omega)]
    dsimp only
    refine ⟨_, 2 ^ (r - w) * (∑ i ∈ Finset.range (2 ^ w), ((t.eq.evals.getD (2 * i + 1) 0 - t.eq.evals.getD (2 * i) 0) * t.poly.evals.getD (2 * i) 0
      + t.eq.evals.getD (2 * i) 0 * (t.poly.evals.getD (2 * i + 1) 0 - t.poly.evals.getD (2 * i) 0))), _, rfl, ?_, ?_⟩
    · unfold termSum
      rw [hw, d1, show r + 1 - (w + 1) = r - w by omega]
      push_cast
      ring
    · intro c
      unfold termFix
      rw [if_neg h0]
      unfold termSum
      simp only [hw, Nat.add_sub_cancel]
      rw [d2 c]
      push_cast
      ring

/-! ### A round -/

theorem classicRound_spec (r : ℕ) (terms : List (ProductTerm F)) (h : ∀ t ∈ terms, TermOk (r + 1) t) :
    ∃ msg : List F, classicRound (2 ^ r) (terms.map (termSum (r + 1))).sum terms = some msg ∧
      msg[0]? = some (msg.getD 0 0) ∧
      (terms.map (termSum (r + 1))).sum = msg.getD 0 0 + msg.sum ∧
      ∀ c, horner msg c = (terms.map fun t => termSum r (termFix c t)).sum := by
  have key : ∀ (l : List (ProductTerm F)) (acc : F × F), (∀ t ∈ l, TermOk (r + 1) t) →
      ∃ s0 s1 s2, l.foldlM (fun (acc : F × F) t => do
          let k ← karatsuba (2 ^ r) t.eq t.poly
          some (acc.1 + t.scalar * k.1, acc.2 + t.scalar * k.2)) acc = some (acc.1 + s0, acc.2 + s2) ∧
        (l.map (termSum (r + 1))).sum = 2 * s0 + s1 + s2 ∧
        ∀ c, (l.map fun t => termSum r (termFix c t)).sum = s0 + c * s1 + c * c * s2 := by
    intro l
    induction l with
    | nil => intro acc _; exact ⟨0, 0, 0, by simp, by simp, by intro c; simp⟩
    | cons t l ih =>
      intro acc hl
      obtain ⟨k0, k1, k2, e1, e2, e3⟩ := karatsuba_spec r t (hl t (by simp))
      obtain ⟨s0, s1, s2, i1, i2, i3⟩ := ih (acc.1 + t.scalar * k0, acc.2 + t.scalar * k2) (fun t' ht' => hl t' (by simp [ht']))
      refine ⟨t.scalar * k0 + s0, t.scalar * k1 + s1, t.scalar * k2 + s2, ?_, ?_, ?_⟩
      · rw [List.foldlM_cons]
        simp only [e1, Option.bind_eq_bind, Option.bind_some]
        simp only [Option.bind_eq_bind] at i1
        rw [i1]
        simp only [add_assoc]
      · rw [List.map_cons, List.sum_cons, e2, i2]; ring
      · intro c
        rw [List.map_cons, List.sum_cons, e3, i3]; ring
  obtain ⟨s0, s1, s2, e1, e2, e3⟩ := key terms (0, 0) h
  refine ⟨[s0, (terms.map (termSum (r + 1))).sum - (s0 + s0) - s2, s2], ?_, rfl, ?_, ?_⟩
  · unfold classicRound
    rw [e1]
    simp
  · simp; ring
  · intro c
    rw [e3, e2]
    simp [horner]
    ring

variable [DecidableEq F]

/-! ### The protocol -/

theorem classicLoop_spec (T : Transcript F) : ∀ (r : ℕ) (first : Bool) (terms : List (ProductTerm F)) (ts : T.State),
    (∀ t ∈ terms, TermOk r t) → (first = true → ∀ t ∈ terms, 0 < t.eq.numVars) →
    ∃ msgs cs ts', classicLoop T r first (terms.map (termSum r)).sum terms ts = some (msgs, cs, ts') ∧ cs.length = r ∧
      classicChallenges T r msgs ts = some (cs, ts') ∧
      classicConsistency (terms.map (termSum r)).sum msgs cs
        = some (terms.map fun t => t.scalar * (mle t.eq.evals (cs.take t.eq.numVars) * mle t.poly.evals (cs.take t.eq.numVars))).sum := by
  intro r
  induction r with
  | zero =>
    intro first terms ts h _
    refine ⟨[], [], ts, rfl, rfl, rfl, ?_⟩
    simp only [classicConsistency]
    congr 2
    apply List.map_congr_left
    intro t ht
    have h0 : t.eq.numVars = 0 := by have := (h t ht).le; omega
    unfold termSum dotN
    rw [h0]
    simp [mle_nil]
  | succ r ih =>
    intro first terms ts h hf
    obtain ⟨msg, m1, m2, m3, m4⟩ := classicRound_spec r terms h
    obtain ⟨c, hc⟩ : ∃ c, c = T.labelled (T.appendExts ts msg) "sumcheck round" := ⟨_, rfl⟩
    have hnext : terms.mapM (Model.nextTerm first c.1) = some (terms.map (termFix c.1)) := by
      apply mapM_some'
      intro t ht
      exact nextTerm_eq (r + 1) first c.1 t (h t ht) (fun hfirst => hf hfirst t ht)
    obtain ⟨msgs, cs, ts', i1, i2, i3, i4⟩ := ih false (terms.map (termFix c.1)) c.2 (by
      intro t ht
      obtain ⟨t0, ht0, rfl⟩ := List.mem_map.mp ht
      exact termFix_ok r c.1 t0 (h t0 ht0)) (by intro h; cases h)
    have hsum : ((terms.map (termFix c.1)).map (termSum r)).sum = horner msg c.1 := by
      rw [m4, List.map_map]; rfl
    rw [hsum] at i1 i4
    refine ⟨msg :: msgs, c.1 :: cs, ts', ?_, by simp [i2], ?_, ?_⟩
    · simp only [classicLoop]
      rw [m1]
      simp only [Option.bind_eq_bind, Option.bind_some, ← hc]
      rw [hnext]
      simp only [Option.bind_some, i1]
    · simp only [classicChallenges, List.head?_cons, Option.bind_eq_bind, Option.bind_some, ← hc, List.tail_cons, i3]
    · simp only [classicConsistency]
      rw [m2]
      simp only [Option.bind_eq_bind, Option.bind_some]
      rw [if_pos m3, i4, List.map_map]
      congr 2
      apply List.map_congr_left
      intro t ht
      simp only [Function.comp]
      unfold termFix
      by_cases h0 : t.eq.numVars = 0
      · rw [if_pos h0, h0, List.take_zero, List.take_zero]
      · rw [if_neg h0]
        obtain ⟨w, hw⟩ : ∃ w, t.eq.numVars = w + 1 := ⟨t.eq.numVars - 1, by omega⟩
        have h1 := (h t ht).eqLen
        have h2 := (h t ht).polyLen
        rw [hw, pow_succ] at h1 h2
        simp only [hw, Nat.add_sub_cancel, List.take_succ_cons]
        rw [mle_cons _ (by omega), mle_cons _ (by omega)]

theorem classicProve_spec (T : Transcript F) (n : ℕ) (hn : 0 < n) (terms : List (ProductTerm F)) (ts : T.State)
    (h : ∀ t ∈ terms, TermOk n t) (hpos : ∀ t ∈ terms, 0 < t.eq.numVars) :
    ∃ msgs cs ts', classicProve T n (terms.map (termSum n)).sum terms ts = some (msgs, cs, ts') ∧ cs.length = n ∧
      classicVerify T n (terms.map (termSum n)).sum msgs ts
        = some ((terms.map fun t => t.scalar * (mle t.eq.evals (cs.take t.eq.numVars) * mle t.poly.evals (cs.take t.eq.numVars))).sum, cs, ts') := by
  obtain ⟨msgs, cs, ts', h1, h2, h3, h4⟩ := classicLoop_spec T n true terms ts h (fun _ => hpos)
  refine ⟨msgs, cs, ts', ?_, h2, ?_⟩
  · unfold classicProve
    rw [if_pos hn, h1]
  · unfold classicVerify
    rw [h3]
    simp only [Option.bind_eq_bind, Option.bind_some, h4]

end Lemmas
