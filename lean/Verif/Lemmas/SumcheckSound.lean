import Verif.Lemmas.SumcheckProto
import Mathlib.Algebra.Polynomial.Roots
import Mathlib.Data.Fintype.Pi
import Mathlib.Data.Fintype.BigOperators

namespace Lemmas
open Model Spec Polynomial

variable {F : Type} [Field F] [DecidableEq F]

/-- The polynomial through the values `p` at `0, 1, ...`. -/
noncomputable def msgPoly (p : List F) : F[X] :=
  Lagrange.interpolate (Finset.range p.length) (fun i : ℕ => (i : F)) (fun i => p.getD i 0)

theorem cast_injOn (D : ℕ) (hchar : ∀ k, 0 < k → k ≤ D → (k : F) ≠ 0) :
    Set.InjOn (fun i : ℕ => (i : F)) (Finset.range (D + 1)) := by
  intro a ha b hb hab
  simp only [Finset.coe_range, Set.mem_Iio] at ha hb
  by_contra hne
  rcases Nat.lt_or_ge a b with h | h
  · exact cast_ne_of_char D hchar a b h (by omega) hab
  · exact cast_ne_of_char D hchar b a (by omega) (by omega) hab.symm

theorem msgPoly_eval (D : ℕ) (hchar : ∀ k, 0 < k → k ≤ D → (k : F) ≠ 0) (p : List F)
    (hp : p.length = D + 1) (i : ℕ) (hi : i ≤ D) : (msgPoly p).eval (i : F) = p.getD i 0 := by
  unfold msgPoly
  rw [hp]
  exact Lagrange.eval_interpolate_at_node (v := fun i : ℕ => (i : F)) (fun i => p.getD i 0)
    (cast_injOn D hchar) (by simp; omega)

theorem msgPoly_degree (D : ℕ) (hchar : ∀ k, 0 < k → k ≤ D → (k : F) ≠ 0) (p : List F)
    (hp : p.length = D + 1) : (msgPoly p).natDegree ≤ D := by
  have h : (msgPoly p).degree < (D + 1 : ℕ) := by
    have := Lagrange.degree_interpolate_lt (s := Finset.range p.length) (v := fun i : ℕ => (i : F))
      (fun i => p.getD i 0) (by rw [hp]; exact cast_injOn D hchar)
    rw [hp, Finset.card_range] at this
    unfold msgPoly
    rw [hp]
    exact this
  by_cases h0 : msgPoly p = 0
  · simp [h0]
  · rw [degree_eq_natDegree h0] at h
    have : (msgPoly p).natDegree < D + 1 := by exact_mod_cast h
    omega

theorem interp_some (D : ℕ) (hchar : ∀ k, 0 < k → k ≤ D → (k : F) ≠ 0) (p : List F)
    (hp : p.length = D + 1) (x e : F) (h : interpolateUniPoly p x = some e) : e = (msgPoly p).eval x := by
  by_cases hx : ∃ k, k < D + 1 ∧ x = (k : F)
  · obtain ⟨k, hk, rfl⟩ := hx
    rw [interpolateUniPoly_none p _ k (by omega) rfl] at h
    simp at h
  · push Not at hx
    rw [interpolateUniPoly_eq p (D + 1) hp (by omega) (fun k h1 h2 => hchar k h1 (by omega)) (msgPoly p)
      (lt_of_le_of_lt degree_le_natDegree
        (by exact_mod_cast Nat.lt_succ_of_le (msgPoly_degree D hchar p hp)))
      (fun i hi => (msgPoly_eval D hchar p hp i (by omega)).symm) x (fun k hk => hx k hk)] at h
    simpa using h.symm

/-- One accepted run: either the final claim is false or some round was lucky. -/
theorem checkRec_sound (D : ℕ) (hchar : ∀ k, 0 < k → k ≤ D → (k : F) ≠ 0) :
    ∀ (msgs : List (List F)) (cs : List F) (s e : F) (g : List F → F), msgs.length = cs.length →
    checkRec D msgs cs s = some e → s ≠ cubeSum cs.length g →
    e ≠ g cs ∨ ∃ i, i < cs.length ∧ (msgs.getD i []).length = D + 1 ∧
      (∃ x, (msgPoly (msgs.getD i [])).eval x
        ≠ cubeSum (cs.length - 1 - i) fun b => g (cs.take i ++ x :: b)) ∧
      (msgPoly (msgs.getD i [])).eval (cs.getD i 0)
        = cubeSum (cs.length - 1 - i) fun b => g (cs.take i ++ cs.getD i 0 :: b) := by
  intro msgs
  induction msgs with
  | nil =>
    intro cs s e g hl h hs
    have : cs = [] := List.length_eq_zero_iff.mp hl.symm
    subst this
    simp only [checkRec, Option.some.injEq] at h
    subst h
    left
    simpa [cubeSum_zero] using hs
  | cons m ms ih =>
    intro cs s e g hl h hs
    obtain ⟨c, cs, rfl⟩ : ∃ c cs', cs = c :: cs' := List.exists_cons_of_ne_nil (by
        intro hn; rw [hn] at hl; simp at hl)
    rw [checkRec] at h
    split at h
    swap
    · simp at h
    rename_i hc
    obtain ⟨hml, hm2, hsum⟩ := hc
    cases hi : interpolateUniPoly m c with
    | none => rw [hi] at h; simp at h
    | some e1 =>
      rw [hi, Option.bind_some] at h
      have he1 := interp_some D hchar m hml c e1 hi
      by_cases hlucky : e1 = cubeSum cs.length fun b => g (c :: b)
      · right
        refine ⟨0, by simp, by simpa using hml, ?_, ?_⟩
        · by_contra hall
          push Not at hall
          apply hs
          have h0 := hall 0
          have h1 := hall 1
          have m0 := msgPoly_eval D hchar m hml 0 (by omega)
          have m1 := msgPoly_eval D hchar m hml 1 (by omega)
          simp only [Nat.cast_zero, Nat.cast_one] at m0 m1
          simp only [List.getD_cons_zero, List.take_zero, List.nil_append, List.length_cons,
            Nat.add_sub_cancel, Nat.sub_zero] at h0 h1
          rw [List.length_cons, cubeSum_succ, ← h0, ← h1, m0, m1, hsum]
        · simp only [List.getD_cons_zero, List.take_zero, List.nil_append, List.length_cons,
            Nat.add_sub_cancel, Nat.sub_zero]
          rw [← he1, hlucky]
      · rcases ih cs e1 e (fun l => g (c :: l)) (by simpa using hl) h hlucky with h' | ⟨i, h1, h2, h3, h4⟩
        · left; exact h'
        · right
          refine ⟨i + 1, by simpa using h1, ?_, ?_, ?_⟩
          · simpa using h2
          · simpa [Nat.sub_sub, Nat.add_comm] using h3
          · simpa [Nat.sub_sub, Nat.add_comm] using h4

/-! ### counting bad challenges -/

/-- The messages of an adaptive strategy: message `i` may depend on the challenges before round `i`. -/
def stratMsgs (σ : List F → List F) : List F → List (List F)
  | [] => []
  | c :: cs => σ [] :: stratMsgs (fun l => σ (c :: l)) cs

theorem stratMsgs_length (σ : List F → List F) (cs : List F) : (stratMsgs σ cs).length = cs.length := by
  induction cs generalizing σ with
  | nil => rfl
  | cons c cs ih => simp [stratMsgs, ih]

theorem stratMsgs_getElem (σ : List F → List F) (cs : List F) (i : ℕ) (h : i < cs.length) :
    (stratMsgs σ cs)[i]? = some (σ (cs.take i)) := by
  induction cs generalizing σ i with
  | nil => simp at h
  | cons c cs ih =>
    cases i with
    | zero => simp [stratMsgs]
    | succ i => simpa [stratMsgs] using ih (fun l => σ (c :: l)) i (by simpa using h)

theorem count_bad [Fintype F] (D : ℕ) (hchar : ∀ k, 0 < k → k ≤ D → (k : F) ≠ 0) (n : ℕ) :
    ∀ (σ : List F → List F) (s : F) (g : List F → F), IndivDegreeLE n D g → s ≠ cubeSum n g →
    (Finset.univ.filter fun r : Fin n → F =>
      checkRec D (stratMsgs σ (List.ofFn r)) (List.ofFn r) s = some (g (List.ofFn r))).card * Fintype.card F
      ≤ n * D * Fintype.card F ^ n := by
  induction n with
  | zero =>
    intro σ s g _ hs
    rw [cubeSum_zero] at hs
    have : (Finset.univ.filter fun r : Fin 0 → F =>
      checkRec D (stratMsgs σ (List.ofFn r)) (List.ofFn r) s = some (g (List.ofFn r))) = ∅ := by
      rw [Finset.filter_eq_empty_iff]
      intro r _
      simpa [stratMsgs, checkRec] using hs
    rw [this]; simp
  | succ n ih =>
    intro σ s g hg hs
    set q := Fintype.card F with hq
    -- the set split by the first challenge
    have hcard : (Finset.univ.filter fun r : Fin (n + 1) → F =>
      checkRec D (stratMsgs σ (List.ofFn r)) (List.ofFn r) s = some (g (List.ofFn r))).card
      = ∑ c : F, (Finset.univ.filter fun r : Fin n → F =>
        checkRec D (stratMsgs σ (c :: List.ofFn r)) (c :: List.ofFn r) s
          = some (g (c :: List.ofFn r))).card := by
      rw [← Finset.card_sigma]
      apply Finset.card_bij' (i := fun r _ => (⟨r 0, Fin.tail r⟩ : (_ : F) × (Fin n → F)))
        (j := fun x _ => Fin.cons x.1 x.2)
      · intro r _; simp
      · intro x _; simp
      · intro r hr
        simp only [Finset.mem_filter, Finset.mem_univ, true_and, Finset.mem_sigma] at hr ⊢
        have : List.ofFn r = r 0 :: List.ofFn (Fin.tail r) := by rw [List.ofFn_succ]; rfl
        rw [← this]; exact hr
      · intro x hx
        simp only [Finset.mem_filter, Finset.mem_univ, true_and, Finset.mem_sigma] at hx ⊢
        rw [List.ofFn_succ]; simpa using hx
    rw [hcard]
    -- what the first round says
    set m := σ [] with hm
    by_cases hok : m.length = D + 1 ∧ 2 ≤ m.length ∧ m.getD 0 0 + m.getD 1 0 = s
    swap
    · have : ∀ c : F, (Finset.univ.filter fun r : Fin n → F =>
        checkRec D (stratMsgs σ (c :: List.ofFn r)) (c :: List.ofFn r) s
          = some (g (c :: List.ofFn r))).card = 0 := by
        intro c
        rw [Finset.card_eq_zero, Finset.filter_eq_empty_iff]
        intro r _
        rw [stratMsgs, checkRec, ← hm, if_neg hok]
        simp
      simp only [this]; simp
    obtain ⟨hml, hm2, hsum⟩ := hok
    obtain ⟨S, hS, hSe⟩ := cubeSum_poly n D (fun x b => g (x :: b)) (by
      intro b hb
      exact hg [] b (by simp [hb]; omega))
    set M := msgPoly m with hM
    have hMdeg := msgPoly_degree D hchar m hml
    have hne : M - S ≠ 0 := by
      intro h0
      have hMS : M = S := sub_eq_zero.mp h0
      apply hs
      have m0 := msgPoly_eval D hchar m hml 0 (by omega)
      have m1 := msgPoly_eval D hchar m hml 1 (by omega)
      simp only [Nat.cast_zero, Nat.cast_one] at m0 m1
      rw [cubeSum_succ, hSe 0, hSe 1, ← hMS, m0, m1, hsum]
    set Z := (M - S).roots.toFinset with hZ
    have hZcard : Z.card ≤ D := by
      refine (Multiset.toFinset_card_le _).trans ((card_roots' _).trans ?_)
      exact (natDegree_sub_le _ _).trans (max_le hMdeg hS)
    have hZmem : ∀ c, c ∉ Z → M.eval c ≠ S.eval c := by
      intro c hc heq
      apply hc
      rw [hZ, Multiset.mem_toFinset, mem_roots hne, IsRoot.def, eval_sub, heq, sub_self]
    have hin : ∀ c ∈ Z, (Finset.univ.filter fun r : Fin n → F =>
        checkRec D (stratMsgs σ (c :: List.ofFn r)) (c :: List.ofFn r) s
          = some (g (c :: List.ofFn r))).card * q ≤ q ^ n * q := by
      intro c _
      apply Nat.mul_le_mul_right
      refine (Finset.card_filter_le _ _).trans ?_
      simp only [Finset.card_univ, Fintype.card_pi, Finset.prod_const, Fintype.card_fin, ← hq]
      exact le_rfl
    have hout : ∀ c, c ∉ Z → (Finset.univ.filter fun r : Fin n → F =>
        checkRec D (stratMsgs σ (c :: List.ofFn r)) (c :: List.ofFn r) s
          = some (g (c :: List.ofFn r))).card * q ≤ n * D * q ^ n := by
      intro c hc
      have hih := ih (fun l => σ (c :: l)) (M.eval c) (fun l => g (c :: l)) (by
        intro pre post hpp
        exact hg (c :: pre) post (by rw [List.length_cons]; omega)) (by rw [hSe]; exact hZmem c hc)
      refine le_trans (Nat.mul_le_mul_right _ (Finset.card_le_card ?_)) hih
      intro r hr
      simp only [Finset.mem_filter, Finset.mem_univ, true_and] at hr ⊢
      rw [stratMsgs, checkRec, ← hm, if_pos ⟨hml, hm2, hsum⟩] at hr
      cases hi : interpolateUniPoly m c with
      | none => rw [hi] at hr; simp at hr
      | some e1 =>
        rw [hi, Option.bind_some, interp_some D hchar m hml c e1 hi] at hr
        exact hr
    rw [Finset.sum_mul]
    calc ∑ c : F, (Finset.univ.filter fun r : Fin n → F =>
            checkRec D (stratMsgs σ (c :: List.ofFn r)) (c :: List.ofFn r) s
              = some (g (c :: List.ofFn r))).card * q
        ≤ ∑ c : F, ((if c ∈ Z then q ^ n * q else 0) + n * D * q ^ n) := by
          apply Finset.sum_le_sum
          intro c _
          by_cases hc : c ∈ Z
          · rw [if_pos hc]; exact (hin c hc).trans (Nat.le_add_right _ _)
          · rw [if_neg hc, zero_add]; exact hout c hc
      _ = Z.card * (q ^ n * q) + q * (n * D * q ^ n) := by
          rw [Finset.sum_add_distrib, Finset.sum_const, Finset.sum_ite_mem, Finset.univ_inter,
            Finset.sum_const]
          simp [hq]
      _ ≤ D * (q ^ n * q) + q * (n * D * q ^ n) := by
          exact Nat.add_le_add_right (Nat.mul_le_mul_right _ hZcard) _
      _ = (n + 1) * D * q ^ (n + 1) := by ring

end Lemmas
