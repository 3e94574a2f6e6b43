import Verif.Spec.Transcript
import Mathlib.Tactic.Ring
import Mathlib.Data.List.Basic
import Mathlib.Tactic.Linarith

/-! Lemmas about the transcripts. -/

namespace Lemmas

open Model Spec

variable {F : Type} [Zero F]

/-- The run of a flat history. -/
def flatRun (perm : List F → List F) : Duplex F → List (Option F) → Duplex F × List F
  | s, [] => (s, [])
  | s, some x :: h => flatRun perm (duplexObserve perm s x) h
  | s, none :: h =>
    let r := duplexSample perm s
    let q := flatRun perm r.2 h
    (q.1, r.1 :: q.2)

/-- Consecutive elements in pairs. -/
def pairUp : List F → List (F × F)
  | a :: b :: l => (a, b) :: pairUp l
  | _ => []

omit [Zero F] in
theorem flatRun_observe [Zero F] (perm : List F → List F) (xs : List F) : ∀ (s : Duplex F) (h : List (Option F)),
    flatRun perm s (xs.map some ++ h) = flatRun perm (xs.foldl (duplexObserve perm) s) h := by
  induction xs with
  | nil => intro s h; rfl
  | cons x xs ih => intro s h; simp [flatRun, ih]

theorem basicRun_flat (perm : List F → List F) (ofU64 : ℕ → F) (ops : List (TranscriptOp F)) : ∀ s : Duplex F,
    basicRun perm ofU64 s ops = ((flatRun perm s (absorbed ofU64 ops)).1, pairUp (flatRun perm s (absorbed ofU64 ops)).2) := by
  induction ops with
  | nil => intro s; rfl
  | cons op ops ih =>
    intro s
    cases op with
    | base xs => simp [basicRun, basicStep, absorbed, flatRun_observe, ih]
    | ext e => simp [basicRun, basicStep, absorbed, flatRun, ih]
    | message bs => simp [basicRun, basicStep, absorbed, flatRun_observe, ih]
    | read => simp [basicRun, basicStep, absorbed, flatRun, readChallenge, pairUp, ih]
    | challenge l => simp [basicRun, basicStep, absorbed, flatRun_observe, flatRun, readChallenge, pairUp, ih]

theorem flatRun_append (perm : List F → List F) (h g : List (Option F)) : ∀ s : Duplex F,
    (flatRun perm s (h ++ g)).1 = (flatRun perm (flatRun perm s h).1 g).1 := by
  induction h with
  | nil => intro s; rfl
  | cons x h ih => intro s; cases x <;> simp [flatRun, ih]

theorem permInputs_append (perm : List F → List F) (h g : List (Option F)) : ∀ s : Duplex F,
    permInputs perm s (h ++ g) = permInputs perm s h ++ permInputs perm (flatRun perm s h).1 g := by
  induction h with
  | nil => intro s; rfl
  | cons x h ih => intro s; cases x <;> simp [permInputs, flatRun, ih, List.append_assoc]

theorem absorbed_append (ofU64 : ℕ → F) (a b : List (TranscriptOp F)) : absorbed ofU64 (a ++ b) = absorbed ofU64 a ++ absorbed ofU64 b := by
  induction a with
  | nil => rfl
  | cons op a ih => cases op <;> simp [absorbed, ih]

/-- The state is as wide as the permutation and the input buffer is not full. -/
def DuplexOk (s : Duplex F) : Prop := s.state.length = 8 ∧ s.input.length < 4

theorem duplexing_ok (perm : List F → List F) (hp : ∀ l : List F, l.length = 8 → (perm l).length = 8) (s : Duplex F) (hs : s.state.length = 8)
    (hi : s.input.length ≤ 4) : DuplexOk (duplexing perm s) ∧ (duplexing perm s).output.length = 4 := by
  have hl : (s.input ++ s.state.drop s.input.length).length = 8 := by simp; omega
  refine ⟨⟨hp _ hl, by simp [duplexing]⟩, ?_⟩
  simp [duplexing, hp _ hl]

theorem observe_ok (perm : List F → List F) (hp : ∀ l : List F, l.length = 8 → (perm l).length = 8) (s : Duplex F) (hs : DuplexOk s) (x : F) :
    DuplexOk (duplexObserve perm s x) := by
  obtain ⟨h1, h2⟩ := hs
  unfold duplexObserve
  dsimp only
  split
  · exact (duplexing_ok perm hp ⟨s.state, s.input ++ [x], []⟩ h1 (by simp; omega)).1
  · rename_i h
    refine ⟨h1, ?_⟩
    simp at h ⊢
    omega

theorem sample_ok (perm : List F → List F) (hp : ∀ l : List F, l.length = 8 → (perm l).length = 8) (s : Duplex F) (hs : DuplexOk s) :
    DuplexOk (duplexSample perm s).2 := by
  unfold duplexSample
  by_cases h : needsDuplexing s
  · have := (duplexing_ok perm hp s hs.1 (by have := hs.2; omega)).1
    simpa [h, DuplexOk] using this
  · simpa [h, DuplexOk] using hs

theorem flat_ok (perm : List F → List F) (hp : ∀ l : List F, l.length = 8 → (perm l).length = 8) (h : List (Option F)) : ∀ s : Duplex F, DuplexOk s →
    DuplexOk (flatRun perm s h).1 := by
  induction h with
  | nil => intro s hs; exact hs
  | cons x h ih =>
    intro s hs
    cases x with
    | none => exact ih _ (sample_ok perm hp s hs)
    | some x => exact ih _ (observe_ok perm hp s hs x)

theorem new_ok : DuplexOk (duplexNew : Duplex F) := by simp [DuplexOk, duplexNew]

/-- The parts of the state that only depend on the shape. -/
def SameFill (s t : Duplex F) : Prop := s.input.length = t.input.length ∧ s.output.length = t.output.length

theorem needs_same {s t : Duplex F} (h : SameFill s t) : needsDuplexing s = needsDuplexing t := by
  obtain ⟨h1, h2⟩ := h
  simp only [needsDuplexing]
  have e1 : s.input.isEmpty = t.input.isEmpty := by rw [Bool.eq_iff_iff, List.isEmpty_iff_length_eq_zero, List.isEmpty_iff_length_eq_zero, h1]
  have e2 : s.output.isEmpty = t.output.isEmpty := by rw [Bool.eq_iff_iff, List.isEmpty_iff_length_eq_zero, List.isEmpty_iff_length_eq_zero, h2]
  rw [e1, e2]

theorem observe_same (perm : List F → List F) (hp : ∀ l : List F, l.length = 8 → (perm l).length = 8) {s t : Duplex F} (hs : DuplexOk s) (ht : DuplexOk t)
    (h : SameFill s t) (x y : F) : SameFill (duplexObserve perm s x) (duplexObserve perm t y) := by
  unfold duplexObserve
  simp only [List.length_append, List.length_singleton, h.1]
  by_cases hc : t.input.length + 1 = 4
  · simp only [hc, if_true]
    refine ⟨rfl, ?_⟩
    rw [(duplexing_ok perm hp ⟨s.state, s.input ++ [x], []⟩ hs.1 (by simp [h.1]; omega)).2,
      (duplexing_ok perm hp ⟨t.state, t.input ++ [y], []⟩ ht.1 (by simp; omega)).2]
  · simp only [hc, if_false]
    exact ⟨by simp [h.1], rfl⟩

theorem sample_same (perm : List F → List F) (hp : ∀ l : List F, l.length = 8 → (perm l).length = 8) {s t : Duplex F} (hs : DuplexOk s) (ht : DuplexOk t)
    (h : SameFill s t) : SameFill (duplexSample perm s).2 (duplexSample perm t).2 := by
  unfold duplexSample
  rw [needs_same h]
  by_cases hc : needsDuplexing t
  · simp only [hc, if_true]
    refine ⟨rfl, ?_⟩
    simp only [List.length_dropLast]
    rw [(duplexing_ok perm hp s hs.1 hs.2.le).2, (duplexing_ok perm hp t ht.1 ht.2.le).2]
  · simp only [hc]
    exact ⟨h.1, by simp [h.2]⟩

theorem flat_same (perm : List F → List F) (hp : ∀ l : List F, l.length = 8 → (perm l).length = 8) (h : List (Option F)) : ∀ (g : List (Option F)) (s t : Duplex F),
    shape h = shape g → DuplexOk s → DuplexOk t → SameFill s t → SameFill (flatRun perm s h).1 (flatRun perm t g).1 := by
  induction h with
  | nil =>
    intro g s t e hs ht hst
    cases g with
    | nil => exact hst
    | cons y g => simp [shape] at e
  | cons x h ih =>
    intro g s t e hs ht hst
    cases g with
    | nil => simp [shape] at e
    | cons y g =>
      simp only [shape, List.map_cons, List.cons.injEq] at e
      cases x with
      | none =>
        cases y with
        | none => exact ih g _ _ e.2 (sample_ok perm hp s hs) (sample_ok perm hp t ht) (sample_same perm hp hs ht hst)
        | some y => simp at e
      | some x =>
        cases y with
        | none => simp at e
        | some y => exact ih g _ _ e.2 (observe_ok perm hp s hs x) (observe_ok perm hp t ht y) (observe_same perm hp hs ht hst x y)

theorem capCollision_mono {perm : List F → List F} {a b c d : List (List F)} (h : CapCollision perm a b) (h₁ : ∀ x ∈ a, x ∈ c) (h₂ : ∀ x ∈ b, x ∈ d) :
    CapCollision perm c d := by
  obtain ⟨u, hu, v, hv, e⟩ := h
  exact ⟨u, h₁ u hu, v, h₂ v hv, e⟩

/-- Two histories of the same shape that end with the same buffered input and the same capacity are equal, unless the permutation collides on the capacity. -/
theorem flat_binding (perm : List F → List F) (hp : ∀ l : List F, l.length = 8 → (perm l).length = 8) (s : Duplex F) (hs : DuplexOk s) (h : List (Option F)) :
    ∀ g : List (Option F), shape h = shape g → (flatRun perm s h).1.input = (flatRun perm s g).1.input →
      (flatRun perm s h).1.state.drop 4 = (flatRun perm s g).1.state.drop 4 →
      h = g ∨ CapCollision perm (permInputs perm s h) (permInputs perm s g) := by
  induction h using List.reverseRecOn with
  | nil => intro g e _ _; cases g with
    | nil => exact Or.inl rfl
    | cons y g => simp [shape] at e
  | append_singleton h x ih =>
    intro g e hin hcap
    rcases List.eq_nil_or_concat g with rfl | ⟨g, y, rfl⟩
    · simp [shape] at e
    rw [List.concat_eq_append] at *
    simp only [shape, List.map_append, List.map_cons, List.map_nil] at e
    have el := congrArg List.length e
    simp only [List.length_append, List.length_map, List.length_singleton, Nat.add_right_cancel_iff] at el
    obtain ⟨e1, e2⟩ := List.append_inj e (by simpa using el)
    have hso := flat_ok perm hp h s hs
    have hto := flat_ok perm hp g s hs
    have hst := flat_same perm hp h g s s e1 hs hs ⟨rfl, rfl⟩
    rw [flatRun_append, flatRun_append] at hin hcap
    rw [permInputs_append, permInputs_append]
    have ih' := ih g e1
    generalize (flatRun perm s h).1 = a at *
    generalize (flatRun perm s g).1 = b at *
    have wrap : (h = g → h ++ [x] = g ++ [y]) → a.input = b.input → a.state.drop 4 = b.state.drop 4 →
        h ++ [x] = g ++ [y] ∨ CapCollision perm (permInputs perm s h ++ permInputs perm a [x]) (permInputs perm s g ++ permInputs perm b [y]) := by
      intro hw h1 h2
      rcases ih' h1 h2 with r | r
      · exact Or.inl (hw r)
      · exact Or.inr (capCollision_mono r (by simp +contextual) (by simp +contextual))
    have coll : ∀ u v : List F, u ∈ permInputs perm a [x] → v ∈ permInputs perm b [y] → u ≠ v → (perm u).drop 4 = (perm v).drop 4 →
        h ++ [x] = g ++ [y] ∨ CapCollision perm (permInputs perm s h ++ permInputs perm a [x]) (permInputs perm s g ++ permInputs perm b [y]) := by
      intro u v h1 h2 h3 h4
      exact Or.inr ⟨u, List.mem_append_right _ h1, v, List.mem_append_right _ h2, h3, h4⟩
    cases x with
    | none =>
      cases y with
      | some y => simp at e2
      | none =>
        have hn := needs_same hst
        simp only [flatRun, duplexSample] at hin hcap
        by_cases hc : needsDuplexing b
        · rw [hc] at hn
          simp only [hc, hn, if_true, duplexing] at hin hcap
          by_cases huv : a.input ++ a.state.drop a.input.length = b.input ++ b.state.drop b.input.length
          · obtain ⟨h1, h2⟩ := List.append_inj huv hst.1
            refine wrap (fun r => by rw [r]) h1 ?_
            have := congrArg (List.drop (4 - b.input.length)) h2
            rw [List.drop_drop, List.drop_drop, hst.1] at this
            rwa [show b.input.length + (4 - b.input.length) = 4 by have := hto.2; omega] at this
          · exact coll _ _ (by simp [permInputs, hn]) (by simp [permInputs, hc]) huv hcap
        · rw [Bool.not_eq_true] at hc
          rw [hc] at hn
          simp only [hc, hn] at hin hcap
          exact wrap (fun r => by rw [r]) hin hcap
    | some x =>
      cases y with
      | none => simp at e2
      | some y =>
        simp only [flatRun, duplexObserve, List.length_append, List.length_singleton, hst.1] at hin hcap
        by_cases hc : b.input.length + 1 = 4
        · simp only [hc, if_true, duplexing, List.length_append, List.length_singleton, hst.1] at hin hcap
          have ha : a.input.length = 3 := by rw [hst.1]; omega
          have hb : b.input.length = 3 := by omega
          by_cases huv : a.input ++ [x] ++ a.state.drop 4 = b.input ++ [y] ++ b.state.drop 4
          · obtain ⟨h1, h2⟩ := List.append_inj huv (by simp [hst.1])
            obtain ⟨h3, h4⟩ := List.append_inj h1 hst.1
            refine wrap (fun r => by rw [r, h4 |> List.singleton_inj.1]) h3 h2
          · refine coll _ _ ?_ ?_ huv hcap
            · simp [permInputs, ha]
            · simp [permInputs, hb]
        · simp only [hc, if_false] at hin hcap
          obtain ⟨h3, h4⟩ := List.append_inj hin hst.1
          exact wrap (fun r => by rw [r, List.singleton_inj.1 h4]) h3 hcap

/-- Absorbing what the state already holds at the next position changes nothing for the next draw. -/
theorem sample_observe_self (perm : List F → List F) (hp : ∀ l : List F, l.length = 8 → (perm l).length = 8) (s : Duplex F) (hs : DuplexOk s)
    (hn : needsDuplexing s = true) : duplexSample perm (duplexObserve perm s (s.state.getD s.input.length 0)) = duplexSample perm s := by
  have hk : s.input.length < s.state.length := by rw [hs.1]; have := hs.2; omega
  have hd : s.state.drop s.input.length = s.state.getD s.input.length 0 :: s.state.drop (s.input.length + 1) := by
    rw [List.drop_eq_getElem_cons hk]
    simp [List.getD, hk]
  have hdup : duplexing perm ⟨s.state, s.input ++ [s.state.getD s.input.length 0], []⟩ = duplexing perm s := by
    unfold duplexing
    simp only [List.length_append, List.length_singleton]
    rw [hd]
    simp
  unfold duplexObserve
  simp only [List.length_append, List.length_singleton]
  by_cases hc : s.input.length + 1 = 4
  · simp only [hc, if_true]
    rw [hdup]
    have ho := (duplexing_ok perm hp s hs.1 hs.2.le).2
    have hnn : needsDuplexing (duplexing perm s) = false := by
      cases hq : (duplexing perm s).output with
      | nil => rw [hq] at ho; simp at ho
      | cons a l => simp only [needsDuplexing, hq]; rfl
    unfold duplexSample
    simp [hnn, hn]
  · simp only [hc, if_false]
    unfold duplexSample
    have : needsDuplexing (⟨s.state, s.input ++ [s.state.getD s.input.length 0], []⟩ : Duplex F) = true := by simp [needsDuplexing]
    rw [this, hn, if_pos rfl, if_pos rfl, hdup]

/-! ### Bytes -/

omit [Zero F] in
theorem bytesAux_fuel (ofU64 : ℕ → F) : ∀ (n m : ℕ) (bs : List ℕ), bs.length ≤ n → bs.length ≤ m → bytesToFieldAux ofU64 n bs = bytesToFieldAux ofU64 m bs := by
  intro n
  induction n with
  | zero =>
    intro m bs h1 h2
    have : bs = [] := List.length_eq_zero_iff.1 (by omega)
    subst this
    cases m <;> simp [bytesToFieldAux]
  | succ n ih =>
    intro m bs h1 h2
    cases m with
    | zero =>
      have : bs = [] := List.length_eq_zero_iff.1 (by omega)
      subst this
      simp [bytesToFieldAux]
    | succ m =>
      simp only [bytesToFieldAux]
      by_cases hb : bs = []
      · simp [hb]
      · simp only [hb, if_false]
        have : 0 < bs.length := List.length_pos_iff.2 hb
        rw [ih m (bs.drop 8) (by simp; omega) (by simp; omega)]

omit [Zero F] in
theorem bytesToField_cons (ofU64 : ℕ → F) (bs : List ℕ) (hb : bs ≠ []) : bytesToField ofU64 bs = ofU64 (leValue (bs.take 8)) :: bytesToField ofU64 (bs.drop 8) := by
  have h0 : 0 < bs.length := List.length_pos_iff.2 hb
  obtain ⟨n, hn⟩ : ∃ n, bs.length = n + 1 := ⟨bs.length - 1, by omega⟩
  unfold bytesToField
  rw [hn]
  simp only [bytesToFieldAux, hb, if_false]
  rw [bytesAux_fuel ofU64 n (bs.drop 8).length (bs.drop 8) (by simp; omega) le_rfl]

theorem leValue_append_zero (bs : List ℕ) : leValue (bs ++ [0]) = leValue bs := by
  induction bs with
  | nil => rfl
  | cons b bs ih => simp [leValue, ih]

theorem leValue_lt : ∀ (bs : List ℕ), (∀ b ∈ bs, b < 128) → leValue bs < 128 * 256 ^ (bs.length - 1) := by
  intro bs
  induction bs with
  | nil => intro _; simp [leValue]
  | cons b bs ih =>
    intro h
    have hb := h b (by simp)
    cases bs with
    | nil => simp [leValue]; omega
    | cons c cs =>
      have := ih (fun x hx => h x (by simp [hx]))
      simp only [List.length_cons, Nat.add_sub_cancel] at this ⊢
      rw [leValue, pow_succ]
      omega

theorem leValue_inj : ∀ (as bs : List ℕ), (∀ b ∈ as, 0 < b ∧ b < 256) → (∀ b ∈ bs, 0 < b ∧ b < 256) → leValue as = leValue bs → as = bs := by
  intro as
  induction as with
  | nil =>
    intro bs _ hb e
    cases bs with
    | nil => rfl
    | cons b bs => have := hb b (by simp); simp [leValue] at e; omega
  | cons a as ih =>
    intro bs ha hb e
    cases bs with
    | nil => have := ha a (by simp); simp [leValue] at e; omega
    | cons b bs =>
      have h1 := ha a (by simp)
      have h2 := hb b (by simp)
      simp only [leValue] at e
      have e1 : a = b := by omega
      have e2 : leValue as = leValue bs := by omega
      rw [e1, ih bs (fun x hx => ha x (by simp [hx])) (fun x hx => hb x (by simp [hx])) e2]

omit [Zero F] in
theorem bytesToField_inj (ofU64 : ℕ → F) (p : ℕ) (hp : 128 * 256 ^ 7 ≤ p) (hu : ∀ m n, m < p → n < p → ofU64 m = ofU64 n → m = n) :
    ∀ (n : ℕ) (as bs : List ℕ), as.length ≤ n → (∀ b ∈ as, 0 < b ∧ b < 128) → (∀ b ∈ bs, 0 < b ∧ b < 128) →
      bytesToField ofU64 as = bytesToField ofU64 bs → as = bs := by
  have small : ∀ cs : List ℕ, (∀ b ∈ cs, 0 < b ∧ b < 128) → leValue (cs.take 8) < p := by
    intro cs hc
    have h1 := leValue_lt (cs.take 8) (fun b hb => (hc b (List.mem_of_mem_take hb)).2)
    have h2 : 256 ^ ((cs.take 8).length - 1) ≤ 256 ^ 7 := Nat.pow_le_pow_right (by omega) (by simp)
    calc leValue (cs.take 8) < 128 * 256 ^ ((cs.take 8).length - 1) := h1
      _ ≤ 128 * 256 ^ 7 := Nat.mul_le_mul_left _ h2
      _ ≤ p := hp
  intro n
  induction n with
  | zero =>
    intro as bs hl _ _ e
    have : as = [] := List.length_eq_zero_iff.1 (by omega)
    subst this
    by_cases hb : bs = []
    · exact hb.symm
    · rw [bytesToField_cons ofU64 bs hb] at e
      simp [bytesToField, bytesToFieldAux] at e
  | succ n ih =>
    intro as bs hl ha hb e
    by_cases h1 : as = []
    · subst h1
      by_cases hb : bs = []
      · exact hb.symm
      · rw [bytesToField_cons ofU64 bs hb] at e
        simp [bytesToField, bytesToFieldAux] at e
    by_cases h2 : bs = []
    · subst h2
      rw [bytesToField_cons ofU64 as h1] at e
      simp [bytesToField, bytesToFieldAux] at e
    rw [bytesToField_cons ofU64 as h1, bytesToField_cons ofU64 bs h2] at e
    injection e with e1 e2
    have h0 : 0 < as.length := List.length_pos_iff.2 h1
    have hd := ih (as.drop 8) (bs.drop 8) (by simp; omega) (fun b hb' => ha b (List.mem_of_mem_drop hb')) (fun b hb' => hb b (List.mem_of_mem_drop hb')) e2
    have ht := leValue_inj (as.take 8) (bs.take 8) (fun b hb' => ⟨(ha b (List.mem_of_mem_take hb')).1, by have := (ha b (List.mem_of_mem_take hb')).2; omega⟩)
      (fun b hb' => ⟨(hb b (List.mem_of_mem_take hb')).1, by have := (hb b (List.mem_of_mem_take hb')).2; omega⟩) (hu _ _ (small as ha) (small bs hb) e1)
    rw [← List.take_append_drop 8 as, ← List.take_append_drop 8 bs, ht, hd]

omit [Zero F] in
theorem bytesToField_zero (ofU64 : ℕ → F) : ∀ (n : ℕ) (bs : List ℕ), bs.length ≤ n → bs.length % 8 ≠ 0 → bytesToField ofU64 (bs ++ [0]) = bytesToField ofU64 bs := by
  intro n
  induction n with
  | zero => intro bs h h'; omega
  | succ n ih =>
    intro bs h h'
    have hb : bs ≠ [] := by rintro rfl; simp at h'
    rw [bytesToField_cons ofU64 _ (by simp), bytesToField_cons ofU64 bs hb]
    by_cases hl : bs.length < 8
    · rw [List.take_of_length_le (by simp; omega), List.take_of_length_le (by omega), leValue_append_zero,
        List.drop_of_length_le (by simp; omega), List.drop_of_length_le (by omega)]
    · rw [List.take_append_of_le_length (by omega), List.drop_append_of_le_length (by omega), ih (bs.drop 8) (by simp; omega) (by simp; omega)]

theorem leBytesAux_leValue : ∀ (bs : List ℕ) (fuel : ℕ), bs.length ≤ fuel → (∀ b ∈ bs, b < 256) → (∃ l b, bs = l ++ [b] ∧ 0 < b) →
    leBytesAux fuel (leValue bs) = bs := by
  intro bs
  induction bs with
  | nil => rintro fuel _ _ ⟨l, b, h, _⟩; simp at h
  | cons a bs ih =>
    rintro fuel hf hb ⟨l, b, he, h0⟩
    cases fuel with
    | zero => simp at hf
    | succ fuel =>
      have ha := hb a (by simp)
      cases bs with
      | nil => simp [leBytesAux, leValue, ha]
      | cons c cs =>
        have hlast : ∃ l b, c :: cs = l ++ [b] ∧ 0 < b := by
          cases l with
          | nil => simp at he
          | cons d l => exact ⟨l, b, by simpa using (List.cons.inj he).2, h0⟩
        have hi := ih fuel (by simpa using hf) (fun x hx => hb x (by simp [hx])) hlast
        have hpos : ∀ (ds : List ℕ), (∃ l b, ds = l ++ [b] ∧ 0 < b) → 0 < leValue ds := by
          intro ds
          induction ds with
          | nil => rintro ⟨l, b, h, _⟩; simp at h
          | cons d ds ih =>
            rintro ⟨l, b, h, hb⟩
            cases l with
            | nil => simp at h; simp [leValue]; omega
            | cons e l => have := ih ⟨l, b, by simpa using (List.cons.inj h).2, hb⟩; simp only [leValue]; omega
        have hp := hpos _ hlast
        rw [show leValue (a :: c :: cs) = a + 256 * leValue (c :: cs) from rfl]
        rw [leBytesAux, if_neg (by omega), show (a + 256 * leValue (c :: cs)) % 256 = a by omega,
          show (a + 256 * leValue (c :: cs)) / 256 = leValue (c :: cs) by omega, hi]

theorem leValue_ge_length : ∀ (bs : List ℕ), (∃ l b, bs = l ++ [b] ∧ 0 < b) → bs.length ≤ leValue bs := by
  intro bs
  induction bs with
  | nil => intro _; simp
  | cons a bs ih =>
    rintro ⟨l, b, he, h0⟩
    cases l with
    | nil => simp at he; simp [he, leValue]; omega
    | cons d l =>
      have := ih ⟨l, b, by simpa using (List.cons.inj he).2, h0⟩
      have hne : 0 < bs.length := by
        have := (List.cons.inj he).2
        rw [this]; simp
      simp only [List.length_cons, leValue]
      omega

theorem leBytes_leValue (bs : List ℕ) (hb : ∀ b ∈ bs, b < 256) (hl : ∃ l b, bs = l ++ [b] ∧ 0 < b) : leBytes (leValue bs) = bs :=
  leBytesAux_leValue bs _ (by have := leValue_ge_length bs hl; omega) hb hl

theorem blakeRun_append {E : Type} (draw : List ℕ → E × List ℕ) (a b : List (TranscriptOp ℕ)) : ∀ s : List ℕ,
    blakeRun draw s (a ++ b) = ((blakeRun draw (blakeRun draw s a).1 b).1, (blakeRun draw s a).2 ++ (blakeRun draw (blakeRun draw s a).1 b).2) := by
  induction a with
  | nil => intro s; rfl
  | cons op a ih => intro s; simp [blakeRun, ih, List.append_assoc]

end Lemmas
