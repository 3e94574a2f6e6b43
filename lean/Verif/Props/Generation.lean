import Verif.Spec.Generation
import Verif.Model.Generation
import Verif.Lemmas.Slices
import Mathlib.Algebra.BigOperators.Group.List.Basic

/-! C88: generation of a text. -/

namespace Props

open Model

variable {Tr : Type}

/-- The next token according to the model: it is run on the sequence and its last output is read. -/
def predicted (run : Tensor ℤ → Option Tr) (outputs : Tr → List (Tensor ℤ)) (seq : List ℤ) : Option ℤ :=
  (run ⟨[seq.length], seq⟩).bind fun trace => (outputs trace).getLast?.bind fun out => Spec.announced out.shape out.data

/-- Every output of every run is a tensor with as many elements as its shape says. -/
def OutputsFormed (run : Tensor ℤ → Option Tr) (outputs : Tr → List (Tensor ℤ)) : Prop :=
  ∀ t trace, run t = some trace → ∀ out ∈ outputs trace, out.shape.prod = out.data.length

theorem lastToken_eq (out : Tensor ℤ) (h : out.shape.prod = out.data.length) : lastToken out = Spec.announced out.shape out.data := by
  obtain ⟨shape, data⟩ := out
  dsimp only at h ⊢
  unfold lastToken Spec.announced checkedSub
  dsimp only
  by_cases h2 : 2 ≤ shape.length
  · obtain ⟨init, d, rfl⟩ : ∃ init d, shape = init ++ [d] :=
      ⟨shape.dropLast, shape.getLast (by rintro rfl; simp at h2), (List.dropLast_append_getLast _).symm⟩
    simp only [List.length_append, List.length_cons, List.length_nil] at h2
    have hs : (Tensor.mk (init ++ [d]) data).sliceOnDim ((init ++ [d]).length - 2) = if d = 0 then none else some (chunks d data, [d]) := by
      unfold Tensor.sliceOnDim
      dsimp only
      have h3 : (init ++ [d]).length - 2 < (init ++ [d]).length - 1 := by simp only [List.length_append, List.length_cons, List.length_nil]; omega
      have h4 : (init ++ [d]).length - 2 + 1 = init.length := by simp only [List.length_append, List.length_cons, List.length_nil]; omega
      simp only [if_pos h3, if_pos (lt_of_lt_of_le h3 (Nat.sub_le _ _)), h4, List.drop_left, List.prod_cons, List.prod_nil, mul_one]
    simp only [List.length_append, List.length_cons, List.length_nil, Nat.zero_add] at hs
    simp only [List.length_append, List.length_cons, List.length_nil, Nat.zero_add, h2, if_true, Option.bind_eq_bind, Option.bind_some, hs, true_and,
      List.getLast?_append, List.getLast?_singleton, Option.some_or, Option.some.injEq]
    simp only [List.prod_append, List.prod_cons, List.prod_nil, mul_one] at h
    rcases Nat.eq_zero_or_pos d with rfl | hd
    · simp
    · rw [if_neg hd.ne', Option.bind_some]
      dsimp only
      rw [Lemmas.chunks_eq d init.prod hd data (by rw [← h, mul_comm])]
      by_cases h1 : d = 1
      · subst h1
        rw [if_pos rfl]
        rcases List.eq_nil_or_concat data with rfl | ⟨data, t, rfl⟩
        · have : init.prod = 0 := by simpa using h
          simp [this]
        · have : init.prod = data.length + 1 := by simpa using h
          rw [this, List.range_succ, List.map_append]
          simp
      · rw [if_neg h1]
        rcases Nat.eq_zero_or_pos init.prod with h0 | h0
        · simp [h0]
        · obtain ⟨m, hm⟩ : ∃ m, init.prod = m + 1 := ⟨init.prod - 1, by omega⟩
          rw [hm, List.range_succ, List.map_append]
          simp only [List.map_cons, List.map_nil, List.getLast?_append, List.getLast?_singleton, Option.some_or]
          have hl : ((data.drop (d * m)).take d).length = d := by
            rw [List.length_take, List.length_drop, ← h, hm]
            have : (m + 1) * d = d * m + d := by ring
            omega
          rcases hx : (data.drop (d * m)).take d with _ | ⟨a, _ | ⟨b, l⟩⟩
          · rfl
          · rw [hx] at hl
            simp at hl
            omega
          · rfl
  · rw [if_neg h2, if_neg (by tauto)]
    rfl

/-! ### The loop -/

theorem concat_token (seq : List ℤ) (t : ℤ) : (Tensor.mk [seq.length] seq).concat ⟨[1, 1], [t]⟩ = some ⟨[(seq ++ [t]).length], seq ++ [t]⟩ := by
  simp [Tensor.concat]

theorem generateLoop_step (run : Tensor ℤ → Option Tr) (outputs : Tr → List (Tensor ℤ)) (hf : OutputsFormed run outputs) (eos : ℤ) (fuel step : ℕ) (seq : List ℤ)
    (trace : Tr) (observed : List (ℕ × Tr)) :
    generateLoop run outputs eos (fuel + 1) step ⟨[seq.length], seq⟩ trace observed =
      (run ⟨[seq.length], seq⟩).bind fun tr => (predicted run outputs seq).bind fun t =>
        if t = eos then some (tr, observed)
        else generateLoop run outputs eos fuel (step + 1) ⟨[(seq ++ [t]).length], seq ++ [t]⟩ tr (observed ++ [(step + 1, tr)]) := by
  rw [generateLoop]
  unfold predicted
  cases hr : run ⟨[seq.length], seq⟩ with
  | none => rfl
  | some tr =>
    simp only [Option.bind_eq_bind, Option.bind_some]
    cases ho : (outputs tr).getLast? with
    | none => rfl
    | some out =>
      simp only [Option.bind_some]
      rw [lastToken_eq out (hf _ _ hr out (List.mem_of_getLast? ho))]
      simp only [concat_token, Option.bind_some]

/-- What the loop does from any state. -/
theorem generateLoop_spec (run : Tensor ℤ → Option Tr) (outputs : Tr → List (Tensor ℤ)) (hf : OutputsFormed run outputs) (eos : ℤ) :
    ∀ (fuel step : ℕ) (seq : List ℤ) (trace : Tr) (observed : List (ℕ × Tr)) (final : Tr) (calls : List (ℕ × Tr)),
      generateLoop run outputs eos fuel step ⟨[seq.length], seq⟩ trace observed = some (final, calls) →
      ∃ gen : List ℤ, Spec.Greedy (predicted run outputs) seq gen ∧ eos ∉ gen ∧
        (∃ traces : List Tr, traces.length = gen.length ∧ calls = observed ++ traces.mapIdx (fun i tr => (step + i + 1, tr)) ∧
          ∀ i < gen.length, run ⟨[seq.length + i], seq ++ gen.take i⟩ = traces[i]?) ∧
        ((gen.length < fuel ∧ predicted run outputs (seq ++ gen) = some eos ∧ run ⟨[seq.length + gen.length], seq ++ gen⟩ = some final) ∨
          (gen.length = fuel ∧ (fuel = 0 → final = trace) ∧ (0 < fuel → run ⟨[seq.length + (fuel - 1)], seq ++ gen.take (fuel - 1)⟩ = some final))) := by
  intro fuel
  induction fuel with
  | zero =>
    intro step seq trace observed final calls h
    simp only [generateLoop, Option.some.injEq, Prod.mk.injEq] at h
    obtain ⟨rfl, rfl⟩ := h
    exact ⟨[], fun i hi => by simp at hi, by simp, ⟨[], rfl, by simp, fun i hi => by simp at hi⟩, Or.inr ⟨rfl, fun _ => rfl, fun h => absurd h (lt_irrefl 0)⟩⟩
  | succ fuel ih =>
    intro step seq trace observed final calls h
    rw [generateLoop_step run outputs hf] at h
    cases hr : run ⟨[seq.length], seq⟩ with
    | none => simp [hr] at h
    | some tr =>
      cases hp : predicted run outputs seq with
      | none => simp [hr, hp] at h
      | some t =>
        simp only [hr, hp, Option.bind_some] at h
        by_cases ht : t = eos
        · rw [if_pos ht] at h
          simp only [Option.some.injEq, Prod.mk.injEq] at h
          obtain ⟨rfl, rfl⟩ := h
          refine ⟨[], fun i hi => by simp at hi, by simp, ⟨[], rfl, by simp, fun i hi => by simp at hi⟩, Or.inl ⟨by simp, ?_, ?_⟩⟩
          · simp [hp, ht]
          · simpa using hr
        · rw [if_neg ht] at h
          obtain ⟨gen, hg, he, ⟨traces, hl, hc, hrun⟩, hend⟩ := ih _ _ _ _ _ _ h
          refine ⟨t :: gen, ?_, ?_, ⟨tr :: traces, by simp [hl], ?_, ?_⟩, ?_⟩
          · intro i hi
            cases i with
            | zero => simpa using hp
            | succ i => simpa using hg i (by simpa using hi)
          · simp only [List.mem_cons, not_or]
            exact ⟨fun h => ht h.symm, he⟩
          · rw [hc, List.mapIdx_cons, List.append_assoc]
            congr 1
            simp only [Nat.add_zero, List.singleton_append, List.cons.injEq, true_and]
            congr 1
            funext i x
            rw [show step + 1 + i + 1 = step + (i + 1) + 1 by omega]
          · intro i hi
            cases i with
            | zero => simpa using hr
            | succ i =>
              have := hrun i (by simpa using hi)
              simp only [List.length_append, List.length_cons, List.length_nil, Nat.zero_add, List.append_assoc, List.singleton_append] at this
              simpa [Nat.add_assoc, Nat.add_comm 1 i] using this
          · rcases hend with ⟨h1, h2, h3⟩ | ⟨h1, h2, h3⟩
            · left
              refine ⟨by simpa using h1, by simpa using h2, ?_⟩
              simpa [Nat.add_assoc, Nat.add_comm 1] using h3
            · right
              refine ⟨by simpa using h1, by simp, fun _ => ?_⟩
              cases fuel with
              | zero =>
                rw [h2 rfl]
                simpa using hr
              | succ k =>
                have := h3 (by omega)
                simp only [Nat.add_sub_cancel] at this ⊢
                simpa [Nat.add_assoc, Nat.add_comm 1] using this

/-- C88, as far as it holds: whenever the driver answers and the prompt is shorter than the window, the tokens it added are the greedy continuation of the prompt, no token
that ends the text is among them, and it stopped for one of two reasons. Either the model predicted the end of the text: then the returned trace is that of the model on
the prompt and everything generated. Or the window is full: then the returned trace is that of the run that produced the last token. The observer was called once for each
generated token, in order, with the trace of the run that produced it. What is missing from C88 is the prompt that fills the window and the window longer than the
context, see `C88_window_false` and `C88_context_false`. -/
theorem C88_greedy_partial (run : Tensor ℤ → Option Tr) (outputs : Tr → List (Tensor ℤ)) (hf : OutputsFormed run outputs) (empty : Tr) (eos : ℤ) (context : ℕ)
    (maxContext : Option ℕ) (prompt : List ℤ) (final : Tr) (calls : List (ℕ × Tr)) (hw : prompt.length < maxContext.getD context)
    (h : runInference run outputs empty eos context maxContext prompt = some (final, calls)) :
    ∃ gen : List ℤ, Spec.Greedy (predicted run outputs) prompt gen ∧ eos ∉ gen ∧
      (∃ traces : List Tr, traces.length = gen.length ∧ calls = traces.mapIdx (fun i tr => (i + 1, tr)) ∧
        ∀ i < gen.length, run ⟨[prompt.length + i], prompt ++ gen.take i⟩ = traces[i]?) ∧
      ((prompt.length + gen.length < maxContext.getD context ∧ predicted run outputs (prompt ++ gen) = some eos ∧
          run ⟨[prompt.length + gen.length], prompt ++ gen⟩ = some final) ∨
        (prompt.length + gen.length = maxContext.getD context ∧
          run ⟨[prompt.length + gen.length - 1], prompt ++ gen.dropLast⟩ = some final)) := by
  unfold runInference at h
  cases hc : checkedSub context 1 with
  | none => simp [hc] at h
  | some limit =>
    simp only [hc, Option.bind_eq_bind, Option.bind_some] at h
    by_cases hl : prompt.length < limit
    · rw [if_pos hl] at h
      obtain ⟨gen, hg, he, ⟨traces, hlen, hcalls, hrun⟩, hend⟩ := generateLoop_spec run outputs hf eos _ _ _ _ _ _ _ h
      refine ⟨gen, hg, he, ⟨traces, hlen, ?_, hrun⟩, ?_⟩
      · rw [hcalls]
        simp
      · rcases hend with ⟨h1, h2, h3⟩ | ⟨h1, -, h3⟩
        · exact Or.inl ⟨by omega, h2, h3⟩
        · right
          refine ⟨by omega, ?_⟩
          have := h3 (by omega)
          rw [← h1, ← List.dropLast_eq_take] at this
          rwa [Nat.add_sub_assoc (by omega)]
    · rw [if_neg hl] at h
      exact absurd h (by simp)

/-- The greedy continuation up to the end of the text, or to the window, is unique. -/
theorem C88_unique (predict : List ℤ → Option ℤ) (eos : ℤ) (prompt gen gen' : List ℤ) (h : Spec.Greedy predict prompt gen) (h' : Spec.Greedy predict prompt gen')
    (he : eos ∉ gen) (he' : eos ∉ gen') (window : ℕ)
    (hs : prompt.length + gen.length < window ∧ predict (prompt ++ gen) = some eos ∨ prompt.length + gen.length = window)
    (hs' : prompt.length + gen'.length < window ∧ predict (prompt ++ gen') = some eos ∨ prompt.length + gen'.length = window) : gen = gen' := by
  have key : ∀ i, i ≤ gen.length → i ≤ gen'.length → gen.take i = gen'.take i := by
    intro i
    induction i with
    | zero => simp
    | succ i ih =>
      intro h1 h2
      have e := ih (by omega) (by omega)
      have a := h i (by omega)
      have b := h' i (by omega)
      rw [e, b] at a
      rw [List.take_add_one, List.take_add_one, e, a]
  have aux : ∀ g g' : List ℤ, Spec.Greedy predict prompt g' → eos ∉ g' → prompt.length + g'.length ≤ window →
      (∀ i, i ≤ g.length → i ≤ g'.length → g.take i = g'.take i) →
      (prompt.length + g.length < window ∧ predict (prompt ++ g) = some eos ∨ prompt.length + g.length = window) → g'.length ≤ g.length := by
    intro g g' hg' hne hle hk hstop
    by_contra hlt
    push Not at hlt
    rcases hstop with ⟨-, hp⟩ | hw
    · have a := hg' g.length hlt
      rw [← hk g.length le_rfl hlt.le, List.take_length, hp] at a
      exact hne (List.mem_of_getElem? a.symm)
    · omega
  have l1 := aux gen gen' h' he' (by rcases hs' with ⟨h, -⟩ | h <;> omega) key hs
  have l2 := aux gen' gen h he (by rcases hs with ⟨h, -⟩ | h <;> omega) (fun i a b => (key i b a).symm) hs'
  have := key gen.length le_rfl (by omega)
  rwa [List.take_length, List.take_of_length_le (by omega)] at this

/-- The driver answers for every prompt that leaves room for a token in the context, if the model predicts a token for every sequence that fits the window. -/
theorem C88_answers (run : Tensor ℤ → Option Tr) (outputs : Tr → List (Tensor ℤ)) (hf : OutputsFormed run outputs) (empty : Tr) (eos : ℤ) (context : ℕ)
    (maxContext : Option ℕ) (prompt : List ℤ) (hp : prompt.length + 1 < context)
    (hm : ∀ gen, prompt.length + gen.length < maxContext.getD context → (predicted run outputs (prompt ++ gen)).isSome) :
    (runInference run outputs empty eos context maxContext prompt).isSome := by
  have key : ∀ (fuel step : ℕ) (gen : List ℤ) (trace : Tr) (observed : List (ℕ × Tr)), prompt.length + gen.length + fuel ≤ maxContext.getD context ∨ fuel = 0 →
      (generateLoop run outputs eos fuel step ⟨[(prompt ++ gen).length], prompt ++ gen⟩ trace observed).isSome := by
    intro fuel
    induction fuel with
    | zero => intros; rfl
    | succ fuel ih =>
      intro step gen trace observed hle
      rw [generateLoop_step run outputs hf]
      obtain ⟨t, ht⟩ := Option.isSome_iff_exists.1 (hm gen (by omega))
      cases hr : run ⟨[(prompt ++ gen).length], prompt ++ gen⟩ with
      | none =>
        unfold predicted at ht
        rw [hr] at ht
        simp at ht
      | some tr =>
        simp only [ht, Option.bind_some]
        split
        · rfl
        · rw [List.append_assoc]
          exact ih _ _ _ _ (by simp only [List.length_append, List.length_cons, List.length_nil]; omega)
  unfold runInference checkedSub
  rw [if_pos (by omega)]
  simp only [Option.bind_eq_bind, Option.bind_some]
  rw [if_pos (by omega)]
  have := key (maxContext.getD context - prompt.length) 0 [] empty [] (by simp only [List.length_nil]; omega)
  simpa using this

/-- C88 is false for a prompt that fills the window: the model is not run, no token is generated, and the driver answers with the empty trace, whatever the model is. -/
theorem C88_window_false (run : Tensor ℤ → Option Tr) (outputs : Tr → List (Tensor ℤ)) (empty : Tr) (eos : ℤ) (context window : ℕ) (prompt : List ℤ)
    (hp : prompt.length + 1 < context) (hw : window ≤ prompt.length) :
    runInference run outputs empty eos context (some window) prompt = some (empty, []) := by
  unfold runInference checkedSub
  rw [if_pos (by omega)]
  simp only [Option.bind_eq_bind, Option.bind_some, Option.getD_some]
  rw [if_pos (by omega), Nat.sub_eq_zero_of_le hw]
  rfl

/-- C88 is false for a window longer than the context of the model: for every model that predicts tokens other than the end of the text, the returned trace is that of a
run on a sequence of one token less than the window, however much longer than the context that is. -/
theorem C88_context_false (run : Tensor ℤ → Option Tr) (outputs : Tr → List (Tensor ℤ)) (hf : OutputsFormed run outputs) (empty : Tr) (eos : ℤ) (context window : ℕ)
    (prompt : List ℤ) (hp : prompt.length + 1 < context) (hw : context < window)
    (hm : ∀ seq, ∃ t, predicted run outputs seq = some t ∧ t ≠ eos) :
    ∃ (seq : List ℤ) (final : Tr) (calls : List (ℕ × Tr)), runInference run outputs empty eos context (some window) prompt = some (final, calls) ∧
      seq.length = window - 1 ∧ prompt <+: seq ∧ run ⟨[seq.length], seq⟩ = some final := by
  obtain ⟨r, hr⟩ := Option.isSome_iff_exists.1 (C88_answers run outputs hf empty eos context (some window) prompt hp
    (fun gen _ => by obtain ⟨t, ht, -⟩ := hm (prompt ++ gen); simp [ht]))
  obtain ⟨final, calls⟩ := r
  obtain ⟨gen, -, -, -, hend⟩ := C88_greedy_partial run outputs hf empty eos context (some window) prompt final calls (by simp only [Option.getD_some]; omega) hr
  rcases hend with ⟨-, h2, -⟩ | ⟨h1, h2⟩
  · obtain ⟨t, ht, hne⟩ := hm (prompt ++ gen)
    rw [ht] at h2
    exact absurd (by simpa using h2) hne
  · simp only [Option.getD_some] at h1
    refine ⟨prompt ++ gen.dropLast, final, calls, hr, ?_, List.prefix_append _ _, ?_⟩
    · simp only [List.length_append, List.length_dropLast]
      omega
    · have : (prompt ++ gen.dropLast).length = prompt.length + gen.length - 1 := by
        simp only [List.length_append, List.length_dropLast]
        omega
      rwa [this]

/-! ### Cases -/

/-- A model that counts up from its last token: for every position it predicts the next number. -/
def countingRun (t : Tensor ℤ) : Option (Tensor ℤ) := some ⟨[t.data.length, 1], t.data.map (· + 1)⟩

theorem counting_formed : OutputsFormed countingRun fun t => [t] := by
  intro t trace h out ho
  simp only [countingRun, Option.some.injEq] at h
  subst h
  simp only [List.mem_singleton] at ho
  subst ho
  simp

/-- It stops at the end of the text, seven, with the trace of the whole sequence. -/
example : runInference countingRun (fun t => [t]) ⟨[], []⟩ 7 32 none [3, 4] =
    some (⟨[4, 1], [4, 5, 6, 7]⟩, [(1, ⟨[2, 1], [4, 5]⟩), (2, ⟨[3, 1], [4, 5, 6]⟩)]) := by decide +kernel

/-- And at the window. -/
example : runInference countingRun (fun t => [t]) ⟨[], []⟩ 7 32 (some 3) [3, 4] = some (⟨[2, 1], [4, 5]⟩, [(1, ⟨[2, 1], [4, 5]⟩)]) := by decide +kernel

example : ∃ t, predicted countingRun (fun t => [t]) [3, 4] = some t ∧ t ≠ 7 := ⟨5, by decide +kernel, by decide⟩

/-- A model that predicts zero for every sequence meets the hypotheses of `C88_context_false`. -/
example : let run : Tensor ℤ → Option (Tensor ℤ) := fun t => some ⟨[t.data.length + 1, 1], List.replicate (t.data.length + 1) 0⟩
    (∀ seq, ∃ t, predicted run (fun t => [t]) seq = some t ∧ t ≠ 1) ∧ OutputsFormed run fun t => [t] := by
  refine ⟨fun seq => ⟨0, ?_, by decide⟩, ?_⟩
  · simp [predicted, Spec.announced, List.replicate_succ']
  · intro t trace h out ho
    simp only [Option.some.injEq] at h
    subst h
    simp only [List.mem_singleton] at ho
    subst ho
    simp

end Props
