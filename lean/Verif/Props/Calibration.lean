import Verif.Model.Calibration
import Verif.Spec.Calibration
import Verif.Spec.GraphRun
import Verif.Lemmas.GraphRun
import Verif.Props.Quant
import Verif.Props.GraphRun

/-!
C90: the scaling factors chosen by observing inferences.
-/

namespace Props

open Model Spec Lemmas

variable {L : Type}

/-! ### What is tracked -/

/-- The values tracked under a key. -/
def tracked (t : Tracker) (a j : ℕ) : List ℚ := (t a j).getD []

theorem tracked_track (t : Tracker) (id i : ℕ) (data : List ℚ) (a j : ℕ) :
    tracked (t.track id i data) a j = tracked t a j ++ if a = id ∧ j = i then data else [] := by
  unfold tracked Tracker.track
  split <;> simp

theorem tracked_foldl (id a j : ℕ) : ∀ (xs : List (List ℚ × ℕ)) (t : Tracker) (v : ℚ),
    v ∈ tracked (xs.foldl (fun t x => t.track id x.2 x.1) t) a j ↔ v ∈ tracked t a j ∨ a = id ∧ ∃ d, (d, j) ∈ xs ∧ v ∈ d
  | [], t, v => by simp
  | x :: xs, t, v => by
    rw [List.foldl_cons, tracked_foldl id a j xs, tracked_track, List.mem_append]
    by_cases h : a = id ∧ j = x.2
    · rw [if_pos h]
      obtain ⟨rfl, rfl⟩ := h
      constructor
      · rintro ((h | h) | ⟨-, d, h₁, h₂⟩)
        · exact .inl h
        · exact .inr ⟨rfl, x.1, by simp, h⟩
        · exact .inr ⟨rfl, d, by simp [h₁], h₂⟩
      · rintro (h | ⟨-, d, h₁, h₂⟩)
        · exact .inl (.inl h)
        · rcases List.mem_cons.1 h₁ with h₁ | h₁
          · rw [← h₁]
            exact .inl (.inr h₂)
          · exact .inr ⟨rfl, d, h₁, h₂⟩
    · rw [if_neg h]
      constructor
      · rintro ((h' | h') | ⟨h₀, d, h₁, h₂⟩)
        · exact .inl h'
        · cases h'
        · exact .inr ⟨h₀, d, by simp [h₁], h₂⟩
      · rintro (h' | ⟨h₀, d, h₁, h₂⟩)
        · exact .inl (.inl h')
        · rcases List.mem_cons.1 h₁ with h₁ | h₁
          · exact absurd ⟨h₀, by rw [← h₁]⟩ h
          · exact .inr ⟨h₀, d, h₁, h₂⟩

theorem tracked_trackAll (t : Tracker) (id : ℕ) (data : List (List ℚ)) (a j : ℕ) (v : ℚ) :
    v ∈ tracked (t.trackAll id data) a j ↔ v ∈ tracked t a j ∨ a = id ∧ ∃ d, data[j]? = some d ∧ v ∈ d := by
  unfold Tracker.trackAll
  rw [tracked_foldl]
  simp only [List.mem_zipIdx_iff_getElem?]

/-- The run of a sample with a tracker: the trace is that of the run without, and tracked are in addition the outputs of the nodes. -/
theorem trackedSteps_spec (eval : L → List (List ℚ) → Option (List (List ℚ))) (g : Graph L) (input : List (List ℚ)) :
    ∀ (ids : List ℕ) (tr : List (ℕ × List (List ℚ))) (t : Tracker) (tr' : List (ℕ × List (List ℚ))) (t' : Tracker), ids.Nodup → (∀ x ∈ ids, mapGet x tr = none) →
      ids.foldlM (trackedStep eval g input) (tr, t) = some (tr', t') →
      ids.foldlM (runStep eval g input) tr = some tr' ∧
        ∀ a j v, v ∈ tracked t' a j ↔ v ∈ tracked t a j ∨ a ∈ ids ∧ ∃ outs d, mapGet a tr' = some outs ∧ outs[j]? = some d ∧ v ∈ d
  | [], tr, t, tr', t', _, _, h => by
    simp only [List.foldlM_nil] at h
    cases h
    simp
  | x :: ids, tr, t, tr', t', hn, hf, h => by
    simp only [List.foldlM_cons, Option.bind_eq_bind] at h ⊢
    cases hs : trackedStep eval g input (tr, t) x with
    | none => rw [hs] at h; simp at h
    | some st =>
      obtain ⟨tr₁, t₁⟩ := st
      rw [hs, Option.bind_some] at h
      unfold trackedStep at hs
      simp only [Option.bind_eq_bind, Option.bind_eq_some_iff, Option.some.injEq, Prod.mk.injEq] at hs
      obtain ⟨n, h₁, ins, h₂, out, h₃, rfl, rfl⟩ := hs
      have hn' := List.nodup_cons.1 hn
      have hf' : ∀ y ∈ ids, mapGet y (mapSet x out tr) = none := by
        intro y hy
        rw [mapGet_mapSet, if_neg (by rintro rfl; exact hn'.1 hy)]
        exact hf y (by simp [hy])
      obtain ⟨i₁, i₂⟩ := trackedSteps_spec eval g input ids _ _ tr' t' hn'.2 hf' h
      have hstep : runStep eval g input tr x = some (mapSet x out tr) := by
        unfold runStep
        simp only [Option.bind_eq_bind, h₁, h₂, h₃, Option.bind_some]
      refine ⟨by rw [hstep, Option.bind_some]; exact i₁, fun a j v => ?_⟩
      have hx : mapGet x tr' = some out := by
        have := (runTrace_spec eval g input ids _ _ hn'.2 hf' i₁).1 x out (by rw [mapGet_mapSet, if_pos rfl])
        exact this
      rw [i₂, tracked_trackAll]
      constructor
      · rintro ((h' | ⟨rfl, d, hd, hv⟩) | ⟨ha, r⟩)
        · exact .inl h'
        · exact .inr ⟨by simp, out, d, hx, hd, hv⟩
        · exact .inr ⟨by simp [ha], r⟩
      · rintro (h' | ⟨ha, outs, d, ho, hd, hv⟩)
        · exact .inl (.inl h')
        · rcases List.mem_cons.1 ha with rfl | ha
          · rw [hx] at ho
            cases ho
            exact .inl (.inr ⟨rfl, d, hd, hv⟩)
          · exact .inr ⟨ha, outs, d, ho, hd, hv⟩

theorem zip_firsts {A B : Type} : ∀ (a : List A) (b : List B), (a.zip b).map (·.1) = a.take b.length
  | [], _ => by simp
  | _ :: _, [] => by simp
  | x :: a, y :: b => by simp [zip_firsts a b]

/-- What observing a list of samples tracks: under the id of a node the values of its outputs in the runs of the samples, and under the id for inputs the values of the
samples; every run succeeded. -/
theorem observe_spec (eval : L → List (List ℚ) → Option (List (List ℚ))) (g : Graph L) (hk : (g.map (·.1)).Nodup) (sizes : List ℕ) :
    ∀ (samples : List (List (List ℚ))) (t t' : Tracker), samples.foldlM (observeSample eval g sizes) t = some t' →
      (∀ sample ∈ samples, (runModel eval g (sample.take sizes.length)).isSome) ∧
      ∀ a j v, v ∈ tracked t' a j ↔ v ∈ tracked t a j ∨ ∃ sample ∈ samples, (a = 10000 ∧ ∃ d, (sample.take sizes.length)[j]? = some d ∧ v ∈ d) ∨
        ∃ trace out outs d, runModel eval g (sample.take sizes.length) = some (trace, out) ∧ mapGet a trace = some outs ∧ outs[j]? = some d ∧ v ∈ d
  | [], t, t', h => by
    simp only [List.foldlM_nil] at h
    cases h
    simp
  | sample :: samples, t, t', h => by
    simp only [List.foldlM_cons, Option.bind_eq_bind] at h
    cases hs : observeSample eval g sizes t sample with
    | none => rw [hs] at h; simp at h
    | some t₁ =>
      rw [hs, Option.bind_some] at h
      obtain ⟨i₁, i₂⟩ := observe_spec eval g hk sizes samples t₁ t' h
      unfold observeSample at hs
      have hz : (sample.zip sizes).map (·.1) = sample.take sizes.length := zip_firsts sample sizes
      simp only [hz] at hs
      split at hs
      · simp only [Option.bind_eq_bind, Option.bind_eq_some_iff, Option.some.injEq] at hs
        obtain ⟨⟨tr, t₂⟩, h₁, acc, h₂, out, h₃, rfl⟩ := hs
        obtain ⟨hr, -⟩ := C48_forward g hk
        obtain ⟨j₁, j₂⟩ := trackedSteps_spec eval g (sample.take sizes.length) (forwardOrder g) [] _ tr t₂ hr.once (fun _ _ => rfl) h₁
        have hrun : runModel eval g (sample.take sizes.length) = some (tr, out) := by
          have hrt : runTrace eval g (sample.take sizes.length) = some tr := j₁
          unfold runModel
          simp only [Option.bind_eq_bind, hrt, h₂, h₃, Option.bind_some]
        have hkeys := (runTrace_spec eval g _ (forwardOrder g) [] tr hr.once (fun _ _ => rfl) j₁).2.1
        refine ⟨?_, fun a j v => ?_⟩
        · intro s hs'
          rcases List.mem_cons.1 hs' with rfl | hs'
          · rw [hrun]; rfl
          · exact i₁ s hs'
        · rw [i₂, j₂, tracked_trackAll]
          constructor
          · rintro (((h' | ⟨ha, d, hd, hv⟩) | ⟨-, outs, d, ho, hd, hv⟩) | ⟨s, hs', r⟩)
            · exact .inl h'
            · exact .inr ⟨sample, by simp, .inl ⟨ha, d, hd, hv⟩⟩
            · exact .inr ⟨sample, by simp, .inr ⟨tr, out, outs, d, hrun, ho, hd, hv⟩⟩
            · exact .inr ⟨s, by simp [hs'], r⟩
          · rintro (h' | ⟨s, hs', r⟩)
            · exact .inl (.inl (.inl h'))
            · rcases List.mem_cons.1 hs' with rfl | hs'
              · rcases r with ⟨ha, d, hd, hv⟩ | ⟨tr', out', outs, d, hr', ho, hd, hv⟩
                · exact .inl (.inl (.inr ⟨ha, d, hd, hv⟩))
                · rw [hrun] at hr'
                  cases hr'
                  refine .inl (.inr ⟨?_, outs, d, ho, hd, hv⟩)
                  have := (hkeys a).1 (by rw [ho]; rfl)
                  simpa [mapGet] using this
              · exact .inr ⟨s, hs', r⟩
      · cases hs

/-! ### The factor chosen for tracked values -/

theorem foldl_min_spec : ∀ (vs : List ℚ) (v : ℚ), vs.foldl min v ∈ v :: vs ∧ ∀ w ∈ v :: vs, vs.foldl min v ≤ w
  | [], v => by simp
  | u :: vs, v => by
    obtain ⟨h₁, h₂⟩ := foldl_min_spec vs (min v u)
    rw [List.foldl_cons]
    constructor
    · rcases List.mem_cons.1 h₁ with h | h
      · rw [h]
        rcases min_choice v u with h | h <;> simp [h]
      · simp [h]
    · intro w hw
      simp only [List.mem_cons] at hw h₂
      rcases hw with rfl | rfl | hw
      · exact (h₂ _ (.inl rfl)).trans (min_le_left _ _)
      · exact (h₂ _ (.inl rfl)).trans (min_le_right _ _)
      · exact h₂ w (.inr hw)

theorem foldl_max_spec : ∀ (vs : List ℚ) (v : ℚ), vs.foldl max v ∈ v :: vs ∧ ∀ w ∈ v :: vs, w ≤ vs.foldl max v
  | [], v => by simp
  | u :: vs, v => by
    obtain ⟨h₁, h₂⟩ := foldl_max_spec vs (max v u)
    rw [List.foldl_cons]
    constructor
    · rcases List.mem_cons.1 h₁ with h | h
      · rw [h]
        rcases max_choice v u with h | h <;> simp [h]
      · simp [h]
    · intro w hw
      simp only [List.mem_cons] at hw h₂
      rcases hw with rfl | rfl | hw
      · exact (le_max_left _ _).trans (h₂ _ (.inl rfl))
      · exact (le_max_right _ _).trans (h₂ _ (.inl rfl))
      · exact h₂ w (.inr hw)

theorem fromAbsoluteMax_eq (bl : ℕ) (A : ℚ) (hA : 0 ≤ A) (M : ℤ) (hMd : M = 2 ^ (bl - 1) - 1) (hM : 1 ≤ M) :
    ScalingFactor.fromAbsoluteMax bl A none = ⟨-A, A, A / M, (-M, M)⟩ := by
  have hMq : (1 : ℚ) ≤ (M : ℚ) := by exact_mod_cast hM
  have hM0 : (M : ℚ) ≠ 0 := by linarith
  unfold ScalingFactor.fromAbsoluteMax ScalingFactor.fromSpan qMin qMax
  simp only [Option.getD_none, abs_of_nonneg hA, ScalingFactor.mk.injEq, true_and]
  constructor
  · rw [show (2 ^ (bl - 1) - 1 - (-(2 ^ (bl - 1)) + 1) : ℤ) = 2 * M by rw [hMd]; ring]
    push_cast
    field_simp
    ring
  · rw [hMd]
    simp
    ring

/-- The factor made from the absolute maximum of values. -/
theorem fromAbsoluteMax_fits (bl : ℕ) (hbl : 2 ≤ bl) (A : ℚ) (vs : Set ℚ) (hle : ∀ v ∈ vs, |v| ≤ A) (hex : ∃ v ∈ vs, |v| = A) :
    Fits bl (ScalingFactor.fromAbsoluteMax bl A none) vs := by
  have hA : 0 ≤ A := by
    obtain ⟨v, -, h⟩ := hex
    rw [← h]
    exact abs_nonneg v
  have hM : (1 : ℤ) ≤ 2 ^ (bl - 1) - 1 := by
    have : (2 : ℤ) ^ 1 ≤ 2 ^ (bl - 1) := pow_le_pow_right₀ (by norm_num) (by omega)
    omega
  obtain ⟨M, hMd⟩ : ∃ M : ℤ, M = 2 ^ (bl - 1) - 1 := ⟨_, rfl⟩
  rw [← hMd] at hM
  have hMq : (1 : ℚ) ≤ (M : ℚ) := by exact_mod_cast hM
  have hM0 : (M : ℚ) ≠ 0 := by linarith
  have hs : ScalingFactor.fromAbsoluteMax bl A none = ⟨-A, A, A / M, (-M, M)⟩ := fromAbsoluteMax_eq bl A hA M hMd (by omega)
  rw [hs]
  obtain ⟨s, hsd⟩ : ∃ s : ScalingFactor, s = ⟨-A, A, A / M, (-M, M)⟩ := ⟨_, rfl⟩
  rw [← hsd]
  have hsm : s.max = A := by rw [hsd]
  have hdom : s.domain = (-M, M) := by rw [hsd]
  have hsc : s.scale = A / M := by rw [hsd]
  have hAM : (M : ℚ) * (A / M) = A := by field_simp
  have h0 : A = 0 → s.quantize 0 = 0 := by
    intro _
    unfold ScalingFactor.quantize
    have hr : roundAway (0 : ℚ) = 0 := by exact_mod_cast roundAway_int (K := ℚ) 0
    simp only [zero_div, hr, hdom]
    rw [if_neg (by omega), if_neg (by omega)]
  constructor
  · intro v hv
    have := abs_le.1 (hle v hv)
    rw [hsd]
    exact this
  · intro v
    have := C19_in_range s (by rw [hdom]; simp only; omega) v
    rw [hdom] at this
    rw [← hMd]
    exact this
  · intro v hv
    by_cases hz : A = 0
    · have : v = 0 := by
        have := hle v hv
        rw [hz] at this
        exact abs_eq_zero.1 (le_antisymm this (abs_nonneg v))
      subst this
      rw [h0 hz]
      unfold ScalingFactor.dequantize
      rw [hsc, hz]
      simp
    · have hpos : 0 < s.scale := by
        rw [hsc]
        apply div_pos (lt_of_le_of_ne hA (Ne.symm hz)); linarith
      have hb := abs_le.1 (hle v hv)
      apply C19_accuracy s hpos v
      · rw [hdom, hsc]
        push_cast
        rw [neg_mul, hAM]
        exact hb.1
      · rw [hdom, hsc, hAM]
        exact hb.2
  · obtain ⟨v, hv, hva⟩ := hex
    by_cases hz : A = 0
    · exact ⟨v, hv, .inl ⟨abs_eq_zero.1 (hva.trans hz), by rw [hsm, hz]⟩⟩
    · have hsz : s.scale ≠ 0 := by
        rw [hsc]
        exact div_ne_zero hz hM0
      refine ⟨v, hv, .inr ⟨?_, by rw [hsm, hva]⟩⟩
      rw [← hMd]
      rcases (abs_eq hA).1 hva with h | h
      · have : v = s.dequantize M := by
          unfold ScalingFactor.dequantize
          rw [hsc, hAM, h]
        rw [this, C19_round_trip s hsz M (by rw [hdom]; simp only; omega) (by rw [hdom])]
        exact abs_of_pos (by omega)
      · have : v = s.dequantize (-M) := by
          unfold ScalingFactor.dequantize
          rw [hsc, h]
          push_cast
          rw [neg_mul, hAM]
        rw [this, C19_round_trip s hsz (-M) (by rw [hdom]) (by rw [hdom]; simp only; omega), abs_neg]
        exact abs_of_pos (by omega)

theorem factor_fits (bl : ℕ) (hbl : 2 ≤ bl) (t : Tracker) (id i : ℕ) (d : ℚ × ℚ) (h : t.distributionInfo id i = some d) :
    Fits bl (ScalingFactor.fromAbsoluteMax bl (max |d.1| |d.2|) none) {v | v ∈ tracked t id i} := by
  unfold Tracker.distributionInfo at h
  simp only [Option.bind_eq_bind, Option.bind_eq_some_iff] at h
  obtain ⟨data, h₁, h₂⟩ := h
  have ht : tracked t id i = data := by unfold tracked; rw [h₁]; rfl
  rw [ht]
  cases data with
  | nil => cases h₂
  | cons v vs =>
    simp only [Option.some.injEq] at h₂
    subst h₂
    obtain ⟨a₁, a₂⟩ := foldl_min_spec vs v
    obtain ⟨b₁, b₂⟩ := foldl_max_spec vs v
    apply fromAbsoluteMax_fits bl hbl
    · intro w hw
      exact abs_le_max_abs_abs (a₂ w hw) (b₂ w hw)
    · rcases max_choice |vs.foldl min v| |vs.foldl max v| with h | h
      · exact ⟨_, a₁, h.symm⟩
      · exact ⟨_, b₁, h.symm⟩

theorem factors_get (bl : ℕ) (t : Tracker) (id k : ℕ) (fs : List ScalingFactor) (h : t.factors bl id k = some fs) (i : ℕ) (s : ScalingFactor) (hi : fs[i]? = some s) :
    i < k ∧ ∃ d, t.distributionInfo id i = some d ∧ s = ScalingFactor.fromAbsoluteMax bl (max |d.1| |d.2|) none := by
  have hf := (mapM_forall₂ _ _ _).1 h
  have hl : fs.length = k := by rw [← hf.length_eq, List.length_range]
  have hlt : i < k := by
    rw [← hl]
    exact (List.getElem?_eq_some_iff.1 hi).1
  refine ⟨hlt, ?_⟩
  have := List.forall₂_iff_get.1 hf |>.2 i (by rw [List.length_range]; exact hlt) (by omega)
  simp only [List.get_eq_getElem, List.getElem_range, Option.bind_eq_bind, Option.bind_eq_some_iff, Option.some.injEq] at this
  obtain ⟨d, h₁, h₂⟩ := this
  refine ⟨d, h₁, ?_⟩
  rw [List.getElem?_eq_some_iff] at hi
  rw [← hi.2, h₂]

/-! ### C90 -/

/-- C90, nodes, as far as it holds: after the model was run on samples, the factor chosen for an output of a node fits the values this output had in these runs. What is
missing is the node with id 10000, see `C90_collision_false`. -/
theorem C90_nodes_partial (bl : ℕ) (hbl : 2 ≤ bl) (numOutputs : L → ℕ → ℕ) (numInputs : ℕ) (eval : L → List (List ℚ) → Option (List (List ℚ))) (g : Graph L)
    (hb : Built numOutputs numInputs g) (sizes : List ℕ) (samples : List (List (List ℚ))) (t : Tracker) (h : observe eval g sizes samples = some t)
    (id : ℕ) (hid : id ≠ 10000) (k : ℕ) (fs : List ScalingFactor) (hfs : t.factors bl id k = some fs) (i : ℕ) (s : ScalingFactor) (hs : fs[i]? = some s) :
    Fits bl s {v | ∃ sample ∈ samples, ∃ trace out outs d, runModel eval g (sample.take sizes.length) = some (trace, out) ∧ mapGet id trace = some outs ∧
      outs[i]? = some d ∧ v ∈ d} := by
  obtain ⟨-, h₂⟩ := observe_spec eval g (built_good hb).keys sizes samples _ t h
  obtain ⟨-, d, hd, rfl⟩ := factors_get bl t id k fs hfs i s hs
  have := factor_fits bl hbl t id i d hd
  convert this using 1
  ext v
  simp only [Set.mem_setOf_eq]
  rw [h₂]
  simp [tracked, hid]

/-- C90, sizes: if the calibration runs through, every input in every sample has the size of the corresponding input of the model. -/
theorem C90_sizes (eval : L → List (List ℚ) → Option (List (List ℚ))) (g : Graph L) (sizes : List ℕ) (samples : List (List (List ℚ))) (t : Tracker)
    (h : observe eval g sizes samples = some t) (sample : List (List ℚ)) (hs : sample ∈ samples) (i : ℕ) (d : List ℚ) (n : ℕ) (hd : sample[i]? = some d) (hn : sizes[i]? = some n) :
    d.length = n := by
  unfold observe at h
  have key : ∀ (samples : List (List (List ℚ))) (t₀ t : Tracker), samples.foldlM (observeSample eval g sizes) t₀ = some t → sample ∈ samples → d.length = n := by
    intro samples
    induction samples with
    | nil => intro _ _ _ hs; cases hs
    | cons x samples ih =>
      intro t₀ t h hs
      simp only [List.foldlM_cons, Option.bind_eq_bind, Option.bind_eq_some_iff] at h
      obtain ⟨t₁, h₁, h₂⟩ := h
      rcases List.mem_cons.1 hs with rfl | hs
      · unfold observeSample at h₁
        dsimp only at h₁
        split at h₁
        · rename_i hall
          rw [List.all_eq_true] at hall
          have := hall (d, n) (List.mem_of_getElem? (List.getElem?_zip_eq_some.2 ⟨hd, hn⟩))
          simpa using this
        · cases h₁
      · exact ih t₁ t h₂ hs
  exact key samples _ t h hs

/-- C90, inputs, as far as it holds: the factor chosen for an input of the model fits the values this input has in the samples. What is missing is the model with a node
with id 10000, see `C90_collision_false`. -/
theorem C90_inputs_partial (bl : ℕ) (hbl : 2 ≤ bl) (numOutputs : L → ℕ → ℕ) (numInputs : ℕ) (eval : L → List (List ℚ) → Option (List (List ℚ))) (g : Graph L)
    (hb : Built numOutputs numInputs g) (hid : ∀ n, (10000, n) ∉ g) (sizes : List ℕ) (samples : List (List (List ℚ))) (t : Tracker)
    (h : observe eval g sizes samples = some t) (fs : List ScalingFactor) (hfs : t.inputFactors bl sizes.length = some fs) (i : ℕ) (s : ScalingFactor)
    (hs : fs[i]? = some s) : Fits bl s {v | ∃ sample ∈ samples, ∃ d, sample[i]? = some d ∧ v ∈ d} := by
  obtain ⟨-, h₂⟩ := observe_spec eval g (built_good hb).keys sizes samples _ t h
  obtain ⟨hi, d, hd, rfl⟩ := factors_get bl t 10000 sizes.length fs hfs i s hs
  have := factor_fits bl hbl t 10000 i d hd
  convert this using 1
  ext v
  simp only [Set.mem_setOf_eq]
  rw [h₂]
  have hno : ∀ (sample : List (List ℚ)) trace out outs, runModel eval g (sample.take sizes.length) = some (trace, out) → mapGet 10000 trace ≠ some outs := by
    intro sample trace out outs hr ho
    unfold runModel at hr
    simp only [Option.bind_eq_bind, Option.bind_eq_some_iff, Option.some.injEq, Prod.mk.injEq] at hr
    obtain ⟨tr, ht, -, -, -, -, rfl, -⟩ := hr
    have hfw := (C48_forward g (built_good hb).keys).1
    have hm := ((runTrace_spec eval g _ (forwardOrder g) [] tr hfw.once (fun _ _ => rfl) ht).2.1 10000).1 (by rw [ho]; rfl)
    obtain ⟨n, hn⟩ := hfw.nodes 10000 (by simpa [mapGet] using hm)
    exact hid n hn
  constructor
  · rintro ⟨sample, hm, d, hd, hv⟩
    exact .inr ⟨sample, hm, .inl ⟨rfl, d, by rw [List.getElem?_take, if_pos hi]; exact hd, hv⟩⟩
  · rintro (h' | ⟨sample, hm, ⟨-, d, hd, hv⟩ | ⟨trace, out, outs, d, hr, ho, -⟩⟩)
    · simp [tracked] at h'
    · rw [List.getElem?_take, if_pos hi] at hd
      exact ⟨sample, hm, d, hd, hv⟩
    · exact absurd ho (hno sample trace out outs hr)

/-- The factors exist: if there is a sample and the outputs of the node were not empty, factors are chosen for all of them. -/
theorem C90_chosen (bl : ℕ) (numOutputs : L → ℕ → ℕ) (numInputs : ℕ) (eval : L → List (List ℚ) → Option (List (List ℚ))) (g : Graph L)
    (hb : Built numOutputs numInputs g) (sizes : List ℕ) (samples : List (List (List ℚ))) (t : Tracker) (h : observe eval g sizes samples = some t)
    (id k : ℕ) (hne : ∀ i < k, ∃ sample ∈ samples, ∃ trace out outs d, runModel eval g (sample.take sizes.length) = some (trace, out) ∧ mapGet id trace = some outs ∧
      outs[i]? = some d ∧ d ≠ []) : ∃ fs, t.factors bl id k = some fs ∧ fs.length = k := by
  obtain ⟨-, h₂⟩ := observe_spec eval g (built_good hb).keys sizes samples _ t h
  have key : ∀ i ∈ List.range k, ∃ s, (do let d ← t.distributionInfo id i; some (ScalingFactor.fromAbsoluteMax bl (max |d.1| |d.2|) none)) = some s := by
    intro i hi
    obtain ⟨sample, hm, trace, out, outs, d, hr, ho, hd, hn⟩ := hne i (List.mem_range.1 hi)
    obtain ⟨v, hv⟩ := List.exists_mem_of_ne_nil d hn
    have hmem := (h₂ id i v).2 (.inr ⟨sample, hm, .inr ⟨trace, out, outs, d, hr, ho, hd, hv⟩⟩)
    unfold tracked at hmem
    unfold Tracker.distributionInfo
    cases ht : t id i with
    | none => rw [ht] at hmem; cases hmem
    | some data =>
      rw [ht] at hmem
      cases data with
      | nil => cases hmem
      | cons w ws => exact ⟨_, rfl⟩
  obtain ⟨fs, hfs⟩ := mapM_exists _ _ fun i hi => Option.isSome_iff_exists.2 (key i hi)
  refine ⟨fs, hfs, ?_⟩
  have := ((mapM_forall₂ _ _ _).1 hfs).length_eq
  rw [← this, List.length_range]

/-- C90 is false for a model with a node with id 10000, which is the id under which the inputs are tracked: if this node puts out values that are large compared with the
inputs, the factor chosen for the input turns every input value of every sample into zero. -/
theorem C90_collision_false (bl : ℕ) (hbl : 2 ≤ bl) (numOutputs : L → ℕ → ℕ) (numInputs : ℕ) (eval : L → List (List ℚ) → Option (List (List ℚ))) (g : Graph L)
    (hb : Built numOutputs numInputs g) (sizes : List ℕ) (samples : List (List (List ℚ))) (t : Tracker) (h : observe eval g sizes samples = some t)
    (fs : List ScalingFactor) (hfs : t.inputFactors bl sizes.length = some fs) (i : ℕ) (s : ScalingFactor) (hs : fs[i]? = some s)
    (sample : List (List ℚ)) (hsm : sample ∈ samples) (trace : List (ℕ × List (List ℚ))) (out outs : List (List ℚ))
    (hr : runModel eval g (sample.take sizes.length) = some (trace, out)) (ho : mapGet 10000 trace = some outs) (d : List ℚ) (hd : outs[i]? = some d) (w : ℚ) (hw : w ∈ d)
    (v : ℚ) (hlarge : 2 * (2 ^ (bl - 1) - 1) * |v| < |w|) : s.quantize v = 0 := by
  obtain ⟨-, h₂⟩ := observe_spec eval g (built_good hb).keys sizes samples _ t h
  obtain ⟨-, di, hdi, rfl⟩ := factors_get bl t 10000 sizes.length fs hfs i s hs
  have hf := factor_fits bl hbl t 10000 i di hdi
  have hin := hf.inside w ((h₂ 10000 i w).2 (.inr ⟨sample, hsm, .inr ⟨trace, out, outs, d, hr, ho, hd, hw⟩⟩))
  obtain ⟨A, hA⟩ : ∃ A, A = max |di.1| |di.2| := ⟨_, rfl⟩
  rw [← hA] at hin ⊢
  have hA0 : 0 ≤ A := by rw [hA]; exact le_max_of_le_left (abs_nonneg _)
  have hM : (1 : ℤ) ≤ 2 ^ (bl - 1) - 1 := by
    have : (2 : ℤ) ^ 1 ≤ 2 ^ (bl - 1) := pow_le_pow_right₀ (by norm_num) (by omega)
    omega
  obtain ⟨M, hMd⟩ : ∃ M : ℤ, M = 2 ^ (bl - 1) - 1 := ⟨_, rfl⟩
  rw [fromAbsoluteMax_eq bl A hA0 M hMd (by omega)] at hin ⊢
  rw [← hMd] at hM
  have hMq : (1 : ℚ) ≤ (M : ℚ) := by exact_mod_cast hM
  have hwA : |w| ≤ A := abs_le.2 hin
  have hlarge' : 2 * (M : ℚ) * |v| < A := by
    have : (M : ℚ) = 2 ^ (bl - 1) - 1 := by rw [hMd]; push_cast; ring
    rw [this]
    linarith
  have hApos : 0 < A := lt_of_le_of_lt (by positivity) hlarge'
  have hq : |v / (A / M)| < 1 / 2 := by
    rw [abs_div, abs_of_pos (by positivity : 0 < A / (M : ℚ)), div_lt_iff₀ (by positivity)]
    rw [← sub_pos]
    have : 1 / 2 * (A / M) - |v| = (A - 2 * M * |v|) / (2 * M) := by field_simp
    rw [this]
    apply div_pos <;> linarith
  have hround : roundAway (v / (A / M)) = 0 := by
    rw [abs_lt] at hq
    unfold roundAway
    split
    · rw [Int.floor_eq_iff]
      push_cast
      constructor <;> linarith
    · rw [neg_eq_zero, Int.floor_eq_iff]
      push_cast
      constructor <;> linarith
  unfold ScalingFactor.quantize
  simp only [hround]
  rw [if_neg (by omega), if_neg (by omega)]

/-! ### Cases -/

/-- A layer that multiplies by `c`. -/
def scaleEval (c : ℚ) (ins : List (List ℚ)) : Option (List (List ℚ)) := some (ins.map fun d => d.map (c * ·))

/-- Two layers one after the other, added with ids `0` and `a`. -/
def scaleChain (a : ℕ) : Graph ℚ := [(0, ⟨[⟨none, 0⟩], [[⟨some a, 0⟩]], 3⟩), (a, ⟨[⟨some 0, 0⟩], [[⟨none, 0⟩]], -1000⟩)]

/-- The two factors of the nodes and the factor of the input, for two samples. -/
example : ((observe scaleEval (scaleChain 1) [2] [[[1, -2]], [[1/2, 0]]]).bind fun t => do
    let a ← t.inputFactors 8 1
    let b ← t.factors 8 0 1
    let c ← t.factors 8 1 1
    some ((a ++ b ++ c).map (·.scale))) = some [2 / 127, 6 / 127, 6000 / 127] := by decide +kernel

/-- With the second node under the id 10000 the input has the factor of that node, and all the inputs become zero. -/
example : ((observe scaleEval (scaleChain 10000) [2] [[[1, -2]], [[1/2, 0]]]).bind fun t => do
    let a ← t.inputFactors 8 1
    some ((a.map (·.scale)), a.flatMap fun s => [1, -2, 1/2, 0].map s.quantize)) = some ([6000 / 127], [0, 0, 0, 0]) := by decide +kernel

theorem scaleChain_built (a : ℕ) (ha : a = 1 ∨ a = 10000) : Built (fun _ _ => 1) 1 (scaleChain a) := by
  have h₁ : Built (fun _ _ => 1) 1 ([(0, ⟨[⟨none, 0⟩], [[]], 3⟩)] : Graph ℚ) :=
    .withId .empty (inputs := [⟨none, 0⟩]) (op := 3) (id := 0) (by simp) rfl
  have h₂ : Built (fun _ _ => 1) 1 ([(0, ⟨[⟨none, 0⟩], [[⟨some a, 0⟩]], 3⟩), (a, ⟨[⟨some 0, 0⟩], [[]], -1000⟩)] : Graph ℚ) := by
    refine .withId h₁ (inputs := [⟨some 0, 0⟩]) (op := -1000) (id := a) ?_ ?_
    · rcases ha with rfl | rfl <;> simp
    · rcases ha with rfl | rfl <;> rfl
  refine .route h₂ (edges := some [⟨some a, 0⟩]) ?_
  rcases ha with rfl | rfl <;> rfl

end Props
