import Verif.Spec.GraphRun
import Verif.Lemmas.Graph

namespace Lemmas

open Model Spec

variable {L V S F : Type}

theorem mapM_forall₂ {α β : Type} (f : α → Option β) : ∀ (l : List α) (o : List β), l.mapM f = some o ↔ List.Forall₂ (fun a b => f a = some b) l o
  | [], o => by
    cases o <;> simp
  | a :: l, o => by
    rw [List.mapM_cons]
    simp only [Option.bind_eq_bind, Option.pure_def, Option.bind_eq_some_iff, Option.some.injEq]
    cases o with
    | nil => constructor <;> intro h <;> simp at h
    | cons b o =>
      rw [List.forall₂_cons, ← mapM_forall₂ f l o]
      constructor
      · rintro ⟨b', h₁, o', h₂, h₃⟩
        cases h₃
        exact ⟨h₁, h₂⟩
      · rintro ⟨h₁, h₂⟩
        exact ⟨b, h₁, o, h₂, rfl⟩

/-- A later trace still has what an earlier one had. -/
def Extends {β : Type} (t t' : List (ℕ × β)) : Prop := ∀ a v, mapGet a t = some v → mapGet a t' = some v

theorem edgeValue_mono {input : List V} {t t' : List (ℕ × List V)} (h : Extends t t') {e : Edge} {v : V} (he : edgeValue input t e = some v) :
    edgeValue input t' e = some v := by
  unfold edgeValue at he ⊢
  cases hn : e.node with
  | none => rw [hn] at he; exact he
  | some a =>
    rw [hn] at he
    simp only at he ⊢
    cases ha : mapGet a t with
    | none => rw [ha] at he; simp at he
    | some outs =>
      rw [ha] at he
      rw [h a outs ha]
      exact he

theorem extends_mapSet {β : Type} {t : List (ℕ × β)} {k : ℕ} {v : β} (h : mapGet k t = none) : Extends t (mapSet k v t) := by
  intro a w ha
  rw [mapGet_mapSet, if_neg]
  · exact ha
  · rintro rfl
    rw [h] at ha
    cases ha

theorem runTrace_spec (eval : L → List V → Option (List V)) (g : Graph L) (input : List V) : ∀ (ids : List ℕ) (t t' : List (ℕ × List V)), ids.Nodup →
    (∀ x ∈ ids, mapGet x t = none) → ids.foldlM (runStep eval g input) t = some t' →
    Extends t t' ∧ (∀ a, (mapGet a t').isSome ↔ (mapGet a t).isSome ∨ a ∈ ids) ∧
    ∀ x ∈ ids, ∃ n ins out, mapGet x g = some n ∧ List.Forall₂ (fun e v => edgeValue input t' e = some v) n.inputs ins ∧ eval n.op ins = some out ∧
      mapGet x t' = some out
  | [], t, t', _, _, h => by
    simp only [List.foldlM_nil] at h
    cases h
    exact ⟨fun _ _ h => h, by simp, by simp⟩
  | x :: ids, t, t', hn, hf, h => by
    simp only [List.foldlM_cons, Option.bind_eq_bind] at h
    cases hs : runStep eval g input t x with
    | none => rw [hs] at h; simp at h
    | some t₁ =>
      rw [hs] at h
      simp only [Option.bind_some] at h
      simp only [runStep, Option.bind_eq_bind, Option.bind_eq_some_iff, Option.some.injEq] at hs
      obtain ⟨n, hx, ins, hi, out, ho, rfl⟩ := hs
      obtain ⟨hxn, hn'⟩ := List.nodup_cons.mp hn
      have hxt := hf x (by simp)
      obtain ⟨e₁, e₂, e₃⟩ := runTrace_spec eval g input ids (mapSet x out t) t' hn' (fun y hy => by
        have hyx : y ≠ x := fun e => hxn (e ▸ hy)
        rw [mapGet_mapSet, if_neg hyx]
        exact hf y (by simp [hy])) h
      refine ⟨fun a v ha => e₁ a v (extends_mapSet hxt a v ha), ?_, ?_⟩
      · intro a
        rw [e₂, mapGet_mapSet]
        by_cases ha : a = x
        · simp [ha]
        · simp [ha]
      · intro y hy
        rcases List.mem_cons.mp hy with rfl | hy
        · refine ⟨n, ins, out, hx, ?_, ho, e₁ y out (by rw [mapGet_mapSet, if_pos rfl])⟩
          refine ((mapM_forall₂ _ _ _).mp hi).imp ?_
          intro e v hv
          exact edgeValue_mono (fun a w ha => e₁ a w (extends_mapSet hxt a w ha)) hv
        · exact e₃ y hy

theorem runTrace_complete (eval : L → List V → Option (List V)) (g : Graph L) (hk : (g.map (·.1)).Nodup) (input : List V) (val : ℕ → List V)
    (hval : Dataflow eval g input val) (hdeps : ∀ b m, (b, m) ∈ g → ∀ e ∈ m.inputs, ∀ a, e.node = some a → ∃ n, (a, n) ∈ g)
    (order : List ℕ) (hr : Respects g (TakesFrom g) order) :
    ∀ (ids done : List ℕ) (t : List (ℕ × List V)), order = done ++ ids → (∀ x ∈ done, mapGet x t = some (val x)) →
    ∃ t', ids.foldlM (runStep eval g input) t = some t' ∧ ∀ x ∈ order, mapGet x t' = some (val x)
  | [], done, t, ho, hd => ⟨t, rfl, by simpa [ho] using hd⟩
  | x :: ids, done, t, ho, hd => by
    obtain ⟨n, hn⟩ := hr.nodes x (by rw [ho]; simp)
    obtain ⟨ins, hi, hev⟩ := hval x n hn
    have hm : n.inputs.mapM (edgeValue input t) = some ins := by
      rw [mapM_forall₂]
      have hi' : List.Forall₂ (fun e v => e ∈ n.inputs ∧ Carries input val e v) n.inputs ins := by
        have : ∀ (l : List Edge) (o : List V), List.Forall₂ (Carries input val) l o → List.Forall₂ (fun e v => e ∈ l ∧ Carries input val e v) l o := by
          intro l o h
          induction h with
          | nil => exact .nil
          | cons h _ ih => exact .cons ⟨by simp, h⟩ (ih.imp fun e v ⟨a, b⟩ => ⟨List.mem_cons_of_mem _ a, b⟩)
        exact this _ _ hi
      refine hi'.imp ?_
      rintro e v ⟨he, hc⟩
      unfold Carries at hc
      unfold edgeValue
      cases hen : e.node with
      | none => rw [hen] at hc; exact hc
      | some a =>
        rw [hen] at hc
        have ha : a ∈ done := hr.before done x ids ho a ⟨⟨n, hn, e, he, hen⟩, hdeps x n hn e he a hen⟩
        simp only [hd a ha, Option.bind_eq_bind, Option.bind_some]
        exact hc
    have hstep : runStep eval g input t x = some (mapSet x (val x) t) := by
      simp [runStep, (mapGet_iff_mem g hk x n).mpr hn, hm, hev]
    obtain ⟨t', h₁, h₂⟩ := runTrace_complete eval g hk input val hval hdeps order hr ids (done ++ [x]) (mapSet x (val x) t) (by simp [ho]) (by
      intro y hy
      rw [mapGet_mapSet]
      by_cases hyx : y = x
      · simp [hyx]
      · rw [if_neg hyx]
        refine hd y ?_
        simpa [hyx] using hy)
    exact ⟨t', by simp [List.foldlM_cons, hstep, h₁], h₂⟩

/-! ### Claims -/

theorem claimForWire_mono {cs cs' : List (ℕ × List (Claim F))} (h : Extends cs cs') {outC : List (Claim F)} {w : List Edge} {c : Claim F}
    (hc : claimForWire cs outC w = some c) : claimForWire cs' outC w = some c := by
  unfold claimForWire at hc ⊢
  match w with
  | [] => simp at hc
  | [e] =>
    simp only at hc ⊢
    cases he : e.node with
    | none => rw [he] at hc; exact hc
    | some b =>
      rw [he] at hc
      simp only at hc ⊢
      cases hb : mapGet b cs with
      | none => rw [hb] at hc; simp at hc
      | some l => rw [hb] at hc; rw [h b l hb]; exact hc
  | _ :: _ :: _ => simp at hc

theorem backward_spec (layer : S → ℕ → Node L → List (Claim F) → Option (S × List (Claim F))) (g : Graph L) (outC : List (Claim F)) :
    ∀ (ids : List ℕ) (s : S) (cs : List (ℕ × List (Claim F))) (s' : S) (cs' : List (ℕ × List (Claim F))), ids.Nodup →
    (∀ x ∈ ids, mapGet x cs = none) → ids.foldlM (backwardStep layer g outC) (s, cs) = some (s', cs') →
    Extends cs cs' ∧ (∀ a, (mapGet a cs').isSome ↔ (mapGet a cs).isSome ∨ a ∈ ids) ∧
    ∃ log : List (LayerCall S F), log.map (·.id) = ids ∧ Follows s log s' ∧
      ∀ c ∈ log, ∃ n, mapGet c.id g = some n ∧ layer c.before c.id n c.outputs = some (c.after, c.inputs) ∧ mapGet c.id cs' = some c.inputs ∧
        List.Forall₂ (fun w cl => claimForWire cs' outC w = some cl) n.outputs c.outputs
  | [], s, cs, s', cs', _, _, h => by
    simp only [List.foldlM_nil] at h
    cases h
    exact ⟨fun _ _ h => h, by simp, [], rfl, rfl, by simp⟩
  | x :: ids, s, cs, s', cs', hn, hf, h => by
    simp only [List.foldlM_cons, Option.bind_eq_bind] at h
    cases hs : backwardStep layer g outC (s, cs) x with
    | none => rw [hs] at h; simp at h
    | some st₁ =>
      rw [hs] at h
      simp only [Option.bind_some] at h
      simp only [backwardStep, Option.bind_eq_bind, Option.bind_eq_some_iff, Option.some.injEq] at hs
      obtain ⟨n, hx, claims, hc, r, hl, rfl⟩ := hs
      obtain ⟨hxn, hn'⟩ := List.nodup_cons.mp hn
      have hxt := hf x (by simp)
      obtain ⟨e₁, e₂, log, l₁, l₂, l₃⟩ := backward_spec layer g outC ids r.1 (mapSet x r.2 cs) s' cs' hn' (fun y hy => by
        have hyx : y ≠ x := fun e => hxn (e ▸ hy)
        rw [mapGet_mapSet, if_neg hyx]
        exact hf y (by simp [hy])) h
      refine ⟨fun a v ha => e₁ a v (extends_mapSet hxt a v ha), ?_, ⟨s, x, claims, r.1, r.2⟩ :: log, by simp [l₁], ⟨rfl, l₂⟩, ?_⟩
      · intro a
        rw [e₂, mapGet_mapSet]
        by_cases ha : a = x
        · simp [ha]
        · simp [ha]
      · intro c hcm
        rcases List.mem_cons.mp hcm with rfl | hcm
        · refine ⟨n, hx, hl, e₁ x r.2 (by rw [mapGet_mapSet, if_pos rfl]), ?_⟩
          refine ((mapM_forall₂ _ _ _).mp hc).imp ?_
          intro w cl hw
          exact claimForWire_mono (fun a v ha => e₁ a v (extends_mapSet hxt a v ha)) hw
        · exact l₃ c hcm

end Lemmas
