import Verif.Model.Metadata
import Verif.Lemmas.Requant

/-! The two loops of `quantize_model`. -/

namespace Lemmas

open Model Spec

variable {L M S : Type}

/-- What the first loop records about one node, in the final maps. -/
structure NodeQuantized (quantize : ℕ → L → List S → Option (QuantizedLayer M S)) (inputs : List S) (st : QuantizeState M S) (x : ℕ × Node L) (y : ℕ × Node M) : Prop where
  key : y.1 = x.1
  sameInputs : y.2.inputs = x.2.inputs
  sameOutputs : y.2.outputs = x.2.outputs
  layer : ∃ ins q, x.2.inputs.mapM (edgeValue inputs st.outs) = some ins ∧ quantize x.1 x.2.op ins = some q ∧ q.formed ∧ y.2.op = q.op ∧
    mapGet x.1 st.ins = some ins ∧ mapGet x.1 st.outs = some q.outs ∧ ∀ rs, q.requants = some rs → (x.1, rs) ∈ st.requants

theorem mapM_edgeValue_mono {input : List S} {t t' : List (ℕ × List S)} (h : Extends t t') (l : List Edge) (o : List S) (hl : l.mapM (edgeValue input t) = some o) :
    l.mapM (edgeValue input t') = some o := by
  rw [mapM_forall₂] at hl ⊢
  exact hl.imp fun _ _ he => edgeValue_mono h he

theorem extends_trans {β : Type} {t t' t'' : List (ℕ × β)} (h : Extends t t') (h' : Extends t' t'') : Extends t t'' := fun a v ha => h' a v (h a v ha)

theorem quantizeNodes_spec (quantize : ℕ → L → List S → Option (QuantizedLayer M S)) (inputs : List S) : ∀ (xs : List (ℕ × Node L)) (st st' : QuantizeState M S),
    xs.foldlM (quantizeNode quantize inputs) st = some st' → (xs.map (·.1)).Nodup → (∀ x ∈ xs, mapGet x.1 st.outs = none ∧ mapGet x.1 st.ins = none) →
    Extends st.outs st'.outs ∧ Extends st.ins st'.ins ∧
    (∀ k, (mapGet k st'.outs).isSome ↔ (mapGet k st.outs).isSome ∨ k ∈ xs.map (·.1)) ∧
    (∀ k, (mapGet k st'.ins).isSome ↔ (mapGet k st.ins).isSome ∨ k ∈ xs.map (·.1)) ∧
    (∃ new, st'.nodes = st.nodes ++ new ∧ List.Forall₂ (NodeQuantized quantize inputs st') xs new) ∧
    ∃ rq, st'.requants = st.requants ++ rq ∧ (rq.map (·.1)).Sublist (xs.map (·.1)) ∧
      (∀ p ∈ rq, ∃ sc, mapGet p.1 st'.outs = some sc ∧ sc.length = p.2.length ∧ ∃ x ∈ xs, x.1 = p.1 ∧ ∃ ins q, quantize x.1 x.2.op ins = some q ∧ q.outs = sc) := by
  intro xs
  induction xs with
  | nil =>
    intro st st' h _ _
    simp only [List.foldlM_nil] at h
    cases h
    exact ⟨fun _ _ h => h, fun _ _ h => h, by simp, by simp, ⟨[], by simp, .nil⟩, [], by simp, by simp, by simp⟩
  | cons x xs ih =>
    intro st st' h hn hfresh
    simp only [List.foldlM_cons, Option.bind_eq_bind, Option.bind_eq_some_iff] at h
    obtain ⟨st₁, h₁, h⟩ := h
    unfold quantizeNode at h₁
    simp only [Option.bind_eq_bind, Option.bind_eq_some_iff] at h₁
    obtain ⟨ins, hins, q, hq, h₁⟩ := h₁
    by_cases hf : q.formed
    swap
    · rw [if_neg hf] at h₁
      cases h₁
    rw [if_pos hf, Option.some.injEq] at h₁
    subst h₁
    simp only [List.map_cons, List.nodup_cons] at hn
    have hx := hfresh x (by simp)
    obtain ⟨e₁, e₂, k₁, k₂, ⟨new, hnew, hall⟩, rq, hrq, hsub, hr⟩ := ih _ st' h hn.2 (by
      intro y hy
      have hne : y.1 ≠ x.1 := fun he => hn.1 (List.mem_map.2 ⟨y, hy, he⟩)
      simp only [mapGet_mapSet, if_neg hne]
      exact hfresh y (List.mem_cons_of_mem _ hy))
    dsimp only at e₁ e₂ k₁ k₂ hnew hrq
    have e₁' : Extends st.outs st'.outs := extends_trans (extends_mapSet hx.1) e₁
    have hkey : ∀ (m m' : List (ℕ × List S)) (v : List S), (∀ k, (mapGet k m').isSome ↔ (mapGet k (mapSet x.1 v m)).isSome ∨ k ∈ xs.map (·.1)) →
        ∀ k, (mapGet k m').isSome ↔ (mapGet k m).isSome ∨ k ∈ (x :: xs).map (·.1) := by
      intro m m' v hm k
      rw [hm, mapGet_mapSet, List.map_cons, List.mem_cons]
      by_cases hk : k = x.1 <;> simp [hk]
    refine ⟨e₁', extends_trans (extends_mapSet hx.2) e₂, hkey _ _ _ k₁, hkey _ _ _ k₂, ⟨(x.1, ⟨x.2.inputs, x.2.outputs, q.op⟩) :: new, ?_, .cons ⟨rfl, rfl, rfl, ins, q, ?_, hq, hf, rfl, ?_, ?_, ?_⟩ hall⟩,
      (q.requants.toList.map fun rs => (x.1, rs)) ++ rq, ?_, ?_, ?_⟩
    · rw [hnew, List.append_assoc]
      rfl
    · exact mapM_edgeValue_mono e₁' _ _ hins
    · exact e₂ _ _ (by rw [mapGet_mapSet, if_pos rfl])
    · exact e₁ _ _ (by rw [mapGet_mapSet, if_pos rfl])
    · intro rs hrs
      rw [hrq]
      simp [hrs]
    · rw [hrq, List.append_assoc]
    · cases q.requants with
      | none => simpa using hsub.trans (List.sublist_cons_self _ _)
      | some rs => simpa using hsub
    · intro p hp
      rcases List.mem_append.1 hp with hp | hp
      · simp only [List.mem_map, Option.mem_toList] at hp
        obtain ⟨rs, hrs, rfl⟩ := hp
        refine ⟨q.outs, e₁ _ _ (by rw [mapGet_mapSet, if_pos rfl]), ?_, x, by simp, rfl, ins, q, hq, rfl⟩
        simpa [QuantizedLayer.formed, hrs] using hf
      · obtain ⟨sc, a, b, y, hy, c⟩ := hr p hp
        exact ⟨sc, a, b, y, List.mem_cons_of_mem _ hy, c⟩

/-- The maps after factors have been recorded for new nodes. -/
theorem recordScalings_get : ∀ (rids : List ℕ) (sc : List S) (m : List (ℕ × List S)), rids.Nodup → rids.length = sc.length → ∀ k,
    mapGet k (recordScalings (rids.zip sc) m) = if k ∈ rids then (sc[rids.idxOf k]?).map fun s => [s] else mapGet k m := by
  intro rids
  induction rids with
  | nil => intro sc m _ _ k; simp [recordScalings]
  | cons r rids ih =>
    intro sc m hn hl k
    cases sc with
    | nil => simp at hl
    | cons s sc =>
      simp only [List.nodup_cons] at hn
      have := ih sc (mapSet r [s] m) hn.2 (by simpa using hl) k
      simp only [recordScalings, List.zip_cons_cons, List.foldl_cons] at this ⊢
      rw [this]
      by_cases hk : k = r
      · subst hk
        rw [if_neg hn.1, mapGet_mapSet, if_pos rfl, if_pos (by simp)]
        simp
      · by_cases hm : k ∈ rids
        · rw [if_pos hm, if_pos (by simp [hm]), List.idxOf_cons_ne _ (Ne.symm hk)]
          simp
        · rw [if_neg hm, if_neg (by simp [hk, hm]), mapGet_mapSet, if_neg hk]

/-- The recorded factors of a graph fit its edges. `full` are the nodes for which as many input factors are recorded as there are inputs. -/
structure ScalesFit (inputs : List S) (full : List ℕ) (sg : ScaledGraph M S) : Prop where
  keys : (sg.graph.map (·.1)).Nodup
  sym : Spec.Symmetric sg.graph
  dom : ∀ k, (mapGet k sg.outs).isSome ∨ (mapGet k sg.ins).isSome → k ∈ sg.graph.map (·.1)
  fit : ∀ b m, mapGet b sg.graph = some m → ∃ i o, mapGet b sg.ins = some i ∧ mapGet b sg.outs = some o ∧ o.length = m.outputs.length ∧
    (b ∈ full → i.length = m.inputs.length) ∧
    ∀ (j : ℕ) (e : Edge) (s : S), m.inputs[j]? = some e → i[j]? = some s → edgeValue inputs sg.outs e = some s

end Lemmas
