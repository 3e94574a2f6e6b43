import Verif.Lemmas.GraphClaims

/-! Two collections of the outputs of the same graph pick the same wires. -/

namespace Lemmas

open Model

variable {L V W : Type}

theorem mapSet_map_pairs {α β : Type} (f : α → β) (k : ℕ) (v : α) : ∀ m : List (ℕ × α), mapSet k (f v) (m.map fun p => (p.1, f p.2)) = (mapSet k v m).map fun p => (p.1, f p.2)
  | [] => rfl
  | (k', v') :: m => by
    simp only [List.map_cons, mapSet]
    split
    · rfl
    · simp [mapSet_map_pairs f k v m]

theorem mem_mapSet_cases {α : Type} (k : ℕ) (v : α) : ∀ (m : List (ℕ × α)) p, p ∈ mapSet k v m → p ∈ m ∨ p = (k, v)
  | [], p, h => by simpa [mapSet] using h
  | (k', v') :: m, p, h => by
    simp only [mapSet] at h
    split at h
    · rcases List.mem_cons.1 h with h | h
      · exact Or.inr h
      · exact Or.inl (List.mem_cons_of_mem _ h)
    · rcases List.mem_cons.1 h with h | h
      · exact Or.inl (by simp [h])
      · rcases mem_mapSet_cases k v m p h with h | h
        · exact Or.inl (List.mem_cons_of_mem _ h)
        · exact Or.inr h

/-- The pairs collected along the two collections: first and second components. -/
def firsts (pairs : List (ℕ × (V × W))) : List (ℕ × V) := pairs.map fun p => (p.1, p.2.1)

def seconds (pairs : List (ℕ × (V × W))) : List (ℕ × W) := pairs.map fun p => (p.1, p.2.2)

theorem collectWires_pairs : ∀ (ws : List (List Edge)) (vs : List V) (us : List W), vs.length = ws.length → us.length = ws.length →
    ∀ (pairs : List (ℕ × (V × W))) (acc : List (ℕ × V)) (acc' : List (ℕ × W)),
      (ws.zip vs).foldlM collectWire (firsts pairs) = some acc → (ws.zip us).foldlM collectWire (seconds pairs) = some acc' →
      ∃ pairs', acc = firsts pairs' ∧ acc' = seconds pairs' ∧ ∀ p ∈ pairs', p ∈ pairs ∨ ∃ (i : ℕ) (w : List Edge) (e : Edge), ws[i]? = some w ∧
        w.find? (·.node.isNone) = some e ∧ e.index = p.1 ∧ vs[i]? = some p.2.1 ∧ us[i]? = some p.2.2
  | [], vs, us, _, _, pairs, acc, acc', h, h' => by
    simp only [List.zip_nil_left, List.foldlM_nil] at h h'
    cases h
    cases h'
    exact ⟨pairs, rfl, rfl, fun p hp => Or.inl hp⟩
  | w :: ws, [], us, hv, _, pairs, acc, acc', h, h' => by simp at hv
  | w :: ws, v :: vs, [], _, hu, pairs, acc, acc', h, h' => by simp at hu
  | w :: ws, v :: vs, u :: us, hv, hu, pairs, acc, acc', h, h' => by
    simp only [List.zip_cons_cons, List.foldlM_cons, Option.bind_eq_bind, Option.bind_eq_some_iff] at h h'
    obtain ⟨a₁, h₁, h₂⟩ := h
    obtain ⟨b₁, k₁, k₂⟩ := h'
    unfold collectWire at h₁ k₁
    dsimp only at h₁ k₁
    cases hf : w.find? (·.node.isNone) with
    | none =>
      rw [hf] at h₁ k₁
      cases h₁
      cases k₁
      obtain ⟨pairs', r₁, r₂, r₃⟩ := collectWires_pairs ws vs us (by simpa using hv) (by simpa using hu) pairs acc acc' h₂ k₂
      refine ⟨pairs', r₁, r₂, fun p hp => ?_⟩
      rcases r₃ p hp with r | ⟨i, w', e, q⟩
      · exact Or.inl r
      · exact Or.inr ⟨i + 1, w', e, by simpa using q⟩
    | some e =>
      rw [hf] at h₁ k₁
      dsimp only at h₁ k₁
      split at h₁
      · cases h₁
      split at k₁
      · cases k₁
      cases h₁
      cases k₁
      have e₁ : mapSet e.index v (firsts pairs) = firsts (mapSet e.index (v, u) pairs) := mapSet_map_pairs (Prod.fst : V × W → V) e.index (v, u) pairs
      have e₂ : mapSet e.index u (seconds pairs) = seconds (mapSet e.index (v, u) pairs) := mapSet_map_pairs (Prod.snd : V × W → W) e.index (v, u) pairs
      rw [e₁] at h₂
      rw [e₂] at k₂
      obtain ⟨pairs', r₁, r₂, r₃⟩ := collectWires_pairs ws vs us (by simpa using hv) (by simpa using hu) _ acc acc' h₂ k₂
      refine ⟨pairs', r₁, r₂, fun p hp => ?_⟩
      rcases r₃ p hp with r | ⟨i, w', e', q⟩
      · rcases mem_mapSet_cases _ _ _ _ r with r | rfl
        · exact Or.inl r
        · exact Or.inr ⟨0, w, e, by simp [hf]⟩
      · exact Or.inr ⟨i + 1, w', e', by simpa using q⟩

theorem collectNodes_pairs (t : List (ℕ × List V)) (u : List (ℕ × List W)) : ∀ (nodes : List (ℕ × Node L)) (pairs : List (ℕ × (V × W))) (acc : List (ℕ × V))
    (acc' : List (ℕ × W)), nodes.foldlM (collectNode t) (firsts pairs) = some acc → nodes.foldlM (collectNode u) (seconds pairs) = some acc' →
      ∃ pairs', acc = firsts pairs' ∧ acc' = seconds pairs' ∧ ∀ p ∈ pairs', p ∈ pairs ∨ ∃ x ∈ nodes, ∃ (i : ℕ) (w : List Edge) (vs : List V) (us : List W),
        x.2.outputs[i]? = some w ∧ (⟨none, p.1⟩ : Edge) ∈ w ∧ mapGet x.1 t = some vs ∧ mapGet x.1 u = some us ∧ vs[i]? = some p.2.1 ∧ us[i]? = some p.2.2
  | [], pairs, acc, acc', h, h' => by
    simp only [List.foldlM_nil] at h h'
    cases h
    cases h'
    exact ⟨pairs, rfl, rfl, fun p hp => Or.inl hp⟩
  | x :: nodes, pairs, acc, acc', h, h' => by
    simp only [List.foldlM_cons, Option.bind_eq_bind, Option.bind_eq_some_iff] at h h'
    obtain ⟨a₁, h₁, h₂⟩ := h
    obtain ⟨b₁, k₁, k₂⟩ := h'
    unfold collectNode at h₁ k₁
    simp only [Option.bind_eq_bind, Option.bind_eq_some_iff] at h₁ k₁
    obtain ⟨vs, hvs, h₁⟩ := h₁
    obtain ⟨us, hus, k₁⟩ := k₁
    split at h₁
    swap
    · cases h₁
    split at k₁
    swap
    · cases k₁
    rename_i hv hu
    obtain ⟨p₁, rfl, rfl, r₁⟩ := collectWires_pairs x.2.outputs vs us hv hu pairs a₁ b₁ h₁ k₁
    obtain ⟨p₂, q₁, q₂, r₂⟩ := collectNodes_pairs t u nodes p₁ acc acc' h₂ k₂
    refine ⟨p₂, q₁, q₂, fun p hp => ?_⟩
    rcases r₂ p hp with r | ⟨y, hy, r⟩
    · rcases r₁ p r with r | ⟨i, w, e, c₁, c₂, c₃, c₄, c₅⟩
      · exact Or.inl r
      · refine Or.inr ⟨x, by simp, i, w, vs, us, c₁, ?_, hvs, hus, c₄, c₅⟩
        have m₁ := List.mem_of_find?_eq_some c₂
        have m₂ := List.find?_some c₂
        cases e
        simp_all
    · exact Or.inr ⟨y, List.mem_cons_of_mem _ hy, r⟩

/-- The two results at the same index come from the same output of the same node. -/
theorem collected_together {g : Graph L} {t : List (ℕ × List V)} {u : List (ℕ × List W)} {acc : List (ℕ × V)} {acc' : List (ℕ × W)} {outs : List V} {outs' : List W}
    (h₁ : (outputNodes g).foldlM (collectNode t) [] = some acc) (h₂ : outputsInOrder acc = some outs)
    (h₃ : (outputNodes g).foldlM (collectNode u) [] = some acc') (h₄ : outputsInOrder acc' = some outs') (k : ℕ) (v : V) (w : W) (hv : outs[k]? = some v)
    (hw : outs'[k]? = some w) : ∃ (a : ℕ) (n : Node L) (i : ℕ) (wire : List Edge) (vs : List V) (us : List W), (a, n) ∈ g ∧ n.outputs[i]? = some wire ∧
      (⟨none, k⟩ : Edge) ∈ wire ∧ mapGet a t = some vs ∧ mapGet a u = some us ∧ vs[i]? = some v ∧ us[i]? = some w := by
  have hn := (collectNodes_spec t _ _ _ h₁ (by simp)).1
  have hn' := (collectNodes_spec u _ _ _ h₃ (by simp)).1
  rw [outputsInOrder_spec h₂ hn] at hv
  rw [outputsInOrder_spec h₄ hn'] at hw
  obtain ⟨pairs, rfl, rfl, hp⟩ := collectNodes_pairs t u (outputNodes g) [] acc acc' h₁ h₃
  obtain ⟨p, hp₁, e₁⟩ := List.mem_map.1 hv
  obtain ⟨q, hq₁, e₂⟩ := List.mem_map.1 hw
  simp only [Prod.mk.injEq] at e₁ e₂
  have hkn : (pairs.map (·.1)).Nodup := by
    have := hn
    unfold firsts at this
    rw [List.map_map] at this
    exact this
  have : p = q := List.inj_on_of_nodup_map hkn hp₁ hq₁ (by rw [e₁.1, e₂.1])
  subst this
  rcases hp p hp₁ with h | ⟨x, hx, i, wire, vs, us, c₁, c₂, c₃, c₄, c₅, c₆⟩
  · simp at h
  · exact ⟨x.1, x.2, i, wire, vs, us, (List.mem_filter.1 hx).1, c₁, e₁.1 ▸ c₂, c₃, c₄, e₁.2 ▸ c₅, e₂.2 ▸ c₆⟩

end Lemmas
