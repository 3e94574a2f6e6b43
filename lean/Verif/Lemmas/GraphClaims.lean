import Verif.Lemmas.GraphRun

namespace Lemmas

open Model Spec

variable {L V S F : Type}

/-- What `inputClaims` collects. -/
theorem inputClaimsOfNode_spec {cs : List (ℕ × List (Claim F))} {x : ℕ × Node L} {l : List (ℕ × Claim F)} (h : inputClaimsOfNode cs x = some l) :
    ∀ (k : ℕ) (cl : Claim F), (k, cl) ∈ l ↔ ∃ j : ℕ, x.2.inputs[j]? = some ⟨none, k⟩ ∧ ∃ c : List (Claim F), mapGet x.1 cs = some c ∧ c[j]? = some cl := by
  unfold inputClaimsOfNode at h
  simp only [Option.bind_eq_bind, Option.bind_eq_some_iff, Option.some.injEq] at h
  obtain ⟨o, ho, rfl⟩ := h
  have hf := (mapM_forall₂ _ _ _).mp ho
  rw [List.forall₂_iff_get] at hf
  obtain ⟨hl, hf⟩ := hf
  intro k cl
  rw [List.mem_filterMap]
  constructor
  · rintro ⟨a, ha, rfl⟩
    obtain ⟨j, hj, hja⟩ := List.mem_iff_getElem.mp ha
    have := hf j (by omega) hj
    simp only [List.get_eq_getElem, hja, List.getElem_zipIdx, Nat.zero_add] at this
    simp only [List.length_zipIdx] at hl
    refine ⟨j, ?_⟩
    have hjl : j < x.2.inputs.length := by omega
    cases hn : x.2.inputs[j].node with
    | some a => rw [hn] at this; simp at this
    | none =>
      rw [hn] at this
      simp only [Option.bind_eq_some_iff, Option.some.injEq, Prod.mk.injEq] at this
      obtain ⟨c, hc, c', hc', hk, rfl⟩ := this
      refine ⟨?_, c, hc, hc'⟩
      rw [List.getElem?_eq_getElem hjl]
      generalize hE : x.2.inputs[j] = E at *
      cases E
      simp_all
  · rintro ⟨j, hj, c, hc, hcj⟩
    obtain ⟨hjl, hje⟩ := List.getElem?_eq_some_iff.mp hj
    have hjo : j < o.length := by simp only [List.length_zipIdx] at hl; omega
    have := hf j (by simpa using hjl) hjo
    simp only [List.get_eq_getElem, List.getElem_zipIdx, Nat.zero_add, hje, hc, hcj, Option.bind_some, Option.some.injEq] at this
    exact ⟨_, List.getElem_mem hjo, this.symm⟩

/-- One claim for every input of the node that is an input of the model. -/
theorem inputClaimsOfNode_length {cs : List (ℕ × List (Claim F))} {x : ℕ × Node L} {l : List (ℕ × Claim F)} (h : inputClaimsOfNode cs x = some l) :
    l.map (·.1) = (x.2.inputs.filter (·.node.isNone)).map (·.index) := by
  unfold inputClaimsOfNode at h
  simp only [Option.bind_eq_bind, Option.bind_eq_some_iff, Option.some.injEq] at h
  obtain ⟨o, ho, rfl⟩ := h
  have hf := (mapM_forall₂ _ _ _).mp ho
  have key : ∀ (k : ℕ) (ins : List Edge) (o : List (Option (ℕ × Claim F))), List.Forall₂ (fun (e : Edge × ℕ) b => (match e.1.node with
      | some _ => some none
      | none => (mapGet x.1 cs).bind fun c => c[e.2]?.bind fun c' => some (some (e.1.index, c'))) = some b) (ins.zipIdx k) o →
      (o.filterMap (·)).map (·.1) = (ins.filter (·.node.isNone)).map (·.index) := by
    intro k ins
    induction ins generalizing k with
    | nil => intro o ho; cases ho; rfl
    | cons e ins ih =>
      intro o ho
      rw [List.zipIdx_cons] at ho
      cases ho with
      | cons hd tl =>
        have := ih _ _ tl
        simp only at hd
        cases hn : e.node with
        | some a =>
          rw [hn] at hd
          simp only [Option.some.injEq] at hd
          subst hd
          simpa [hn] using this
        | none =>
          rw [hn] at hd
          simp only [Option.bind_eq_some_iff, Option.some.injEq] at hd
          obtain ⟨c, -, c', -, rfl⟩ := hd
          simpa [hn] using this
  exact key 0 _ _ hf

/-! ### Output claims -/

theorem bindWires_spec (id : ℕ) : ∀ (ws : List (List Edge)) (st st' : List ℕ × List (ℕ × List ℕ)), ws.foldlM (bindWire id) st = some st' →
    (ws.filter fun w => w.any (·.node.isNone)).length ≤ 1 → st.1.Nodup → (st.2.map (·.1)).Nodup → id ∉ st.2.map (·.1) → st.1.Perm (st.2.flatMap (·.2)) →
    st'.1.Nodup ∧ (st'.2.map (·.1)).Nodup ∧ (∀ a ∈ st'.2.map (·.1), a ∈ st.2.map (·.1) ∨ a = id) ∧ st'.1.Perm (st'.2.flatMap (·.2)) := by
  intro ws
  induction ws with
  | nil =>
    intro st st' h _ h₁ h₂ _ h₄
    simp only [List.foldlM_nil] at h
    cases h
    exact ⟨h₁, h₂, fun a ha => Or.inl ha, h₄⟩
  | cons w ws ih =>
    intro st st' h hc h₁ h₂ h₃ h₄
    simp only [List.foldlM_cons, Option.bind_eq_bind, Option.bind_eq_some_iff] at h
    obtain ⟨st₁, hs, h⟩ := h
    unfold bindWire at hs
    dsimp only at hs
    obtain ⟨idxs, hidx⟩ : ∃ idxs, idxs = (w.filter (·.node.isNone)).map (·.index) := ⟨_, rfl⟩
    rw [← hidx] at hs
    by_cases hok : idxs.Nodup ∧ ∀ k ∈ idxs, k ∉ st.1
    · rw [if_pos hok, Option.some.injEq] at hs
      by_cases he : idxs = []
      · rw [he] at hs
        simp only [List.append_nil, if_true] at hs
        have hst : st₁ = st := by rw [← hs]
        rw [hst] at h
        have hany : w.any (·.node.isNone) = false := by
          have hl : (w.filter (·.node.isNone)) = [] := by
            rw [he] at hidx; simpa using hidx.symm
          simpa [List.filter_eq_nil_iff] using hl
        rw [List.filter_cons, hany] at hc
        exact ih _ _ h hc h₁ h₂ h₃ h₄
      · rw [if_neg he] at hs
        have hany : w.any (·.node.isNone) = true := by
          by_contra hno
          apply he
          rw [hidx]
          have : w.filter (·.node.isNone) = [] := by simpa [List.filter_eq_nil_iff] using hno
          rw [this]; rfl
        rw [List.filter_cons, hany] at hc
        simp only [if_true, List.length_cons] at hc
        have hnone : ∀ w' ∈ ws, w'.any (·.node.isNone) = false := by
          have hl : (ws.filter fun w => w.any (·.node.isNone)) = [] := List.eq_nil_of_length_eq_zero (by omega)
          rw [List.filter_eq_nil_iff] at hl
          intro w' hw'
          simpa using hl w' hw'
        have hrest : ∀ (ws : List (List Edge)) (st : List ℕ × List (ℕ × List ℕ)), (∀ w' ∈ ws, w'.any (·.node.isNone) = false) → ws.foldlM (bindWire id) st = some st := by
          intro ws
          induction ws with
          | nil => intro st _; rfl
          | cons w ws ih =>
            intro st hw
            have hw0 : w.filter (·.node.isNone) = [] := by
              have := hw w (by simp)
              simpa [List.filter_eq_nil_iff] using this
            simp only [List.foldlM_cons, Option.bind_eq_bind, bindWire, hw0, List.map_nil, List.nodup_nil, List.not_mem_nil, false_implies, implies_true, and_self,
              if_true, List.append_nil, Option.bind_some]
            exact ih st fun w' hw' => hw w' (List.mem_cons_of_mem _ hw')
        rw [hrest ws st₁ hnone, Option.some.injEq] at h
        subst h
        have hset : mapSet id idxs st.2 = st.2 ++ [(id, idxs)] := mapSet_of_not_mem _ _ _ ((mapGet_none_iff id st.2).mpr h₃)
        rw [hset] at hs
        subst hs
        refine ⟨List.nodup_append.mpr ⟨h₁, hok.1, fun a ha b hb hab => hok.2 b hb (hab ▸ ha)⟩, ?_, ?_, ?_⟩
        · simp only [List.map_append, List.map_cons, List.map_nil]
          refine List.nodup_append.mpr ⟨h₂, by simp, fun a ha b hb hab => ?_⟩
          simp only [List.mem_singleton] at hb
          exact h₃ (hb ▸ hab ▸ ha)
        · intro a ha
          simpa using ha
        · simp only [List.flatMap_append, List.flatMap_cons, List.flatMap_nil, List.append_nil]
          exact h₄.append_right _
    · rw [if_neg hok] at hs
      cases hs

theorem bindNodes_spec (N : ℕ) : ∀ (nodes : List (ℕ × Node L)) (st st' : List ℕ × List (ℕ × List ℕ)), bindNodes N nodes st = some st' →
    (nodes.map (·.1)).Nodup → (∀ a ∈ st.2.map (·.1), a ∉ nodes.map (·.1)) →
    (∀ x ∈ nodes, (x.2.outputs.filter fun w => w.any (·.node.isNone)).length ≤ 1) → st.1.Nodup → (st.2.map (·.1)).Nodup → st.1.Perm (st.2.flatMap (·.2)) →
    st'.1.Nodup ∧ st'.1.Perm (st'.2.flatMap (·.2)) := by
  intro nodes
  induction nodes with
  | nil =>
    intro st st' h _ _ _ h₁ _ h₃
    simp only [bindNodes, Option.some.injEq] at h
    subst h
    exact ⟨h₁, h₃⟩
  | cons x nodes ih =>
    intro st st' h hn hd hw h₁ h₂ h₃
    simp only [bindNodes, Option.bind_eq_bind, Option.bind_eq_some_iff] at h
    obtain ⟨st₁, hs, h⟩ := h
    obtain ⟨a₁, a₂, a₃, a₄⟩ := bindWires_spec x.1 _ _ _ hs (hw x (by simp)) h₁ h₂ (fun hx => hd _ hx (by simp)) h₃
    by_cases hN : st₁.1.length = N
    · rw [if_pos hN, Option.some.injEq] at h
      subst h
      exact ⟨a₁, a₄⟩
    · rw [if_neg hN] at h
      simp only [List.map_cons, List.nodup_cons] at hn
      refine ih _ _ h hn.2 ?_ (fun y hy => hw y (List.mem_cons_of_mem _ hy)) a₁ a₂ a₄
      intro a ha
      rcases a₃ a ha with h' | rfl
      · exact fun hm => hd a h' (by simp only [List.map_cons]; exact List.mem_cons_of_mem _ hm)
      · exact hn.1

/-- The loop of the verifier over the bound outputs. -/
theorem verifierLoop_spec (ch : S → ℕ → List F × S) (nv : V → ℕ) (ev : V → List F → F) (outputs : List V) :
    ∀ (ks : List ℕ) (st st' : List (Claim F) × S), ks.Nodup →
    ks.foldlM (fun (st : List (Claim F) × S) k => (outputs[k]?).bind fun v =>
      some (st.1.set k (outputClaim ch nv ev st.2 v).1, (outputClaim ch nv ev st.2 v).2)) st = some st' →
    st.1.length = outputs.length →
    st'.1.length = outputs.length ∧ (∀ k ∈ ks, k < outputs.length) ∧ (∀ k, k ∉ ks → st'.1[k]? = st.1[k]?) ∧
    ∀ k ∈ ks, ∀ v, outputs[k]? = some v → ∃ s₀, st'.1[k]? = some (outputClaim ch nv ev s₀ v).1
  | [], st, st', _, h, hl => by
    simp only [List.foldlM_nil] at h
    cases h
    exact ⟨hl, by simp, fun _ _ => rfl, by simp⟩
  | k :: ks, st, st', hn, h, hl => by
    simp only [List.foldlM_cons, Option.bind_eq_bind, Option.bind_eq_some_iff, Option.some.injEq] at h
    obtain ⟨st₁, ⟨v, hv, rfl⟩, h⟩ := h
    simp only [List.nodup_cons] at hn
    obtain ⟨b₁, b₂, b₃, b₄⟩ := verifierLoop_spec ch nv ev outputs ks _ st' hn.2 h (by simpa using hl)
    have hk : k < outputs.length := (List.getElem?_eq_some_iff.mp hv).1
    refine ⟨b₁, ?_, ?_, ?_⟩
    · intro k' hk'
      rcases List.mem_cons.mp hk' with rfl | h'
      · exact hk
      · exact b₂ k' h'
    · intro k' hk'
      simp only [List.mem_cons, not_or] at hk'
      rw [b₃ k' hk'.2]
      simp only [List.getElem?_set]
      rw [if_neg (fun e => hk'.1 e.symm)]
    · intro k' hk' v' hv'
      rcases List.mem_cons.mp hk' with rfl | h'
      · rw [hv] at hv'
        cases hv'
        refine ⟨st.2, ?_⟩
        rw [b₃ _ hn.1]
        simp [List.getElem?_set, hl, hk]
      · exact b₄ k' h' v' hv'

/-- In index order the verifier's loop is the prover's. -/
theorem verifierLoop_range (ch : S → ℕ → List F × S) (nv : V → ℕ) (ev : V → List F → F) (outputs : List V) (dflt : Claim F) (s : S) :
    ∀ (rest done : List V) (acc : List (Claim F)) (s : S), outputs = done ++ rest → acc.length = done.length →
    (List.range' done.length rest.length).foldlM (fun (st : List (Claim F) × S) k => (outputs[k]?).bind fun v =>
      some (st.1.set k (outputClaim ch nv ev st.2 v).1, (outputClaim ch nv ev st.2 v).2)) (acc ++ List.replicate rest.length dflt, s) =
    some (rest.foldl (fun (st : List (Claim F) × S) v => (st.1 ++ [(outputClaim ch nv ev st.2 v).1], (outputClaim ch nv ev st.2 v).2)) (acc, s))
  | [], done, acc, s, ho, hl => by simp
  | v :: rest, done, acc, s, ho, hl => by
    have hv : outputs[done.length]? = some v := by rw [ho]; simp
    simp only [List.length_cons, List.range'_succ, List.foldlM_cons, Option.bind_eq_bind, hv, Option.bind_some, List.foldl_cons]
    have hset : (acc ++ List.replicate (rest.length + 1) dflt).set done.length (outputClaim ch nv ev s v).1 =
        (acc ++ [(outputClaim ch nv ev s v).1]) ++ List.replicate rest.length dflt := by
      rw [List.set_append_right _ _ (by omega), hl, Nat.sub_self, List.replicate_succ]
      simp
    rw [hset]
    have := verifierLoop_range ch nv ev outputs dflt s rest (done ++ [v]) (acc ++ [(outputClaim ch nv ev s v).1]) (outputClaim ch nv ev s v).2
      (by rw [ho]; simp) (by simp [hl])
    simpa using this

/-! ### The outputs of a run -/

theorem collectWires_spec : ∀ (xs : List (List Edge × V)) (acc acc' : List (ℕ × V)), xs.foldlM collectWire acc = some acc' →
    (acc.map (·.1)).Nodup →
    (acc'.map (·.1)).Nodup ∧ ∀ k v, (k, v) ∈ acc' ↔ (k, v) ∈ acc ∨ ∃ x ∈ xs, ∃ e, x.1.find? (·.node.isNone) = some e ∧ e.index = k ∧ x.2 = v
  | [], acc, acc', h, hn => by
    simp only [List.foldlM_nil] at h
    cases h
    exact ⟨hn, by simp⟩
  | x :: xs, acc, acc', h, hn => by
    simp only [List.foldlM_cons, Option.bind_eq_bind, Option.bind_eq_some_iff] at h
    obtain ⟨acc₁, hs, h⟩ := h
    unfold collectWire at hs
    cases hf : x.1.find? (·.node.isNone) with
    | none =>
      rw [hf] at hs
      simp only [Option.some.injEq] at hs
      subst hs
      obtain ⟨b₁, b₂⟩ := collectWires_spec xs _ _ h hn
      refine ⟨b₁, fun k v => ?_⟩
      rw [b₂]
      simp [hf]
    | some e =>
      rw [hf] at hs
      simp only at hs
      by_cases hsome : (mapGet e.index acc).isSome
      · rw [if_pos hsome] at hs; cases hs
      · rw [if_neg hsome, Option.some.injEq] at hs
        have hnone : mapGet e.index acc = none := by simpa using hsome
        rw [mapSet_of_not_mem _ _ _ hnone] at hs
        subst hs
        obtain ⟨b₁, b₂⟩ := collectWires_spec xs _ _ h (by
          simp only [List.map_append, List.map_cons, List.map_nil]
          refine List.nodup_append.mpr ⟨hn, by simp, fun a ha b hb hab => ?_⟩
          simp only [List.mem_singleton] at hb
          exact (mapGet_none_iff _ _).mp hnone (hb ▸ hab ▸ ha))
        refine ⟨b₁, fun k v => ?_⟩
        rw [b₂]
        simp only [List.mem_append, Prod.mk.injEq, List.mem_cons, List.not_mem_nil, or_false]
        constructor
        · rintro ((h' | ⟨rfl, rfl⟩) | ⟨y, hy, h'⟩)
          · exact Or.inl h'
          · exact Or.inr ⟨x, Or.inl rfl, e, hf, rfl, rfl⟩
          · exact Or.inr ⟨y, Or.inr hy, h'⟩
        · rintro (h' | ⟨y, rfl | hy, e', he', h₁, h₂⟩)
          · exact Or.inl (Or.inl h')
          · rw [hf] at he'
            cases he'
            exact Or.inl (Or.inr ⟨h₁.symm, h₂.symm⟩)
          · exact Or.inr ⟨y, hy, e', he', h₁, h₂⟩

theorem collectNodes_spec (t : List (ℕ × List V)) : ∀ (nodes : List (ℕ × Node L)) (acc acc' : List (ℕ × V)), nodes.foldlM (collectNode t) acc = some acc' →
    (acc.map (·.1)).Nodup →
    (acc'.map (·.1)).Nodup ∧ (∀ x ∈ nodes, ∃ outs, mapGet x.1 t = some outs ∧ outs.length = x.2.outputs.length) ∧
    ∀ k v, (k, v) ∈ acc' ↔ (k, v) ∈ acc ∨ ∃ x ∈ nodes, ∃ (i : ℕ) (w : List Edge) (e : Edge) (outs : List V), x.2.outputs[i]? = some w ∧
      w.find? (·.node.isNone) = some e ∧ e.index = k ∧ mapGet x.1 t = some outs ∧ outs[i]? = some v
  | [], acc, acc', h, hn => by
    simp only [List.foldlM_nil] at h
    cases h
    exact ⟨hn, by simp, by simp⟩
  | x :: nodes, acc, acc', h, hn => by
    simp only [List.foldlM_cons, Option.bind_eq_bind, Option.bind_eq_some_iff] at h
    obtain ⟨acc₁, hs, h⟩ := h
    unfold collectNode at hs
    simp only [Option.bind_eq_bind, Option.bind_eq_some_iff] at hs
    obtain ⟨outs, ho, hs⟩ := hs
    by_cases hlen : outs.length = x.2.outputs.length
    · rw [if_pos hlen] at hs
      obtain ⟨a₁, a₂⟩ := collectWires_spec _ _ _ hs hn
      obtain ⟨b₁, b₂, b₃⟩ := collectNodes_spec t nodes _ _ h a₁
      refine ⟨b₁, ?_, fun k v => ?_⟩
      · intro y hy
        rcases List.mem_cons.mp hy with rfl | hy
        · exact ⟨outs, ho, hlen⟩
        · exact b₂ y hy
      · rw [b₃, a₂]
        constructor
        · rintro ((h' | ⟨p, hp, e, he, hk, hv⟩) | ⟨y, hy, h'⟩)
          · exact Or.inl h'
          · obtain ⟨i, hi⟩ := List.getElem?_of_mem hp
            rw [List.getElem?_zip_eq_some] at hi
            exact Or.inr ⟨x, by simp, i, p.1, e, outs, hi.1, he, hk, ho, by rw [hi.2, hv]⟩
          · exact Or.inr ⟨y, List.mem_cons_of_mem _ hy, h'⟩
        · rintro (h' | ⟨y, hy, i, w, e, outs', hw, he, hk, ho', hv⟩)
          · exact Or.inl (Or.inl h')
          · rcases List.mem_cons.mp hy with rfl | hy
            · rw [ho] at ho'
              cases ho'
              refine Or.inl (Or.inr ⟨(w, v), ?_, e, he, hk, rfl⟩)
              exact List.mem_of_getElem? (i := i) (List.getElem?_zip_eq_some.mpr ⟨hw, hv⟩)
            · exact Or.inr ⟨y, hy, i, w, e, outs', hw, he, hk, ho', hv⟩
    · rw [if_neg hlen] at hs
      cases hs

/-- Increasing naturals from `a` that end at the last possible value are consecutive. -/
theorem sorted_consecutive : ∀ (l : List ℕ) (a : ℕ), l.Pairwise (· < ·) → (∀ x ∈ l, a ≤ x) → l.getLast? = some (a + l.length - 1) → l = List.range' a l.length
  | [], a, _, _, h => by simp at h
  | [x], a, _, hx, h => by
    simp only [List.getLast?_singleton, List.length_singleton, Option.some.injEq] at h
    simp [h]
  | x :: y :: l, a, hp, hx, h => by
    rw [List.pairwise_cons] at hp
    have hle : ∀ (l : List ℕ) (b : ℕ), l.Pairwise (· < ·) → (∀ x ∈ l, b ≤ x) → ∀ z, l.getLast? = some z → b + l.length - 1 ≤ z := by
      intro l
      induction l with
      | nil => intro b _ _ z hz; simp at hz
      | cons u l ih =>
        intro b hq hb z hz
        rw [List.pairwise_cons] at hq
        cases l with
        | nil =>
          simp only [List.getLast?_singleton, Option.some.injEq] at hz
          have := hb u (by simp)
          simp only [List.length_singleton]
          omega
        | cons v l =>
          rw [List.getLast?_cons_cons] at hz
          have := ih (b + 1) hq.2 (fun w hw => by have := hq.1 w hw; have := hb u (by simp); omega) z hz
          simp only [List.length_cons] at this ⊢
          omega
    rw [List.getLast?_cons_cons] at h
    have hxa : x = a := by
      have h₁ := hx x (by simp)
      have h₂ := hle (y :: l) (x + 1) hp.2 (fun w hw => hp.1 w hw) _ h
      simp only [List.length_cons] at h₂
      omega
    have := sorted_consecutive (y :: l) (a + 1) hp.2 (fun w hw => by have := hp.1 w hw; omega) (by
      rw [h]; simp only [List.length_cons, Option.some.injEq]; omega)
    rw [hxa, List.length_cons, List.range'_succ, ← this]

theorem outputsInOrder_spec {acc : List (ℕ × V)} {outs : List V} (h : outputsInOrder acc = some outs) (hn : (acc.map (·.1)).Nodup) :
    ∀ k v, outs[k]? = some v ↔ (k, v) ∈ acc := by
  unfold outputsInOrder at h
  dsimp only at h
  obtain ⟨l, hl⟩ : ∃ l, l = acc.insertionSort fun x y => x.1 ≤ y.1 := ⟨_, rfl⟩
  rw [← hl] at h
  have hperm : l.Perm acc := by rw [hl]; exact List.perm_insertionSort _ _
  have hsorted : (l.map (·.1)).Pairwise (· < ·) := by
    have h₁ : l.Pairwise fun x y => x.1 ≤ y.1 := by
      rw [hl]
      have : Std.Total (fun (x y : ℕ × V) => x.1 ≤ y.1) := ⟨fun a b => Nat.le_total _ _⟩
      have : IsTrans (ℕ × V) (fun x y => x.1 ≤ y.1) := ⟨fun a b c h₁ h₂ => Nat.le_trans h₁ h₂⟩
      exact List.pairwise_insertionSort _ _
    have h₂ : (l.map (·.1)).Nodup := ((hperm.map _).nodup_iff).mpr hn
    rw [List.pairwise_map]
    have h₃ : l.Pairwise fun x y => x.1 ≠ y.1 := by
      rw [List.Nodup, List.pairwise_map] at h₂; exact h₂
    exact (h₁.and h₃).imp fun ⟨a, b⟩ => by omega
  cases hh : l.head? with
  | none => rw [hh] at h; simp at h
  | some x =>
    cases hg : l.getLast? with
    | none => rw [hh, hg] at h; simp at h
    | some y =>
      rw [hh, hg] at h
      simp only at h
      by_cases hc : x.1 = 0 ∧ y.1 = l.length - 1
      · rw [if_pos hc, Option.some.injEq] at h
        have hkeys : l.map (·.1) = List.range' 0 (l.map (·.1)).length := by
          apply sorted_consecutive _ 0 hsorted (fun _ _ => Nat.zero_le _)
          rw [List.getLast?_map, hg]
          simp [hc.2]
        intro k v
        rw [← h, ← hperm.mem_iff, List.getElem?_map]
        have hkey : ∀ (j : ℕ) (p : ℕ × V), l[j]? = some p → p.1 = j := by
          intro j p hj
          have h₁ : (l.map (·.1))[j]? = some p.1 := by rw [List.getElem?_map, hj]; rfl
          rw [hkeys, List.getElem?_range' (by simpa using (List.getElem?_eq_some_iff.mp hj).1)] at h₁
          simp at h₁
          exact h₁.symm
        constructor
        · intro hv
          cases hj : l[k]? with
          | none => rw [hj] at hv; simp at hv
          | some p =>
            rw [hj] at hv
            simp only [Option.map_some, Option.some.injEq] at hv
            have := hkey k p hj
            have hp : p = (k, v) := by rw [← this, ← hv]
            rw [← hp]
            exact List.mem_of_getElem? hj
        · intro hm
          obtain ⟨j, hj⟩ := List.getElem?_of_mem hm
          have := hkey j _ hj
          simp only at this
          rw [this, hj]
          rfl
      · rw [if_neg hc] at h
        cases h

end Lemmas
