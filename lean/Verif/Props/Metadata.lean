import Verif.Lemmas.Metadata
import Verif.Lemmas.CollectPairs
import Verif.Props.Requant

/-! C89: the scaling factors recorded for a quantised model. -/

namespace Props

open Model Spec Lemmas

variable {L M S : Type}

theorem edgeValue_redirect {inputs : List S} {outs outs' : List (ℕ × List S)} {id : ℕ} {rids : List ℕ} {sc : List S} (hsc : mapGet id outs = some sc)
    (hold : ∀ k, k ∉ rids → mapGet k outs' = mapGet k outs) (hnew : ∀ (i : ℕ) (r : ℕ), rids[i]? = some r → mapGet r outs' = (sc[i]?).map fun s => [s])
    (hlen : rids.length = sc.length) (e : Edge) (hfresh : ∀ a, e.node = some a → a ∉ rids) (s : S) (he : edgeValue inputs outs e = some s) :
    edgeValue inputs outs' (redirect id rids e) = some s := by
  unfold redirect
  cases hn : e.node with
  | none =>
    rw [if_neg (by simp)]
    simpa [edgeValue, hn] using he
  | some a =>
    by_cases ha : a = id
    · subst ha
      rw [if_pos rfl]
      simp only [edgeValue, hn, hsc, Option.bind_eq_bind, Option.bind_some] at he
      have hil : e.index < rids.length := by rw [hlen]; exact (List.getElem?_eq_some_iff.1 he).1
      have hr : rids[e.index]? = some rids[e.index] := List.getElem?_eq_getElem hil
      simp only [hr, edgeValue, hnew _ _ hr, he, Option.map_some, Option.bind_eq_bind, Option.bind_some]
      rfl
    · rw [if_neg (by simpa using ha)]
      simp only [edgeValue, hn, hold a (hfresh a hn)] at he ⊢
      exact he

/-- One round of the second loop. -/
theorem insertRequants_fit {inputs : List S} {full : List ℕ} {sg sg' : ScaledGraph M S} (hfit : ScalesFit inputs full sg) {x : ℕ × List M} {n : Node M}
    (hn : mapGet x.1 sg.graph = some n) (hlen : x.2.length = n.outputs.length) (hfull : ∀ b ∈ full, b ∈ sg.graph.map (·.1)) (h : insertRequants sg x = some sg') :
    ScalesFit inputs full sg' ∧ Extends sg.ins sg'.ins ∧ Extends sg.outs sg'.outs ∧ (∀ b ∈ sg.graph.map (·.1), b ∈ sg'.graph.map (·.1)) ∧
      (∀ b m, mapGet b sg.graph = some m → ∃ m', mapGet b sg'.graph = some m' ∧ m'.op = m.op ∧ m'.outputs.length = m.outputs.length ∧
        ∀ e ∈ m.inputs, e.node ≠ some x.1 → e ∈ m'.inputs) ∧
      ∃ sc, mapGet x.1 sg.outs = some sc ∧ ∀ (i : ℕ) (w : List Edge) (rq : M) (s : S), n.outputs[i]? = some w → x.2[i]? = some rq → sc[i]? = some s →
        ∃ r, mapGet r sg'.graph = some ⟨List.replicate w.length ⟨some x.1, i⟩, [w], rq⟩ ∧ mapGet r sg'.ins = some [s] ∧ mapGet r sg'.outs = some [s] := by
  obtain ⟨hk, hs, hdom, hf⟩ := hfit
  obtain ⟨g', rids, h₁, h₂, h₃, h₄, h₅, h₆⟩ := addRequantNodes_spec hk hs hn hlen
  have hsym := C50_symmetric sg.graph hk hs x.1 n ((mapGet_iff_mem _ hk _ _).1 hn) x.2 hlen g' rids h₁
  unfold insertRequants at h
  simp only [h₁, Option.bind_eq_bind, Option.bind_some, Option.bind_eq_some_iff] at h
  obtain ⟨sc, hsc, h⟩ := h
  by_cases hl : rids.length = sc.length
  swap
  · rw [if_neg hl] at h
    cases h
  rw [if_pos hl, Option.some.injEq] at h
  subst h
  have hnd : rids.Nodup := (List.nodup_append.1 h₄).2.1
  have hfresh : ∀ r ∈ rids, r ∉ sg.graph.map (·.1) := fun r hr hg => (List.nodup_append.1 h₄).2.2 r hg r hr rfl
  have hold : ∀ (mp : List (ℕ × List S)) k, k ∉ rids → mapGet k (recordScalings (rids.zip sc) mp) = mapGet k mp := by
    intro mp k hk
    rw [recordScalings_get rids sc mp hnd hl, if_neg hk]
  have hnew : ∀ (mp : List (ℕ × List S)) (i r : ℕ), rids[i]? = some r → mapGet r (recordScalings (rids.zip sc) mp) = (sc[i]?).map fun s => [s] := by
    intro mp i r hr
    have hm := List.mem_of_getElem? hr
    rw [recordScalings_get rids sc mp hnd hl, if_pos hm]
    obtain ⟨hil, rfl⟩ := List.getElem?_eq_some_iff.1 hr
    rw [hnd.idxOf_getElem]
  have hext : ∀ (mp : List (ℕ × List S)), (∀ k, (mapGet k mp).isSome → k ∈ sg.graph.map (·.1)) → Extends mp (recordScalings (rids.zip sc) mp) := by
    intro mp hd k v hkv
    rw [hold mp k fun hr => hfresh k hr (hd k (by rw [hkv]; rfl))]
    exact hkv
  have hei := hext sg.ins fun k h => hdom k (Or.inr h)
  have heo := hext sg.outs fun k h => hdom k (Or.inl h)
  have hedges : ∀ b m, mapGet b sg.graph = some m → ∀ e ∈ m.inputs, ∀ a, e.node = some a → a ∉ rids := by
    intro b m hm e he a hea har
    obtain ⟨j, hj⟩ := List.getElem?_of_mem he
    obtain ⟨na, wa, hna, -⟩ := hs.inp b m j a e.index ((mapGet_iff_mem _ hk b m).1 hm) (by rw [hj]; cases e; simp_all)
    exact hfresh a har (List.mem_map.2 ⟨_, hna, rfl⟩)
  refine ⟨⟨by rw [h₃]; exact h₄, hsym, ?_, ?_⟩, hei, heo, ?_, ?_, sc, hsc, ?_⟩
  · intro k hk'
    rw [h₃, List.mem_append]
    by_cases hr : k ∈ rids
    · exact Or.inr hr
    · simp only [hold _ k hr] at hk'
      exact Or.inl (hdom k hk')
  · intro b m' hm'
    dsimp only at hm' ⊢
    by_cases hb : b ∈ sg.graph.map (·.1)
    · obtain ⟨m, hm⟩ := Option.isSome_iff_exists.1 ((mapGet_isSome_iff b sg.graph).2 hb)
      obtain ⟨m'', a, hop, hin, hne, heq⟩ := h₅ b m hm
      rw [hm'] at a
      cases a
      obtain ⟨i, o, hi, ho, hol, hfl, hj⟩ := hf b m hm
      refine ⟨i, o, hei _ _ hi, heo _ _ ho, ?_, ?_, ?_⟩
      · rw [hol]
        by_cases hbx : b = x.1
        · exact (heq hbx).1.symm
        · rw [hne hbx]
      · intro hbf
        rw [hin, List.length_map]
        exact hfl hbf
      · intro j e' s he' hjs
        rw [hin, List.getElem?_map, Option.map_eq_some_iff] at he'
        obtain ⟨e, he, rfl⟩ := he'
        exact edgeValue_redirect hsc (fun k hk => hold _ k hk) (fun i r hr => hnew _ i r hr) hl e (hedges b m hm e (List.mem_of_getElem? he)) s (hj j e s he hjs)
    · have hbr : b ∈ rids := by
        have : b ∈ g'.map (·.1) := (mapGet_isSome_iff b g').1 (by rw [hm']; rfl)
        rw [h₃] at this
        exact (List.mem_append.1 this).resolve_left hb
      obtain ⟨i, hi⟩ := List.getElem?_of_mem hbr
      have hil : i < n.outputs.length := h₂ ▸ (List.getElem?_eq_some_iff.1 hi).1
      have hnode := h₆ i _ _ b (List.getElem?_eq_getElem hil) (List.getElem?_eq_getElem (by omega : i < x.2.length)) hi
      rw [hm'] at hnode
      cases hnode
      have hsi : sc[i]? = some (sc[i]'(by omega)) := List.getElem?_eq_getElem _
      refine ⟨[sc[i]'(by omega)], [sc[i]'(by omega)], by rw [hnew _ i b hi, hsi]; rfl, by rw [hnew _ i b hi, hsi]; rfl, rfl, fun hbf => absurd (hfull b hbf) hb, ?_⟩
      intro j e s he hjs
      dsimp only at he
      rw [List.getElem?_replicate] at he
      split at he
      · cases he
        cases j with
        | zero =>
          have hidr : x.1 ∉ rids := fun hr => hfresh _ hr ((mapGet_isSome_iff _ _).1 (by rw [hn]; rfl))
          have : s = sc[i]'(by omega) := by simpa using hjs.symm
          simp only [edgeValue, hold sg.outs _ hidr, hsc, Option.bind_eq_bind, Option.bind_some]
          rw [hsi, this]
        | succ j => simp at hjs
      · cases he
  · intro b hb
    rw [h₃]
    exact List.mem_append_left _ hb
  · intro b m hm
    obtain ⟨m', a, hop, hin, hne, heq⟩ := h₅ b m hm
    refine ⟨m', a, hop, ?_, ?_⟩
    · by_cases hbx : b = x.1
      · exact (heq hbx).1
      · rw [hne hbx]
    · intro e he hex
      rw [hin]
      exact List.mem_map.2 ⟨e, he, by simp [redirect, hex]⟩
  · intro i w rq s hw hrq hsi
    have hil : i < rids.length := by rw [h₂]; exact (List.getElem?_eq_some_iff.1 hw).1
    have hr : rids[i]? = some rids[i] := List.getElem?_eq_getElem hil
    exact ⟨rids[i], h₆ i w rq _ hw hrq hr, by rw [hnew _ _ _ hr, hsi]; rfl, by rw [hnew _ _ _ hr, hsi]; rfl⟩

/-- The second loop. -/
theorem insertRequants_loop (inputs : List S) (full : List ℕ) : ∀ (rq : List (ℕ × List M)) (sg sg' : ScaledGraph M S), ScalesFit inputs full sg →
    (∀ b ∈ full, b ∈ sg.graph.map (·.1)) → (rq.map (·.1)).Nodup → (∀ p ∈ rq, ∃ n, mapGet p.1 sg.graph = some n ∧ p.2.length = n.outputs.length) →
    rq.foldlM insertRequants sg = some sg' →
    ScalesFit inputs full sg' ∧ Extends sg.ins sg'.ins ∧ Extends sg.outs sg'.outs ∧
      (∀ b m, mapGet b sg.graph = some m → ∃ m', mapGet b sg'.graph = some m' ∧ m'.op = m.op ∧ m'.outputs.length = m.outputs.length ∧
        ∀ e ∈ m.inputs, (∀ p ∈ rq, e.node ≠ some p.1) → e ∈ m'.inputs) ∧
      ∀ p ∈ rq, ∃ sc, mapGet p.1 sg'.outs = some sc ∧ ∀ (i : ℕ) (rq : M) (s : S), p.2[i]? = some rq → sc[i]? = some s →
        ∃ r m, mapGet r sg'.graph = some m ∧ m.op = rq ∧ mapGet r sg'.ins = some [s] ∧ mapGet r sg'.outs = some [s] := by
  intro rq
  induction rq with
  | nil =>
    intro sg sg' hf _ _ _ h
    simp only [List.foldlM_nil] at h
    cases h
    exact ⟨hf, fun _ _ h => h, fun _ _ h => h, fun b m hm => ⟨m, hm, rfl, rfl, fun e he _ => he⟩, by simp⟩
  | cons x rq ih =>
    intro sg sg' hf hfull hnd hlen h
    simp only [List.foldlM_cons, Option.bind_eq_bind, Option.bind_eq_some_iff] at h
    obtain ⟨sg₁, h₁, h⟩ := h
    obtain ⟨n, hn, hl⟩ := hlen x (by simp)
    obtain ⟨a₁, a₂, a₃, a₄, a₅, sc, hsc, a₆⟩ := insertRequants_fit hf hn hl hfull h₁
    simp only [List.map_cons, List.nodup_cons] at hnd
    obtain ⟨b₁, b₂, b₃, b₄, b₅⟩ := ih sg₁ sg' a₁ (fun b hb => a₄ b (hfull b hb)) hnd.2 (by
      intro p hp
      obtain ⟨m, hm, hml⟩ := hlen p (List.mem_cons_of_mem _ hp)
      obtain ⟨m', hm', -, hol, -⟩ := a₅ _ m hm
      exact ⟨m', hm', by rw [hol, hml]⟩) h
    refine ⟨b₁, extends_trans a₂ b₂, extends_trans a₃ b₃, ?_, ?_⟩
    · intro b m hm
      obtain ⟨m₁, hm₁, c₁, c₂, c₃⟩ := a₅ b m hm
      obtain ⟨m₂, hm₂, d₁, d₂, d₃⟩ := b₄ b m₁ hm₁
      exact ⟨m₂, hm₂, d₁.trans c₁, d₂.trans c₂, fun e he hne => d₃ e (c₃ e he (hne x (by simp))) fun p hp => hne p (List.mem_cons_of_mem _ hp)⟩
    · intro p hp
      rcases List.mem_cons.1 hp with rfl | hp
      · refine ⟨sc, b₃ _ _ (a₃ _ _ hsc), ?_⟩
        intro i q s hq hs
        have hil : i < n.outputs.length := by rw [← hl]; exact (List.getElem?_eq_some_iff.1 hq).1
        obtain ⟨r, e₁, e₂, e₃⟩ := a₆ i _ q s (List.getElem?_eq_getElem hil) hq hs
        obtain ⟨m₂, hm₂, d₁, -, -⟩ := b₄ r _ e₁
        exact ⟨r, m₂, hm₂, d₁, b₂ _ _ e₂, b₃ _ _ e₃⟩
      · exact b₅ p hp

theorem carries_of_edgeValue {inputs : List S} {outs : List (ℕ × List S)} {e : Edge} {s : S} (h : edgeValue inputs outs e = some s) :
    Carries inputs (fun a => (mapGet a outs).getD []) e s := by
  unfold Carries
  unfold edgeValue at h
  cases hn : e.node with
  | none => simpa [hn] using h
  | some a =>
    simp only [hn, Option.bind_eq_bind, Option.bind_eq_some_iff] at h
    obtain ⟨o, ho, h⟩ := h
    simpa [ho] using h

theorem forall₂_keys {α β : Type} {R : ℕ × α → ℕ × β → Prop} (hR : ∀ x y, R x y → y.1 = x.1) : ∀ (xs : List (ℕ × α)) (ys : List (ℕ × β)), List.Forall₂ R xs ys →
    ys.map (·.1) = xs.map (·.1)
  | _, _, .nil => rfl
  | _, _, .cons h t => by simp [hR _ _ h, forall₂_keys hR _ _ t]

theorem forall₂_left {α β : Type} {R : α → β → Prop} : ∀ {xs : List α} {ys : List β}, List.Forall₂ R xs ys → ∀ x ∈ xs, ∃ y ∈ ys, R x y
  | _, _, .nil, x, hx => by simp at hx
  | _, _, .cons h t, x, hx => by
    rcases List.mem_cons.1 hx with rfl | hx
    · exact ⟨_, by simp, h⟩
    · obtain ⟨y, hy, hr⟩ := forall₂_left t x hx
      exact ⟨y, List.mem_cons_of_mem _ hy, hr⟩

theorem forall₂_right {α β : Type} {R : α → β → Prop} : ∀ {xs : List α} {ys : List β}, List.Forall₂ R xs ys → ∀ y ∈ ys, ∃ x ∈ xs, R x y
  | _, _, .nil, y, hy => by simp at hy
  | _, _, .cons h t, y, hy => by
    rcases List.mem_cons.1 hy with rfl | hy
    · exact ⟨_, by simp, h⟩
    · obtain ⟨x, hx, hr⟩ := forall₂_right t y hy
      exact ⟨x, List.mem_cons_of_mem _ hx, hr⟩

/-- Replacing operations keeps the edges symmetric. -/
theorem symmetric_transfer {g : Graph L} {g' : Graph M} (hs : Spec.Symmetric g)
    (h₁ : ∀ b m, (b, m) ∈ g → ∃ m', (b, m') ∈ g' ∧ m'.inputs = m.inputs ∧ m'.outputs = m.outputs)
    (h₂ : ∀ b m', (b, m') ∈ g' → ∃ m, (b, m) ∈ g ∧ m'.inputs = m.inputs ∧ m'.outputs = m.outputs) : Spec.Symmetric g' := by
  have hin : ∀ (b j : ℕ) (e : Edge), (∃ m' : Node M, (b, m') ∈ g' ∧ m'.inputs[j]? = some e) ↔ ∃ m : Node L, (b, m) ∈ g ∧ m.inputs[j]? = some e := by
    intro b j e
    constructor
    · rintro ⟨m', hm', hj⟩
      obtain ⟨m, hm, hi, -⟩ := h₂ b m' hm'
      exact ⟨m, hm, hi ▸ hj⟩
    · rintro ⟨m, hm, hj⟩
      obtain ⟨m', hm', hi, -⟩ := h₁ b m hm
      exact ⟨m', hm', by rw [hi]; exact hj⟩
  constructor
  · intro a n' i w hn' hw b j
    obtain ⟨n, hn, -, ho⟩ := h₂ a n' hn'
    rw [hin]
    exact hs.out a n i w hn (ho ▸ hw) b j
  · intro b m' j a i hm' hj
    obtain ⟨m, hm, hi, -⟩ := h₂ b m' hm'
    obtain ⟨n, w, hn, hw⟩ := hs.inp b m j a i hm (hi ▸ hj)
    obtain ⟨n', hn', -, ho⟩ := h₁ a n hn
    exact ⟨n', w, hn', by rw [ho]; exact hw⟩

/-- Everything the two loops establish. -/
theorem quantizeModel_spec (quantize : ℕ → L → List S → Option (QuantizedLayer M S)) (numOutputs : L → ℕ → ℕ) (numInputs : ℕ) (g : Graph L)
    (hb : Built numOutputs numInputs g) (hq : ∀ id n ins q, (id, n) ∈ g → quantize id n.op ins = some q → q.outs.length = n.outputs.length)
    (inputs : List S) (sg : ScaledGraph M S) (outs : List S) (h : quantizeModel quantize g inputs = some (sg, outs)) :
    ScalesFit inputs (g.map (·.1)) sg ∧ outputScalings sg = some outs ∧
    (∀ id n, (id, n) ∈ g → ∃ ins q, mapGet id sg.ins = some ins ∧ mapGet id sg.outs = some q.outs ∧ n.inputs.mapM (edgeValue inputs sg.outs) = some ins ∧
      quantize id n.op ins = some q ∧ (∃ n', mapGet id sg.graph = some n' ∧ n'.op = q.op) ∧
      ∀ rs, q.requants = some rs → ∀ (i : ℕ) (rq : M) (s : S), rs[i]? = some rq → q.outs[i]? = some s →
        ∃ r m, mapGet r sg.graph = some m ∧ m.op = rq ∧ mapGet r sg.ins = some [s] ∧ mapGet r sg.outs = some [s]) := by
  have hg := built_good hb
  have hk := hg.keys
  unfold quantizeModel at h
  simp only [Option.bind_eq_bind, Option.bind_eq_some_iff, Option.some.injEq, Prod.mk.injEq] at h
  obtain ⟨xs, hxs, st, hst, sg', hsg, outs', ho, rfl, rfl⟩ := h
  obtain ⟨⟨xs', e₁, e₂, e₃⟩, -⟩ := C48_owned g hk
  rw [hxs] at e₁
  cases e₁
  have hxn : (xs.map (·.1)).Nodup := by rw [e₂]; exact (C48_forward g hk).1.once
  have hmem : ∀ x, x ∈ xs ↔ x ∈ g := by
    intro x
    refine ⟨e₃ x, fun hx => ?_⟩
    have : x.1 ∈ xs.map (·.1) := by rw [e₂]; exact (C49_built_complete _ _ g hb x.1 x.2 hx).1
    obtain ⟨y, hy, hyx⟩ := List.mem_map.1 this
    have h₁ := (mapGet_iff_mem g hk y.1 y.2).2 (e₃ y hy)
    rw [hyx, (mapGet_iff_mem g hk x.1 x.2).2 hx, Option.some.injEq] at h₁
    have : y = x := Prod.ext hyx h₁.symm
    exact this ▸ hy
  obtain ⟨-, -, d₁, d₂, ⟨new, hnew, hall⟩, rq, hrq, hsub, hr⟩ := quantizeNodes_spec quantize inputs xs _ st hst hxn (by simp [mapGet])
  simp only [List.nil_append] at hnew hrq
  have hkeys : st.nodes.map (·.1) = xs.map (·.1) := by
    rw [hnew]
    exact forall₂_keys (fun x y h => h.key) _ _ hall
  have hkn : (st.nodes.map (·.1)).Nodup := by rw [hkeys]; exact hxn
  have hto : ∀ b m, (b, m) ∈ g → ∃ m', (b, m') ∈ st.nodes ∧ NodeQuantized quantize inputs st (b, m) (b, m') := by
    intro b m hm
    obtain ⟨y, hy, hnq⟩ := forall₂_left hall (b, m) ((hmem _).2 hm)
    obtain ⟨y₁, y₂⟩ := y
    have hk := hnq.key
    dsimp only at hk
    subst hk
    exact ⟨y₂, by rw [hnew]; exact hy, hnq⟩
  have hfrom : ∀ b m', (b, m') ∈ st.nodes → ∃ m, (b, m) ∈ g ∧ NodeQuantized quantize inputs st (b, m) (b, m') := by
    intro b m' hm'
    rw [hnew] at hm'
    obtain ⟨x, hx, hnq⟩ := forall₂_right hall (b, m') hm'
    obtain ⟨x₁, x₂⟩ := x
    have hk := hnq.key
    dsimp only at hk
    subst hk
    exact ⟨x₂, (hmem _).1 hx, hnq⟩
  have hsym : Spec.Symmetric st.nodes := symmetric_transfer hg.symmetric
    (fun b m hm => by obtain ⟨m', h₁, h₂⟩ := hto b m hm; exact ⟨m', h₁, h₂.sameInputs, h₂.sameOutputs⟩)
    (fun b m' hm' => by obtain ⟨m, h₁, h₂⟩ := hfrom b m' hm'; exact ⟨m, h₁, h₂.sameInputs, h₂.sameOutputs⟩)
  have hfit : ScalesFit inputs (g.map (·.1)) (⟨st.nodes, st.ins, st.outs⟩ : ScaledGraph M S) := by
    refine ⟨hkn, hsym, ?_, ?_⟩
    · intro k hk'
      dsimp only at hk' ⊢
      rw [hkeys]
      rw [d₁ k, d₂ k] at hk'
      simpa [mapGet] using hk'
    · intro b m' hm'
      obtain ⟨m, hm, hnq⟩ := hfrom b m' ((mapGet_iff_mem _ hkn _ _).1 hm')
      obtain ⟨ins, q, hin, hqq, -, -, hi, ho', -⟩ := hnq.layer
      have hso := hnq.sameOutputs
      have hsi := hnq.sameInputs
      dsimp only at hso hsi hin hi ho' hqq
      have hfa := (mapM_forall₂ _ _ _).1 hin
      refine ⟨ins, q.outs, hi, ho', by rw [hso]; exact hq b m ins q hm hqq, fun _ => by rw [hsi]; exact hfa.length_eq.symm, ?_⟩
      intro j e s he hs
      rw [hsi] at he
      obtain ⟨h₁, rfl⟩ := List.getElem?_eq_some_iff.1 he
      obtain ⟨h₂, rfl⟩ := List.getElem?_eq_some_iff.1 hs
      exact hfa.get h₁ h₂
  obtain ⟨f₁, f₂, f₃, f₄, f₅⟩ := insertRequants_loop inputs (g.map (·.1)) st.requants _ sg' hfit (by
      intro b hb'
      dsimp only
      rw [hkeys, e₂]
      obtain ⟨⟨b', n⟩, hbn, rfl⟩ := List.mem_map.1 hb'
      exact (C49_built_complete _ _ g hb b' n hbn).1)
    (by rw [hrq]; exact hsub.nodup hxn) (by
      intro p hp
      rw [hrq] at hp
      obtain ⟨sc, hsc, hlen, x, hx, hxp, ins, q, hqq, rfl⟩ := hr p hp
      obtain ⟨m', hm', hnq⟩ := hto x.1 x.2 ((hmem x).1 hx)
      refine ⟨m', (mapGet_iff_mem _ hkn _ _).2 (by rw [← hxp]; exact hm'), ?_⟩
      have := hnq.sameOutputs
      dsimp only at this
      rw [this, ← hlen]
      exact hq x.1 x.2 ins q ((hmem x).1 hx) hqq) hsg
  refine ⟨f₁, ho, ?_⟩
  intro id n hn
  obtain ⟨m', hm', hnq⟩ := hto id n hn
  obtain ⟨ins, q, hin, hqq, hformed, hop, hi, ho', hreq⟩ := hnq.layer
  dsimp only at hin hqq hop hi ho' hreq
  obtain ⟨m₂, hm₂, hop₂, -⟩ := f₄ id m' ((mapGet_iff_mem _ hkn _ _).2 hm')
  refine ⟨ins, q, f₂ _ _ hi, f₃ _ _ ho', mapM_edgeValue_mono f₃ _ _ hin, hqq, ⟨m₂, hm₂, hop₂.trans hop⟩, ?_⟩
  intro rs hrs i r s hri hsi
  have hp : (id, rs) ∈ st.requants := hreq rs hrs
  obtain ⟨sc, hsc, hf⟩ := f₅ _ hp
  have : sc = q.outs := by
    have := f₃ _ _ ho'
    rw [hsc, Option.some.injEq] at this
    exact this
  subst this
  exact hf i r s hri hsi

/-- C89, as far as it holds: when a model built by successful calls has been quantised, then
* every layer was quantised with the factors recorded for the outputs (or model inputs) its input edges refer to, and what is recorded for it are these factors and the
  factors its quantisation gave for its outputs;
* in the quantised graph, with the requantisation nodes, there is one factor for each output of each node, and every recorded input factor is the factor of the output that
  this input is connected to in that graph.
What is missing: the factor recorded for a node that is followed by a requantisation node is not that of the node's own values, see `C89_before_requant_false`. -/
theorem C89_scalings_partial (quantize : ℕ → L → List S → Option (QuantizedLayer M S)) (numOutputs : L → ℕ → ℕ) (numInputs : ℕ) (g : Graph L)
    (hb : Built numOutputs numInputs g) (hq : ∀ id n ins q, (id, n) ∈ g → quantize id n.op ins = some q → q.outs.length = n.outputs.length)
    (inputs : List S) (sg : ScaledGraph M S) (outs : List S) (h : quantizeModel quantize g inputs = some (sg, outs)) :
    (∀ id n, (id, n) ∈ g → ∃ ins q, mapGet id sg.ins = some ins ∧ mapGet id sg.outs = some q.outs ∧
      List.Forall₂ (Carries inputs fun a => (mapGet a sg.outs).getD []) n.inputs ins ∧ quantize id n.op ins = some q ∧ ∃ n', (id, n') ∈ sg.graph ∧ n'.op = q.op) ∧
    ∀ id n, (id, n) ∈ sg.graph → ∃ ins os, mapGet id sg.ins = some ins ∧ mapGet id sg.outs = some os ∧ os.length = n.outputs.length ∧
      ((∃ n₀, (id, n₀) ∈ g) → ins.length = n.inputs.length) ∧
      ∀ (j : ℕ) (e : Edge) (s : S), n.inputs[j]? = some e → ins[j]? = some s → Carries inputs (fun a => (mapGet a sg.outs).getD []) e s := by
  obtain ⟨hf, -, hn⟩ := quantizeModel_spec quantize numOutputs numInputs g hb hq inputs sg outs h
  constructor
  · intro id n hm
    obtain ⟨ins, q, a, b, c, d, ⟨n', e, f⟩, -⟩ := hn id n hm
    exact ⟨ins, q, a, b, ((mapM_forall₂ _ _ _).1 c).imp fun _ _ => carries_of_edgeValue, d, n', (mapGet_iff_mem _ hf.keys _ _).1 e, f⟩
  · intro id n hm
    obtain ⟨ins, os, a, b, c, d, e⟩ := hf.fit id n ((mapGet_iff_mem _ hf.keys _ _).2 hm)
    exact ⟨ins, os, a, b, c, fun ⟨n₀, h₀⟩ => d (List.mem_map.2 ⟨_, h₀, rfl⟩), fun j e' s h₁ h₂ => carries_of_edgeValue (e j e' s h₁ h₂)⟩

/-- C89, outputs: when the quantised model is run, there are as many recorded output factors as outputs, and the factor at every index belongs to the same output of the
same node as the value at that index. -/
theorem C89_output_scalings {V : Type} (quantize : ℕ → L → List S → Option (QuantizedLayer M S)) (g : Graph L) (inputs : List S) (sg : ScaledGraph M S) (outs : List S)
    (h : quantizeModel quantize g inputs = some (sg, outs)) (eval : M → List V → Option (List V)) (values : List V) (trace : List (ℕ × List V)) (result : List V)
    (hr : runModel eval sg.graph values = some (trace, result)) :
    outs.length = result.length ∧ ∀ (k : ℕ) (v : V) (s : S), result[k]? = some v → outs[k]? = some s →
      ∃ (a : ℕ) (n : Node M) (i : ℕ) (wire : List Edge) (vs : List V) (ss : List S), (a, n) ∈ sg.graph ∧ n.outputs[i]? = some wire ∧ (⟨none, k⟩ : Edge) ∈ wire ∧
        mapGet a trace = some vs ∧ mapGet a sg.outs = some ss ∧ vs[i]? = some v ∧ ss[i]? = some s := by
  unfold quantizeModel at h
  simp only [Option.bind_eq_bind, Option.bind_eq_some_iff, Option.some.injEq, Prod.mk.injEq] at h
  obtain ⟨xs, -, st, -, sg', -, outs', ho, rfl, rfl⟩ := h
  unfold outputScalings at ho
  simp only [Option.bind_eq_bind, Option.bind_eq_some_iff] at ho
  obtain ⟨acc', h₃, h₄⟩ := ho
  unfold runModel at hr
  simp only [Option.bind_eq_bind, Option.bind_eq_some_iff, Option.some.injEq, Prod.mk.injEq] at hr
  obtain ⟨t', -, acc, h₁, r', h₂, rfl, rfl⟩ := hr
  refine ⟨?_, fun k v s hv hs => collected_together h₁ h₂ h₃ h₄ k v s hv hs⟩
  obtain ⟨pairs, e₁, e₂, -⟩ := collectNodes_pairs t' sg'.outs (outputNodes sg'.graph) [] acc acc' h₁ h₃
  have hl : ∀ {X : Type} {a : List (ℕ × X)} {o : List X}, outputsInOrder a = some o → o.length = a.length := by
    intro X a o hao
    unfold outputsInOrder at hao
    dsimp only at hao
    split at hao
    · split at hao
      · cases hao
        simp [List.length_insertionSort]
      · cases hao
    · cases hao
  rw [hl h₂, hl h₄, e₁, e₂]
  simp [firsts, seconds]

/-- C89 is false for a node followed by requantisation nodes: the factor recorded for its output is also the factor recorded for the input and for the output of the
requantisation node behind it, although the requantisation changes the values. So one of the two is converted back with the wrong factor. -/
theorem C89_before_requant_false (quantize : ℕ → L → List S → Option (QuantizedLayer M S)) (numOutputs : L → ℕ → ℕ) (numInputs : ℕ) (g : Graph L)
    (hb : Built numOutputs numInputs g) (hq : ∀ id n ins q, (id, n) ∈ g → quantize id n.op ins = some q → q.outs.length = n.outputs.length)
    (inputs : List S) (sg : ScaledGraph M S) (outs : List S) (h : quantizeModel quantize g inputs = some (sg, outs)) (id : ℕ) (n : Node L) (hn : (id, n) ∈ g)
    (ins : List S) (hi : mapGet id sg.ins = some ins) (q : QuantizedLayer M S) (hqq : quantize id n.op ins = some q) (rs : List M) (hrs : q.requants = some rs) :
    mapGet id sg.outs = some q.outs ∧ ∀ (i : ℕ) (rq : M) (s : S), rs[i]? = some rq → q.outs[i]? = some s →
      ∃ r m, (r, m) ∈ sg.graph ∧ m.op = rq ∧ mapGet r sg.ins = some [s] ∧ mapGet r sg.outs = some [s] := by
  obtain ⟨hf, -, hall⟩ := quantizeModel_spec quantize numOutputs numInputs g hb hq inputs sg outs h
  obtain ⟨ins', q', a, b, -, d, -, e⟩ := hall id n hn
  rw [hi] at a
  cases a
  rw [hqq] at d
  cases d
  refine ⟨b, fun i rq s h₁ h₂ => ?_⟩
  obtain ⟨r, m, c₁, c₂, c₃, c₄⟩ := e rs hrs i rq s h₁ h₂
  exact ⟨r, m, (mapGet_iff_mem _ hf.keys _ _).1 c₁, c₂, c₃, c₄⟩

/-! ### Cases -/

/-- Layers that add up: their raw output has the sum of the factors, a requantisation node divides it by two and the factor for its output is doubled. -/
def toyQuantize (_ : ℕ) (_ : Unit) (ins : List ℕ) : Option (QuantizedLayer (Option ℕ) ℕ) := some ⟨none, [2 * ins.sum], some [some 2]⟩

example : (quantizeModel toyQuantize toyBuilt [5]).map (fun r => (r.1.ins, r.1.outs, r.2)) =
    some ([(0, [5]), (1, [10]), (2, [20, 10]), (3, [10]), (4, [20]), (5, [60])], [(0, [10]), (1, [20]), (2, [60]), (3, [10]), (4, [20]), (5, [60])], [60]) := by decide +kernel

example : ∀ id n ins q, (id, n) ∈ toyBuilt → toyQuantize id n.op ins = some q → q.outs.length = n.outputs.length := by
  intro id n ins q hm h
  cases h
  simp only [toyBuilt, List.mem_cons, Prod.mk.injEq, List.not_mem_nil, or_false] at hm
  rcases hm with ⟨-, rfl⟩ | ⟨-, rfl⟩ | ⟨-, rfl⟩ <;> rfl

/-- The quantised model runs: the first layer gives 11, requantised to 5, the second 6, requantised to 3, the third 9, requantised to 4. -/
example : ((quantizeModel toyQuantize toyBuilt [5]).bind fun r => runModel requantEval r.1.graph [10]).map (fun r => r.2) = some [4] := by decide +kernel

end Props
