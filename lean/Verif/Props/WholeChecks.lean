import Verif.Props.Network

/-!
C87, further: what acceptance of a whole proof says about the lookups of the layers, and which shapes the layers are verified with.
-/

namespace Props

open Model Spec Lemmas

variable {L P T TP C S F : Type} [Field F] [DecidableEq F]

/-- C87, lookups: if the verifier accepts, every node whose layer has a proof has one among the steps, and the fractions in the lookups of all these proofs and of all table proofs
have non-zero denominators and add up to zero. `fr a` are the fractions of node `a`. -/
theorem C87_lookups_partial (api : VerifierApi L P T TP C S F) (hashOrder : List (ℕ × List ℕ) → List (ℕ × List ℕ)) (g : Graph L) (hk : (g.map (·.1)).Nodup)
    (hac : ∀ x, ¬Relation.TransGen (TakesFrom g) x x) (unpadded : List (List ℕ)) (proof : WholeProof P TP C) (inputs outputs : List (Tensor F)) (s : S)
    (h : verifyWhole api hashOrder g unpadded proof inputs outputs s = some ()) :
    ∃ fr : ℕ → List (F × F),
      (∀ a n, (a, n) ∈ g → (api.kind n.op).hasProof = true → ∃ p, mapGet a proof.steps = some p ∧ fr a = api.lookupData p) ∧
      (∀ a n, (a, n) ∈ g → (api.kind n.op).hasProof = false → fr a = []) ∧
      (∀ a n, (a, n) ∈ g → ∀ x ∈ fr a, x.2 ≠ 0) ∧ (∀ tp ∈ proof.tableProofs, ∀ x ∈ api.tableData tp, x.2 ≠ 0) ∧
      ((g.map fun x => fracSum (fr x.1)).sum + (proof.tableProofs.map fun tp => fracSum (api.tableData tp)).sum = 0) := by
  obtain ⟨s₁, fr, bnodes, bound, out, shapes, r, s₃, ic, nodes, chk, -, h₂, -, -, -, -, -, -, -, -, -, -, hfin⟩ := verifyWhole_inv api hashOrder g unpadded proof _ outputs s h
  unfold allFractions at h₂
  simp only [Option.bind_eq_bind, Option.bind_eq_some_iff, Option.some.injEq] at h₂
  obtain ⟨frn, hfrn, rfl⟩ := h₂
  obtain ⟨hr, -⟩ := C48_forward g hk
  have hall := (C48_complete g hk).1.mpr hac
  have hf2 := (mapM_forall₂ _ _ _).1 hfrn
  obtain ⟨hd, hsum⟩ := (finalCheck_iff _).1 hfin
  have hfrn' : frn = (forwardOrder g).map fun a => (nodeFractions api g proof.steps a).getD [] := by
    clear hfin hd hsum
    generalize forwardOrder g = l at hf2
    clear hfrn
    induction hf2 with
    | nil => rfl
    | cons h _ ih => rw [List.map_cons, h, Option.getD_some, ← ih]
  have hnode : ∀ a n, (a, n) ∈ g → ∃ f, nodeFractions api g proof.steps a = some f := by
    intro a n hn
    obtain ⟨i, hi, rfl⟩ := List.getElem_of_mem (hall a n hn)
    have hi' : i < frn.length := by rw [← hf2.length_eq]; exact hi
    exact ⟨_, hf2.get hi hi'⟩
  have hperm : (forwardOrder g).Perm (g.map (·.1)) := by
    rw [List.perm_ext_iff_of_nodup hr.once hk]
    intro a
    constructor
    · intro ha
      obtain ⟨n, hn⟩ := hr.nodes a ha
      exact List.mem_map.2 ⟨_, hn, rfl⟩
    · intro ha
      obtain ⟨⟨b, n⟩, hn, rfl⟩ := List.mem_map.1 ha
      exact hall b n hn
  refine ⟨fun a => (nodeFractions api g proof.steps a).getD [], ?_, ?_, ?_, ?_, ?_⟩
  · intro a n hn hp
    obtain ⟨f, hf⟩ := hnode a n hn
    dsimp only
    rw [hf]
    unfold nodeFractions at hf
    simp only [(mapGet_iff_mem g hk a n).2 hn, Option.bind_eq_bind, Option.bind_some, hp, if_true, Option.bind_eq_some_iff, Option.some.injEq] at hf
    obtain ⟨p, hp, rfl⟩ := hf
    exact ⟨p, hp, rfl⟩
  · intro a n hn hp
    obtain ⟨f, hf⟩ := hnode a n hn
    dsimp only
    rw [hf]
    unfold nodeFractions at hf
    simp only [(mapGet_iff_mem g hk a n).2 hn, Option.bind_eq_bind, Option.bind_some, hp, Bool.false_eq_true, if_false, Option.some.injEq] at hf
    rw [← hf]
    rfl
  · intro a n hn x hx
    refine hd x (List.mem_append_left _ ?_)
    rw [hfrn', List.mem_flatten]
    exact ⟨_, List.mem_map.2 ⟨a, hall a n hn, rfl⟩, hx⟩
  · intro tp htp x hx
    exact hd x (List.mem_append_right _ (List.mem_flatMap.2 ⟨tp, htp, hx⟩))
  · have key : ∀ l : List (List (F × F)), fracSum l.flatten = (l.map fracSum).sum := by
      intro l
      induction l with
      | nil => rfl
      | cons x l ih => rw [List.flatten_cons, fracSum_append, ih, List.map_cons, List.sum_cons]
    rw [fracSum_append, hfrn', key, List.map_map, List.flatMap_def, key, List.map_map] at hsum
    rw [← hsum]
    congr 1
    rw [(hperm.map (fracSum ∘ fun a => (nodeFractions api g proof.steps a).getD [])).sum_eq, List.map_map]
    rfl

/-- C87, shapes: in an accepted verification the shapes (unpadded, padded) a layer is verified with are those that flow along the edges: the shapes of the inputs of a node are those of the inputs
of the model (as declared, and of the given tensors) or of the outputs of the nodes they come from, and the shapes of the outputs are what the layer computes from those of its inputs. -/
theorem C87_shapes_partial (api : VerifierApi L P T TP C S F) (hashOrder : List (ℕ × List ℕ) → List (ℕ × List ℕ)) (g : Graph L) (hk : (g.map (·.1)).Nodup)
    (hac : ∀ x, ¬Relation.TransGen (TakesFrom g) x x) (unpadded : List (List ℕ)) (proof : WholeProof P TP C) (inputs outputs : List (Tensor F)) (s : S)
    (h : verifyWhole api hashOrder g unpadded proof inputs outputs s = some ()) :
    ∃ shapes, ∃ ins outs : ℕ → List (List ℕ × List ℕ), shapeSteps api g unpadded (inputs.map Tensor.shape) = some shapes ∧
      ∀ b m, (b, m) ∈ g → List.Forall₂ (Carries (unpadded.zip (inputs.map Tensor.shape)) outs) m.inputs (ins b) ∧ outs b = api.shapes m.op (ins b) ∧
        ∀ p s₁ claims, (api.kind m.op).hasProof = true → (api.kind m.op).ctxProvable = some true → mapGet b proof.steps = some p →
          verifyNode api shapes proof.steps s₁ b m claims = (api.verify m.op p claims (ins b) (outs b) s₁).map fun r => (r.2, r.1) := by
  obtain ⟨s₁, fr, bnodes, bound, out, shapes, r, s₃, ic, nodes, chk, -, -, -, -, -, h₆, -⟩ := verifyWhole_inv api hashOrder g unpadded proof _ outputs s h
  obtain ⟨hr, -⟩ := C48_forward g hk
  have hall := (C48_complete g hk).1.mpr hac
  have key : ∀ (ids : List ℕ) (st st' : List (ℕ × List (List ℕ × List ℕ) × List (List ℕ × List ℕ))), ids.Nodup → (∀ x ∈ ids, mapGet x st = none) → ids.foldlM (fun steps id => do
      let n ← mapGet id g
      let ins ← n.inputs.mapM (edgeShape unpadded (inputs.map Tensor.shape) steps)
      some (mapSet id (ins, api.shapes n.op ins) steps)) st = some st' → Extends st st' ∧ ∀ x ∈ ids, ∃ n ins, mapGet x g = some n ∧ mapGet x st' = some (ins, api.shapes n.op ins) ∧
        List.Forall₂ (fun e v => edgeShape unpadded (inputs.map Tensor.shape) st' e = some v) n.inputs ins := by
    intro ids
    induction ids with
    | nil => intro st st' _ _ h; simp only [List.foldlM_nil] at h; cases h; exact ⟨fun _ _ h => h, by simp⟩
    | cons x ids ih =>
      intro st st' hn hf h
      rw [List.foldlM_cons] at h
      simp only [Option.bind_eq_bind, Option.bind_eq_some_iff, Option.some.injEq] at h
      obtain ⟨st₁, ⟨n, hx, ins, hi, rfl⟩, h⟩ := h
      obtain ⟨hxn, hn'⟩ := List.nodup_cons.mp hn
      have hxt := hf x (by simp)
      obtain ⟨e₁, e₂⟩ := ih _ st' hn' (fun y hy => by
        have hyx : y ≠ x := fun e => hxn (e ▸ hy)
        rw [mapGet_mapSet, if_neg hyx]
        exact hf y (by simp [hy])) h
      have he : Extends st st' := fun a v ha => e₁ a v (extends_mapSet hxt a v ha)
      refine ⟨he, ?_⟩
      intro y hy
      rcases List.mem_cons.mp hy with rfl | hy
      · refine ⟨n, ins, hx, e₁ y _ (by rw [mapGet_mapSet, if_pos rfl]), ?_⟩
        refine ((mapM_forall₂ _ _ _).mp hi).imp ?_
        intro e v hv
        unfold edgeShape at hv ⊢
        cases hen : e.node with
        | none => rw [hen] at hv; exact hv
        | some a =>
          rw [hen] at hv
          simp only [Option.bind_eq_bind, Option.bind_eq_some_iff] at hv ⊢
          obtain ⟨z, hz, hv⟩ := hv
          exact ⟨z, he a z hz, hv⟩
      · exact e₂ y hy
  obtain ⟨-, hspec⟩ := key (forwardOrder g) [] shapes hr.once (fun _ _ => rfl) h₆
  refine ⟨shapes, fun a => ((mapGet a shapes).getD ([], [])).1, fun a => ((mapGet a shapes).getD ([], [])).2, h₆, ?_⟩
  intro b m hm
  obtain ⟨n, ins, hn, hsh, hf⟩ := hspec b (hall b m hm)
  rw [(mapGet_iff_mem g hk b m).2 hm, Option.some.injEq] at hn
  subst hn
  dsimp only
  rw [hsh, Option.getD_some]
  refine ⟨hf.imp ?_, rfl, ?_⟩
  · intro e v he
    unfold edgeShape at he
    unfold Carries
    cases hen : e.node with
    | none =>
      rw [hen] at he
      simp only [Option.bind_eq_bind, Option.bind_eq_some_iff, Option.some.injEq] at he
      obtain ⟨u, hu, q, hq, rfl⟩ := he
      simp only [List.getElem?_zip_eq_some]
      exact ⟨hu, hq⟩
    | some a =>
      rw [hen] at he
      simp only [Option.bind_eq_bind, Option.bind_eq_some_iff] at he
      obtain ⟨z, hz, hv⟩ := he
      simp only [hz, Option.getD_some]
      exact hv
  · intro p s₁ claims h1 h2 h3
    unfold verifyNode
    simp only [h1, h2, h3, hsh, if_true, Option.map_some, Option.bind_eq_bind, Option.bind_some]
    cases api.verify m.op p claims ins (api.shapes m.op ins) s₁ <;> rfl

/-- The accepted proof of `net_accepted`: the network satisfies the conditions, and its proofs have fractions. -/
example : (netGraph.map (·.1)).Nodup ∧ (∀ x, ¬Relation.TransGen (TakesFrom netGraph) x x) ∧ netMade.map (fun proof => proof.steps.map fun x => (netLookupData x.2).length) = some [1, 2, 0, 4] ∧
    ∃ proof, netMade = some proof ∧
      verifyWhole (netVerifier netEnv netGraph fun _ l => l) id netGraph [[4, 2, 2]] proof ([netInput].map (Tensor.toFields netEnv.p)) ([⟨[4], [0, 3, 1, 3]⟩].map (Tensor.toFields netEnv.p)) netState
        = some () := by
  have hk : (netGraph.map (·.1)).Nodup := by decide
  refine ⟨hk, (C48_complete netGraph hk).1.mp fun a n hn => (C49_built_complete _ _ netGraph netGraph_built a n hn).1, by decide +kernel, ?_⟩
  obtain ⟨proof, h, -, -, h'⟩ := net_accepted
  exact ⟨proof, h, h'⟩

end Props
