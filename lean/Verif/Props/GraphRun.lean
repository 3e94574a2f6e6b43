import Verif.Lemmas.GraphClaims
import Verif.Lemmas.Requant
import Verif.Props.Graph

/-!
C50: requantisation nodes; C58: claims along the edges; C66, C67: running a model; C68, C69: claims about the outputs.
-/

namespace Props

open Model Spec Lemmas

variable {L V S F : Type}

/-! ### C66 -/

/-- C66, soundness: if a run of a graph without cycles succeeds, the outputs it recorded for the nodes solve the dataflow equations: every node's outputs are its operation
applied to the values on its input edges. -/
theorem C66_run_sound (eval : L → List V → Option (List V)) (g : Graph L) (hk : (g.map (·.1)).Nodup) (hac : ∀ x, ¬Relation.TransGen (TakesFrom g) x x)
    (input : List V) (t : List (ℕ × List V)) (h : runTrace eval g input = some t) :
    Dataflow eval g input (fun a => (mapGet a t).getD []) ∧ ∀ a, (∃ n, (a, n) ∈ g) ↔ (mapGet a t).isSome := by
  have hall := (C48_complete g hk).1.mpr hac
  obtain ⟨hr, -⟩ := C48_forward g hk
  obtain ⟨-, h₂, h₃⟩ := runTrace_spec eval g input (forwardOrder g) [] t hr.once (fun _ _ => rfl) h
  constructor
  · intro b m hb
    obtain ⟨n, ins, out, hn, hf, he, ho⟩ := h₃ b (hall b m hb)
    rw [(mapGet_iff_mem g hk b m).mpr hb] at hn
    cases hn
    refine ⟨ins, hf.imp ?_, by simpa [ho] using he⟩
    intro e v hev
    unfold edgeValue at hev
    unfold Carries
    cases hn : e.node with
    | none => rw [hn] at hev; exact hev
    | some a =>
      rw [hn] at hev
      simp only [Option.bind_eq_bind, Option.bind_eq_some_iff] at hev
      obtain ⟨outs, ha, hv⟩ := hev
      simpa [ha] using hv
  · intro a
    rw [h₂ a]
    constructor
    · rintro ⟨n, hn⟩
      exact Or.inr (hall a n hn)
    · rintro (h | h)
      · simp [mapGet] at h
      · exact hr.nodes a h

/-- C66, completeness: if the dataflow equations of a graph without cycles or dangling inputs have a solution, the run succeeds and records it. So the solution is
unique, and the order in which the nodes were run makes no difference. -/
theorem C66_run_complete (eval : L → List V → Option (List V)) (g : Graph L) (hk : (g.map (·.1)).Nodup) (hac : ∀ x, ¬Relation.TransGen (TakesFrom g) x x)
    (hdeps : ∀ b m, (b, m) ∈ g → ∀ e ∈ m.inputs, ∀ a, e.node = some a → ∃ n, (a, n) ∈ g) (input : List V) (val : ℕ → List V)
    (hval : Dataflow eval g input val) : ∃ t, runTrace eval g input = some t ∧ ∀ x n, (x, n) ∈ g → mapGet x t = some (val x) := by
  have hall := (C48_complete g hk).1.mpr hac
  obtain ⟨t, h₁, h₂⟩ := runTrace_complete eval g hk input val hval hdeps (forwardOrder g) (C48_forward g hk).1 (forwardOrder g) [] [] rfl (by simp)
  exact ⟨t, h₁, fun x n hx => h₂ x (hall x n hx)⟩

/-- C66 for models built by successful calls: the run succeeds exactly when the dataflow equations have a solution, and then it records the only one. -/
theorem C66_built (numOutputs : L → ℕ → ℕ) (numInputs : ℕ) (eval : L → List V → Option (List V)) (g : Graph L) (hb : Built numOutputs numInputs g)
    (input : List V) (val : ℕ → List V) :
    Dataflow eval g input val ↔ ∃ t, runTrace eval g input = some t ∧ ∀ x n, (x, n) ∈ g → mapGet x t = some (val x) := by
  have hg := built_good hb
  have hac : ∀ x, ¬Relation.TransGen (TakesFrom g) x x := (C48_complete g hg.keys).1.mp fun x n hx => (C49_built_complete _ _ g hb x n hx).1
  have hdeps : ∀ b m, (b, m) ∈ g → ∀ e ∈ m.inputs, ∀ a, e.node = some a → ∃ n, (a, n) ∈ g := by
    intro b m hm e he a hea
    obtain ⟨j, hj⟩ := List.getElem?_of_mem he
    obtain ⟨n, w, hn, -⟩ := hg.symmetric.inp b m j a e.index hm (by rw [hj]; cases e; simp_all)
    exact ⟨n, hn⟩
  constructor
  · exact C66_run_complete eval g hg.keys hac hdeps input val
  · rintro ⟨t, ht, hv⟩ b m hbm
    obtain ⟨ins, hf, he⟩ := (C66_run_sound eval g hg.keys hac input t ht).1 b m hbm
    simp only [hv b m hbm, Option.getD_some] at he
    refine ⟨ins, ?_, he⟩
    have hsub : ∀ e ∈ m.inputs, ∀ v, Carries input (fun a => (mapGet a t).getD []) e v → Carries input val e v := by
      intro e hem v hc
      unfold Carries at hc ⊢
      cases hn : e.node with
      | none => rw [hn] at hc; exact hc
      | some a =>
        rw [hn] at hc
        obtain ⟨n, hna⟩ := hdeps b m hbm e hem a hn
        simpa [hv a n hna] using hc
    clear he
    generalize m.inputs = l at hf hsub
    induction hf with
    | nil => exact .nil
    | cons hd _ ih => exact .cons (hsub _ (by simp) _ hd) (ih fun e he => hsub e (List.mem_cons_of_mem _ he))

/-- The evaluation used in the examples: one output, the sum of the inputs plus one. -/
def sumEval : Unit → List ℕ → Option (List ℕ) := fun _ ins => some [ins.sum + 1]

example : runTrace sumEval toyBuilt [10] = some [(0, [11]), (1, [12]), (2, [24])] := by decide

/-! ### C67 -/

/-- C67 for graphs in which a node with one output going outside has only outputs going outside, each to one place: a successful run returns, at every index `k`, the value
on the wire that is connected to output `k`, and nothing else. Missing: what is proved to fail below, outputs of nodes that have an output not going outside, and wires
connected to several outputs. -/
theorem C67_outputs_partial (eval : L → List V → Option (List V)) (g : Graph L) (input : List V) (t : List (ℕ × List V)) (outs : List V)
    (h : runModel eval g input = some (t, outs))
    (hall : ∀ a n, (a, n) ∈ g → (∃ w ∈ n.outputs, ∃ e ∈ w, e.node = none) → ∀ w ∈ n.outputs, ∃ e ∈ w, e.node = none)
    (hone : ∀ a n, (a, n) ∈ g → ∀ w ∈ n.outputs, ∀ e ∈ w, ∀ e' ∈ w, e.node = none → e'.node = none → e = e') :
    ∀ k v, outs[k]? = some v ↔ ∃ (a : ℕ) (n : Node L) (i : ℕ) (w : List Edge) (vals : List V), (a, n) ∈ g ∧ n.outputs[i]? = some w ∧ (⟨none, k⟩ : Edge) ∈ w ∧
      mapGet a t = some vals ∧ vals[i]? = some v := by
  unfold runModel at h
  simp only [Option.bind_eq_bind, Option.bind_eq_some_iff, Option.some.injEq, Prod.mk.injEq] at h
  obtain ⟨t', ht, acc, hacc, outs', ho, rfl, rfl⟩ := h
  obtain ⟨a₁, a₂, a₃⟩ := collectNodes_spec t' _ _ _ hacc (by simp)
  intro k v
  rw [outputsInOrder_spec ho a₁ k v, a₃]
  simp only [List.not_mem_nil, false_or]
  have hmemOut : ∀ x : ℕ × Node L, x ∈ outputNodes g ↔ x ∈ g ∧ ∀ w ∈ x.2.outputs, ∃ e ∈ w, e.node = none := by
    intro x
    simp [outputNodes, List.mem_filter]
  constructor
  · rintro ⟨x, hx, i, w, e, vals, hw, he, hk, hm, hv⟩
    have hxg := ((hmemOut x).mp hx).1
    refine ⟨x.1, x.2, i, w, vals, hxg, hw, ?_, hm, hv⟩
    have h₁ := List.mem_of_find?_eq_some he
    have h₂ := List.find?_some he
    cases e
    simp_all
  · rintro ⟨a, n, i, w, vals, hg, hw, hmem, hm, hv⟩
    have hwm := List.mem_of_getElem? hw
    refine ⟨(a, n), (hmemOut _).mpr ⟨hg, hall a n hg ⟨w, hwm, _, hmem, rfl⟩⟩, i, w, ?_⟩
    cases hf : w.find? (·.node.isNone) with
    | none =>
      rw [List.find?_eq_none] at hf
      exact absurd rfl (hf _ hmem)
    | some e =>
      have h₁ := List.mem_of_find?_eq_some hf
      have h₂ := List.find?_some hf
      have : e = ⟨none, k⟩ := hone a n hg w hwm e h₁ _ hmem (by simpa using h₂) rfl
      subst this
      exact ⟨_, vals, hw, rfl, rfl, hm, hv⟩

example : runModel sumEval toyBuilt [10] = some ([(0, [11]), (1, [12]), (2, [24])], [24]) := by decide

/-- A node with two outputs, the second of which is output 1 of the model and the first an input of the next node, whose output is output 0 of the model. -/
def mixedGraph : Graph Bool :=
  [(0, ⟨[⟨none, 0⟩], [[⟨some 1, 0⟩], [⟨none, 1⟩]], true⟩), (1, ⟨[⟨some 0, 0⟩], [[⟨none, 0⟩]], false⟩)]

/-- C67 fails: this model is built by successful calls and declares two outputs, but a run succeeds and returns only one of them, because the node of the other one also has
an output that stays inside. -/
theorem C67_output_dropped_false :
    Built (fun b _ => if b then 2 else 1) 1 mixedGraph ∧ (⟨none, 1⟩ : Edge) ∈ [(⟨none, 1⟩ : Edge)] ∧
    ∀ x : ℕ, runModel (fun b ins => if b then some [ins.sum, ins.sum + 1] else some [ins.sum + 10]) mixedGraph [x] = some ([(0, [x, x + 1]), (1, [x + 10])], [x + 10]) := by
  refine ⟨?_, by simp, fun x => ?_⟩
  · have h₁ : Built (fun b _ => if b then 2 else 1) 1 (addConsecutive (fun b _ => if b then 2 else 1) 1 ([] : Graph Bool) true none).1 :=
      .consecutive .empty (prev := none) (op := true) (id := 0) rfl
    have h₂ := Built.node h₁ (inputs := [⟨some 0, 0⟩]) (op := false) (id := 1)
      (g' := [(0, ⟨[⟨none, 0⟩], [[⟨some 1, 0⟩], []], true⟩), (1, ⟨[⟨some 0, 0⟩], [[]], false⟩)]) (by decide)
    exact Built.route h₂ (edges := some [⟨some 1, 0⟩, ⟨some 0, 1⟩]) (by decide)
  · have ho : forwardOrder mixedGraph = [0, 1] := by decide
    simp only [runModel, runTrace, ho]
    simp [runStep, mixedGraph, mapGet, mapSet, edgeValue, outputNodes, collectNode, collectWire, outputsInOrder, List.foldlM_cons, List.mapM_cons]

/-! ### C58 -/

/-- C58: the backward pass calls the prover or verifier of every node reached exactly once, one after the other, and hands it for each output the claim that an earlier call
made for the one input connected to that output, or the claim about the output of the model if it is connected to the outside. -/
theorem C58_claims_follow_edges (layer : S → ℕ → Node L → List (Claim F) → Option (S × List (Claim F))) (g : Graph L) (hk : (g.map (·.1)).Nodup)
    (outC : List (Claim F)) (s s' : S) (cs : List (ℕ × List (Claim F))) (h : backwardPass layer g outC s = some (s', cs)) :
    ∃ log : List (LayerCall S F), log.map (·.id) = backwardOrder g ∧ Follows s log s' ∧
      (∀ c ∈ log, mapGet c.id cs = some c.inputs) ∧
      ∀ done c rest, log = done ++ c :: rest → ∃ n, (c.id, n) ∈ g ∧ layer c.before c.id n c.outputs = some (c.after, c.inputs) ∧
        c.outputs.length = n.outputs.length ∧
        ∀ (i : ℕ) (cl : Claim F), c.outputs[i]? = some cl →
          (∃ k, n.outputs[i]? = some [⟨none, k⟩] ∧ outC[k]? = some cl) ∨
          (∃ b j, n.outputs[i]? = some [⟨some b, j⟩] ∧ ∃ d ∈ done, d.id = b ∧ d.inputs[j]? = some cl) := by
  obtain ⟨hr, -⟩ := C48_backward g hk
  obtain ⟨-, h₂, log, h₃, h₄, h₅⟩ := backward_spec layer g outC (backwardOrder g) s [] s' cs hr.once (fun _ _ => rfl) h
  have hget : ∀ c ∈ log, mapGet c.id cs = some c.inputs := fun c hc => by
    obtain ⟨n, -, -, h, -⟩ := h₅ c hc; exact h
  refine ⟨log, h₃, h₄, hget, ?_⟩
  intro done c rest hlog
  obtain ⟨n, hn, hl, hc, hf⟩ := h₅ c (by rw [hlog]; simp)
  have hng := (mapGet_iff_mem g hk c.id n).mp hn
  refine ⟨n, hng, hl, hf.length_eq.symm, ?_⟩
  intro i cl hi
  obtain ⟨hil, hie⟩ := List.getElem?_eq_some_iff.mp hi
  have hil' : i < n.outputs.length := by rw [hf.length_eq]; exact hil
  have hw := hf.get (i := i) hil' hil
  simp only [List.get_eq_getElem, hie] at hw
  rw [List.getElem?_eq_getElem hil']
  generalize hW : n.outputs[i] = w at hw
  unfold claimForWire at hw
  match w, hw with
  | [e], hw =>
    obtain ⟨node, idx⟩ := e
    cases node with
    | none => exact Or.inl ⟨idx, rfl, hw⟩
    | some b =>
      right
      simp only [Option.bind_eq_bind, Option.bind_eq_some_iff] at hw
      obtain ⟨l, hb, hj⟩ := hw
      refine ⟨b, idx, rfl, ?_⟩
      have hbo : b ∈ backwardOrder g := by
        have := (h₂ b).mp (by rw [hb]; rfl)
        simpa [mapGet] using this
      have hgives : GivesTo g c.id b := ⟨⟨n, hng, n.outputs[i], List.getElem_mem _, ⟨some b, idx⟩, by rw [hW]; simp, rfl⟩, hr.nodes b hbo⟩
      have := hr.before (done.map (·.id)) c.id (rest.map (·.id)) (by rw [← h₃, hlog]; simp) b hgives
      obtain ⟨d, hd, hdb⟩ := List.mem_map.mp this
      have hdc := hget d (by rw [hlog]; exact List.mem_append_left _ hd)
      rw [hdb, hb] at hdc
      cases hdc
      exact ⟨d, hd, hdb, hj⟩

/-- C58: no claim is lost. In a graph whose connections are recorded at both ends and without cycles, every claim made for an input that is output `i` of node `a` was
handed to `a` as the claim about its output `i`. -/
theorem C58_no_claim_lost (layer : S → ℕ → Node L → List (Claim F) → Option (S × List (Claim F))) (g : Graph L) (hk : (g.map (·.1)).Nodup) (hs : Spec.Symmetric g)
    (hac : ∀ x, ¬Relation.TransGen (GivesTo g) x x)
    (outC : List (Claim F)) (s s' : S) (cs : List (ℕ × List (Claim F))) (h : backwardPass layer g outC s = some (s', cs))
    (b : ℕ) (m : Node L) (j a i : ℕ) (hb : (b, m) ∈ g) (hj : m.inputs[j]? = some ⟨some a, i⟩) :
    ∃ n st claims st' claims' cl l, (a, n) ∈ g ∧ n.outputs[i]? = some [⟨some b, j⟩] ∧ layer st a n claims = some (st', claims') ∧ claims[i]? = some cl ∧
      mapGet b cs = some l ∧ l[j]? = some cl := by
  obtain ⟨log, h₁, -, h₃, h₄⟩ := C58_claims_follow_edges layer g hk outC s s' cs h
  have hall := (C48_complete g hk).2.mpr hac
  obtain ⟨n, w, hn, hw⟩ := hs.inp b m j a i hb hj
  have ha := hall a n hn
  rw [← h₁] at ha
  obtain ⟨c, hc, hca⟩ := List.mem_map.mp ha
  obtain ⟨done, rest, hlog⟩ := List.append_of_mem hc
  obtain ⟨n', hn', hl, hlen, hcl⟩ := h₄ done c rest hlog
  have hnn : n' = n := by
    have e₁ := (mapGet_iff_mem g hk _ _).mpr hn'
    rw [hca, (mapGet_iff_mem g hk _ _).mpr hn] at e₁
    exact (Option.some.inj e₁).symm
  subst hnn
  have hil : i < c.outputs.length := by rw [hlen]; exact (List.getElem?_eq_some_iff.mp hw).1
  have hcount := (hs.out a n' i w hn hw b j).1 ⟨m, hb, hj⟩
  have hmem : (⟨some b, j⟩ : Edge) ∈ w := List.count_pos_iff.mp (by omega)
  rcases hcl i c.outputs[i] (List.getElem?_eq_getElem hil) with ⟨k, hk', -⟩ | ⟨b', j', hbj, d, hd, hdb, hdj⟩
  · rw [hw] at hk'
    cases hk'
    simp at hmem
  · rw [hw] at hbj
    cases hbj
    simp only [List.mem_singleton, Edge.mk.injEq, Option.some.injEq] at hmem
    obtain ⟨rfl, rfl⟩ := hmem
    have hdc := h₃ d (by rw [hlog]; exact List.mem_append_left _ hd)
    rw [hdb] at hdc
    exact ⟨n', c.before, c.outputs, c.after, c.inputs, c.outputs[i], d.inputs, hn, hw, hca ▸ hl, List.getElem?_eq_getElem hil, hdc, hdj⟩

/-- C58: the claims about the inputs of the model are exactly those made for the inputs of nodes that are inputs of the model. -/
theorem C58_input_claims (g : Graph L) (hk : (g.map (·.1)).Nodup) (cs : List (ℕ × List (Claim F))) (order : List ℕ) (hall : ∀ a n, (a, n) ∈ g → a ∈ order)
    (l : List (ℕ × Claim F)) (h : inputClaims g cs order = some l) :
    ∀ k cl, (k, cl) ∈ l ↔ ∃ (a : ℕ) (n : Node L) (j : ℕ) (c : List (Claim F)), (a, n) ∈ g ∧ n.inputs[j]? = some ⟨none, k⟩ ∧ mapGet a cs = some c ∧ c[j]? = some cl := by
  unfold inputClaims at h
  simp only [Option.bind_eq_bind, Option.bind_eq_some_iff] at h
  obtain ⟨nodes, hn, claims, hc, h⟩ := h
  split at h
  case isFalse => cases h
  case isTrue hcond =>
  simp only [Option.some.injEq] at h
  subst h
  have hn' := (mapM_forall₂ _ _ _).mp hn
  have hc' := (mapM_forall₂ _ _ _).mp hc
  have hnodes : ∀ x, x ∈ nodes ↔ x ∈ g ∧ x.1 ∈ order := by
    intro x
    constructor
    · intro hx
      obtain ⟨i, hi, hix⟩ := List.mem_iff_getElem.mp hx
      have := hn'.get (i := i) (by rw [hn'.length_eq]; exact hi) hi
      simp only [List.get_eq_getElem, hix, Option.map_eq_some_iff] at this
      obtain ⟨n, hgn, rfl⟩ := this
      exact ⟨(mapGet_iff_mem g hk _ _).mp hgn, List.getElem_mem _⟩
    · rintro ⟨hg, ho⟩
      obtain ⟨i, hi, hix⟩ := List.mem_iff_getElem.mp ho
      have := hn'.get (i := i) hi (by rw [← hn'.length_eq]; exact hi)
      simp only [List.get_eq_getElem, hix, (mapGet_iff_mem g hk x.1 x.2).mpr hg, Option.map_some, Option.some.injEq] at this
      rw [show x = nodes[i]'(by rw [← hn'.length_eq]; exact hi) from this]
      exact List.getElem_mem _
  intro k cl
  rw [List.mem_flatten]
  constructor
  · rintro ⟨cl', hcl', hm⟩
    obtain ⟨i, hi, hix⟩ := List.mem_iff_getElem.mp hcl'
    have := hc'.get (i := i) (by rw [hc'.length_eq]; exact hi) hi
    simp only [List.get_eq_getElem, hix] at this
    obtain ⟨j, hj, c, hc₁, hc₂⟩ := (inputClaimsOfNode_spec this k cl).mp hm
    exact ⟨_, _, j, c, ((hnodes _).mp (List.getElem_mem (l := nodes) (n := i) _)).1, hj, hc₁, hc₂⟩
  · rintro ⟨a, n, j, c, hg, hj, hc₁, hc₂⟩
    obtain ⟨i, hi, hix⟩ := List.mem_iff_getElem.mp ((hnodes (a, n)).mpr ⟨hg, hall a n hg⟩)
    have hi' : i < claims.length := by rw [← hc'.length_eq]; exact hi
    have := hc'.get (i := i) hi hi'
    simp only [List.get_eq_getElem, hix] at this
    exact ⟨_, List.getElem_mem hi', (inputClaimsOfNode_spec this k cl).mpr ⟨j, hj, c, hc₁, hc₂⟩⟩

theorem consecutive_iff (l : List ℕ) :
    ((l.dedup.insertionSort (· ≤ ·)) ≠ [] ∧ (l.dedup.insertionSort (· ≤ ·)).head? = some 0 ∧ (l.dedup.insertionSort (· ≤ ·)).getLast? = some ((l.dedup.insertionSort (· ≤ ·)).length - 1))
      ↔ ∃ N, 0 < N ∧ ∀ k, k ∈ l ↔ k < N := by
  obtain ⟨idx, hidx⟩ : ∃ idx, idx = l.dedup.insertionSort (· ≤ ·) := ⟨_, rfl⟩
  rw [← hidx]
  have hperm : idx.Perm l.dedup := by rw [hidx]; exact List.perm_insertionSort _ _
  have hnd : idx.Nodup := hperm.nodup_iff.2 (List.nodup_dedup _)
  have hsorted : idx.Pairwise (· < ·) := by
    have h1 : idx.Pairwise (· ≤ ·) := by rw [hidx]; exact List.pairwise_insertionSort _ _
    exact (h1.and hnd).imp fun h => lt_of_le_of_ne h.1 h.2
  have hmem : ∀ k, k ∈ l ↔ k ∈ idx := fun k => by rw [hperm.mem_iff, List.mem_dedup]
  constructor
  · rintro ⟨hne, -, hlast⟩
    have := sorted_consecutive idx 0 hsorted (fun _ _ => Nat.zero_le _) (by rw [hlast]; simp)
    refine ⟨idx.length, List.length_pos_of_ne_nil hne, fun k => ?_⟩
    rw [hmem, this]
    simp
  · rintro ⟨N, hN, h⟩
    have : idx = List.range N := by
      apply List.Perm.eq_of_pairwise (le := (· < ·)) (fun a b _ _ h1 h2 => absurd (lt_trans h1 h2) (lt_irrefl _)) hsorted List.pairwise_lt_range
      exact (List.perm_ext_iff_of_nodup hnd List.nodup_range).2 fun k => by rw [← hmem, h, List.mem_range]
    rw [this]
    obtain ⟨M, rfl⟩ : ∃ M, N = M + 1 := ⟨N - 1, by omega⟩
    refine ⟨by simp, by simp [List.range_succ_eq_map], by simp [List.range_succ]⟩

theorem mapM_exists {α β : Type} (f : α → Option β) (l : List α) (h : ∀ e ∈ l, (f e).isSome) : ∃ o, l.mapM f = some o := by
  induction l with
  | nil => exact ⟨[], rfl⟩
  | cons e l ih =>
    obtain ⟨b, hb⟩ := Option.isSome_iff_exists.1 (h e (by simp))
    obtain ⟨o, ho⟩ := ih fun e he => h e (List.mem_cons_of_mem _ he)
    exact ⟨b :: o, by rw [List.mapM_cons, hb]; simp [ho]⟩

theorem bind_some_isSome {α β : Type} (x : Option α) (g : α → β) (h : ∃ o, x = some o) : (x.bind fun l => some (g l)).isSome := by
  obtain ⟨o, rfl⟩ := h
  rfl

theorem inputClaimsOfNode_isSome (cs : List (ℕ × List (Claim F))) (x : ℕ × Node L) :
    (inputClaimsOfNode cs x).isSome ↔ ∀ j k : ℕ, x.2.inputs[j]? = some ⟨none, k⟩ → ∃ c cl, mapGet x.1 cs = some c ∧ c[j]? = some cl := by
  constructor
  · intro h j k hj
    obtain ⟨l, hl⟩ := Option.isSome_iff_exists.1 h
    unfold inputClaimsOfNode at hl
    simp only [Option.bind_eq_bind, Option.bind_eq_some_iff, Option.some.injEq] at hl
    obtain ⟨o, ho, -⟩ := hl
    have hf := (mapM_forall₂ _ _ _).mp ho
    have hjl : j < x.2.inputs.zipIdx.length := by rw [List.length_zipIdx]; exact (List.getElem?_eq_some_iff.mp hj).1
    have := hf.get (i := j) hjl (by rw [← hf.length_eq]; exact hjl)
    simp only [List.get_eq_getElem, List.getElem_zipIdx, Nat.zero_add] at this
    rw [(List.getElem?_eq_some_iff.mp hj).2] at this
    simp only [Option.bind_eq_some_iff] at this
    obtain ⟨c, hc, cl, hcl, -⟩ := this
    exact ⟨c, cl, hc, hcl⟩
  · intro h
    unfold inputClaimsOfNode
    apply bind_some_isSome
    apply mapM_exists
    intro e he
    obtain ⟨j, hj⟩ := List.getElem?_of_mem he
    rw [List.getElem?_zipIdx, Option.map_eq_some_iff] at hj
    obtain ⟨⟨nd, k⟩, hed, rfl⟩ := hj
    cases nd with
    | some a => rfl
    | none =>
      obtain ⟨c, cl, hc, hcl⟩ := h j k hed
      simp [hc, hcl]

/-- C58: collecting the claims about the inputs of the model succeeds if and only if there is a claim for every input of a node that is an input of the model, and the inputs of the model
used by nodes are those numbered `0, …, N - 1`, for some `N > 0`. -/
theorem C58_input_indices (g : Graph L) (hk : (g.map (·.1)).Nodup) (cs : List (ℕ × List (Claim F))) (order : List ℕ) (hall : ∀ a n, (a, n) ∈ g → a ∈ order) (hsub : ∀ a ∈ order, ∃ n, (a, n) ∈ g) :
    (inputClaims g cs order).isSome ↔ (∀ (a : ℕ) (n : Node L) (j k : ℕ), (a, n) ∈ g → n.inputs[j]? = some ⟨none, k⟩ → ∃ c cl, mapGet a cs = some c ∧ c[j]? = some cl) ∧
      ∃ N, 0 < N ∧ ∀ k, (∃ (a : ℕ) (n : Node L), (a, n) ∈ g ∧ (⟨none, k⟩ : Edge) ∈ n.inputs) ↔ k < N := by
  obtain ⟨nodes, hn⟩ : ∃ nodes, order.mapM (fun id => (mapGet id g).map fun n => (id, n)) = some nodes := by
    clear hall
    induction order with
    | nil => exact ⟨[], rfl⟩
    | cons a l ih =>
      obtain ⟨n, hn⟩ := hsub a (by simp)
      obtain ⟨o, ho⟩ := ih fun a ha => hsub a (List.mem_cons_of_mem _ ha)
      refine ⟨(a, n) :: o, ?_⟩
      rw [List.mapM_cons, (mapGet_iff_mem g hk a n).mpr hn]
      simp [ho]
  have hn' := (mapM_forall₂ _ _ _).mp hn
  have hnodes : ∀ x, x ∈ nodes ↔ x ∈ g := by
    intro x
    constructor
    · intro hx
      obtain ⟨i, hi, hix⟩ := List.mem_iff_getElem.mp hx
      have := hn'.get (i := i) (by rw [hn'.length_eq]; exact hi) hi
      simp only [List.get_eq_getElem, hix, Option.map_eq_some_iff] at this
      obtain ⟨n, hgn, rfl⟩ := this
      exact (mapGet_iff_mem g hk _ _).mp hgn
    · intro hg
      obtain ⟨i, hi, hix⟩ := List.mem_iff_getElem.mp (hall x.1 x.2 hg)
      have := hn'.get (i := i) hi (by rw [← hn'.length_eq]; exact hi)
      simp only [List.get_eq_getElem, hix, (mapGet_iff_mem g hk x.1 x.2).mpr hg, Option.map_some, Option.some.injEq] at this
      rw [show x = nodes[i]'(by rw [← hn'.length_eq]; exact hi) from this]
      exact List.getElem_mem _
  have hkeys : ∀ claims, nodes.mapM (inputClaimsOfNode cs) = some claims → ∀ k, k ∈ claims.flatten.map (·.1) ↔ ∃ (a : ℕ) (n : Node L), (a, n) ∈ g ∧ (⟨none, k⟩ : Edge) ∈ n.inputs := by
    intro claims hc k
    have hc' := (mapM_forall₂ _ _ _).mp hc
    have hex : ∀ (x : ℕ × Node L) l, inputClaimsOfNode cs x = some l → (k ∈ l.map (·.1) ↔ (⟨none, k⟩ : Edge) ∈ x.2.inputs) := by
      intro x l h
      rw [inputClaimsOfNode_length h, List.mem_map]
      constructor
      · rintro ⟨e, he, rfl⟩
        rw [List.mem_filter] at he
        rcases e with ⟨_ | a, i⟩
        · exact he.1
        · simp at he
      · intro h
        exact ⟨_, List.mem_filter.2 ⟨h, rfl⟩, rfl⟩
    rw [List.map_flatten, List.mem_flatten]
    constructor
    · rintro ⟨ks, hks, hkk⟩
      obtain ⟨l, hl, rfl⟩ := List.mem_map.1 hks
      obtain ⟨i, hi, hix⟩ := List.mem_iff_getElem.mp hl
      have hi' : i < nodes.length := by rw [hc'.length_eq]; exact hi
      have := hc'.get (i := i) hi' hi
      simp only [List.get_eq_getElem, hix] at this
      exact ⟨nodes[i].1, nodes[i].2, (hnodes _).1 (List.getElem_mem hi'), (hex _ _ this).1 hkk⟩
    · rintro ⟨a, n, hg, hin⟩
      obtain ⟨i, hi, hix⟩ := List.mem_iff_getElem.mp ((hnodes (a, n)).2 hg)
      have hi' : i < claims.length := by rw [← hc'.length_eq]; exact hi
      have := hc'.get (i := i) hi hi'
      simp only [List.get_eq_getElem, hix] at this
      exact ⟨_, List.mem_map.2 ⟨_, List.getElem_mem hi', rfl⟩, (hex _ _ this).2 hin⟩
  unfold inputClaims
  rw [hn]
  simp only [Option.bind_eq_bind, Option.bind_some]
  constructor
  · intro h
    obtain ⟨l, hl⟩ := Option.isSome_iff_exists.1 h
    rw [Option.bind_eq_some_iff] at hl
    obtain ⟨claims, hc, hl⟩ := hl
    have hc' := (mapM_forall₂ _ _ _).mp hc
    split at hl
    case isFalse => cases hl
    case isTrue hcond =>
    obtain ⟨N, hN, hNk⟩ := (consecutive_iff _).1 hcond
    refine ⟨?_, N, hN, fun k => by rw [← hNk, hkeys claims hc]⟩
    intro a n j k hg hj
    obtain ⟨i, hi, hix⟩ := List.mem_iff_getElem.mp ((hnodes (a, n)).2 hg)
    have := hc'.get (i := i) hi (by rw [← hc'.length_eq]; exact hi)
    simp only [List.get_eq_getElem, hix] at this
    exact (inputClaimsOfNode_isSome cs (a, n)).1 (by rw [this]; rfl) j k hj
  · rintro ⟨hcl, N, hN, hNk⟩
    obtain ⟨claims, hc⟩ : ∃ claims, nodes.mapM (inputClaimsOfNode cs) = some claims := by
      apply mapM_exists
      exact fun x hx => (inputClaimsOfNode_isSome cs x).2 fun j k hj => hcl x.1 x.2 j k ((hnodes x).1 hx) hj
    rw [hc, Option.bind_some, if_pos]
    · rfl
    · exact (consecutive_iff _).2 ⟨N, hN, fun k => by rw [hkeys claims hc, hNk]⟩

/-- C58 fails for models in which an output is used twice, or not at all: then there is no proof, however the layers are proved. -/
theorem C58_fan_out_fails (layer : S → ℕ → Node L → List (Claim F) → Option (S × List (Claim F))) (g : Graph L) (hk : (g.map (·.1)).Nodup)
    (hac : ∀ x, ¬Relation.TransGen (GivesTo g) x x) (outC : List (Claim F)) (s : S) (a : ℕ) (n : Node L) (w : List Edge) (hn : (a, n) ∈ g) (hw : w ∈ n.outputs)
    (hlen : w.length ≠ 1) : backwardPass layer g outC s = none := by
  cases h : backwardPass layer g outC s with
  | none => rfl
  | some r =>
    obtain ⟨log, h₁, -, -, h₄⟩ := C58_claims_follow_edges layer g hk outC s r.1 r.2 h
    have ha := (C48_complete g hk).2.mpr hac a n hn
    rw [← h₁] at ha
    obtain ⟨c, hc, hca⟩ := List.mem_map.mp ha
    obtain ⟨done, rest, hlog⟩ := List.append_of_mem hc
    obtain ⟨n', hn', -, hl, hcl⟩ := h₄ done c rest hlog
    have hnn : n' = n := by
      have e₁ := (mapGet_iff_mem g hk _ _).mpr hn'
      rw [hca, (mapGet_iff_mem g hk _ _).mpr hn] at e₁
      exact (Option.some.inj e₁).symm
    subst hnn
    obtain ⟨i, hi⟩ := List.getElem?_of_mem hw
    have hil : i < c.outputs.length := by rw [hl]; exact (List.getElem?_eq_some_iff.mp hi).1
    rcases hcl i c.outputs[i] (List.getElem?_eq_getElem hil) with ⟨k, hk', -⟩ | ⟨b', j', hbj, -⟩
    · rw [hi] at hk'; cases hk'; simp at hlen
    · rw [hi] at hbj; cases hbj; simp at hlen

/-- Two nodes in a row; the layers add one to the claimed value and count the calls. -/
def rowGraph : Graph Unit := [(0, ⟨[⟨none, 0⟩], [[⟨some 1, 0⟩]], ()⟩), (1, ⟨[⟨some 0, 0⟩], [[⟨none, 0⟩]], ()⟩)]

example : (rowGraph.map (·.1)).Nodup ∧
    (backwardPass (fun (s : ℕ) _ _ cs => some (s + 1, cs.map fun c => ⟨c.point, c.eval + 1⟩)) rowGraph [(⟨[], 5⟩ : Claim ℕ)] 0).map (fun r => (r.1, r.2.map fun x => (x.1, x.2.map (·.eval)))) =
      some (2, [(1, [6]), (0, [7])]) := by decide

example : ((inputClaims rowGraph [(1, [(⟨[], 6⟩ : Claim ℕ)]), (0, [⟨[], 7⟩])] [0, 1]).map fun l => l.map fun x => (x.1, x.2.eval)) = some [(0, 7)] := by decide

example : (∀ x ∈ rowGraph, x.1 ∈ [0, 1]) ∧ (∀ a ∈ [0, 1], a ∈ rowGraph.map (·.1)) ∧ (inputClaims rowGraph [(1, [(⟨[], 6⟩ : Claim ℕ)]), (0, [⟨[], 7⟩])] [0, 1]).isSome := by decide

/-- Without a model input 0 no claims are collected. -/
example : inputClaims ([(0, ⟨[⟨none, 1⟩], [[⟨none, 0⟩]], ()⟩)] : Graph Unit) [(0, [(⟨[], 7⟩ : Claim ℕ)])] [0] = none := by decide

example : Spec.Symmetric toyBuilt ∧ (toyBuilt.map (·.1)).Nodup := C49_symmetric _ _ _ toyBuilt_built

/-! ### C68, C69 -/

/-- C68 for models in which no node has two outputs going outside: if the verifier does not fail, its claim about each public output is the value of that output at a point it
drew itself. Missing: nodes with several outputs going outside, for which it is false. -/
theorem C68_outputs_bound_partial (dflt : Claim F) (ch : S → ℕ → List F × S) (nv : V → ℕ) (ev : V → List F → F) (s : S) (outputs : List V) (nodes : Graph L)
    (hk : (nodes.map (·.1)).Nodup) (hone : ∀ x ∈ nodes, (x.2.outputs.filter fun w => w.any (·.node.isNone)).length ≤ 1)
    (bound : List (ℕ × List ℕ)) (hb : bindOutputs outputs.length nodes = some bound) (claims : List (Claim F)) (s' : S)
    (hv : verifierOutputClaims dflt ch nv ev s outputs bound = some (claims, s')) :
    claims.length = outputs.length ∧ ∀ (k : ℕ) (v : V), outputs[k]? = some v → ∃ s₀, claims[k]? = some ⟨(ch s₀ (nv v)).1, ev v (ch s₀ (nv v)).1⟩ := by
  unfold bindOutputs at hb
  simp only [Option.bind_eq_bind, Option.bind_eq_some_iff] at hb
  obtain ⟨st, hst, hb⟩ := hb
  by_cases hl : st.1.length = outputs.length
  · rw [if_pos hl, Option.some.injEq] at hb
    subst hb
    obtain ⟨h₁, h₂⟩ := bindNodes_spec _ nodes _ _ hst hk (by simp) hone (by simp) (by simp) (by simp)
    have hnd : (st.2.flatMap (·.2)).Nodup := h₂.nodup_iff.mp h₁
    unfold verifierOutputClaims at hv
    obtain ⟨b₁, b₂, -, b₄⟩ := verifierLoop_spec ch nv ev outputs (st.2.flatMap fun x : ℕ × List ℕ => x.2) (List.replicate outputs.length dflt, s) (claims, s') hnd hv (by simp)
    refine ⟨b₁, fun k v hk' => ?_⟩
    have hmem : k ∈ st.2.flatMap (·.2) := by
      have hsub : (st.2.flatMap (·.2)).Subperm (List.range outputs.length) := hnd.subperm fun x hx => List.mem_range.mpr (b₂ x hx)
      have hperm := hsub.perm_of_length_le (by rw [← h₂.length_eq, hl, List.length_range])
      exact hperm.mem_iff.mpr (List.mem_range.mpr (List.getElem?_eq_some_iff.mp hk').1)
    exact b₄ k hmem v hk'
  · rw [if_neg hl] at hb
    cases hb

/-- C68 fails for a node with two outputs going outside: the outputs are bound without error, but the verifier's claims, and the state of its transcript, do not depend on
output 0 at all: its claim is the default one. -/
theorem C68_output_unbound_false (dflt : Claim F) (ch : S → ℕ → List F × S) (nv : V → ℕ) (ev : V → List F → F) (s : S) (inputs : List Edge) (op : L) :
    ∃ bound, bindOutputs 2 [(0, (⟨inputs, [[⟨none, 0⟩], [⟨none, 1⟩]], op⟩ : Node L))] = some bound ∧
      ∀ v₀ v₁, verifierOutputClaims dflt ch nv ev s [v₀, v₁] bound = some ([dflt, ⟨(ch s (nv v₁)).1, ev v₁ (ch s (nv v₁)).1⟩], (ch s (nv v₁)).2) := by
  refine ⟨[(0, [1])], ?_, fun v₀ v₁ => ?_⟩
  · simp [bindOutputs, bindNodes, bindWire, mapSet, List.foldlM_cons]
  · simp [verifierOutputClaims, outputClaim]

/-- C69 when the verifier visits the outputs in the order of their indices: its claims and the state of its transcript are the prover's. Missing: other orders, for which it
is false. -/
theorem C69_same_challenges_partial (dflt : Claim F) (ch : S → ℕ → List F × S) (nv : V → ℕ) (ev : V → List F → F) (s : S) (outputs : List V) (bound : List (ℕ × List ℕ))
    (hb : bound.flatMap (·.2) = List.range outputs.length) :
    verifierOutputClaims dflt ch nv ev s outputs bound = some (proverOutputClaims ch nv ev s outputs) := by
  have := verifierLoop_range ch nv ev outputs dflt s outputs [] [] s rfl rfl
  unfold verifierOutputClaims proverOutputClaims
  rw [hb, List.range_eq_range']
  simpa using this

/-- C69: in particular for models with one output. -/
theorem C69_single_output (dflt : Claim F) (ch : S → ℕ → List F × S) (nv : V → ℕ) (ev : V → List F → F) (s : S) (v : V) (nodes : Graph L)
    (hk : (nodes.map (·.1)).Nodup) (hone : ∀ x ∈ nodes, (x.2.outputs.filter fun w => w.any (·.node.isNone)).length ≤ 1) (bound : List (ℕ × List ℕ))
    (hb : bindOutputs 1 nodes = some bound) (hidx : ∀ x ∈ bound, ∀ k ∈ x.2, k = 0) :
    verifierOutputClaims dflt ch nv ev s [v] bound = some (proverOutputClaims ch nv ev s [v]) := by
  apply C69_same_challenges_partial
  unfold bindOutputs at hb
  simp only [Option.bind_eq_bind, Option.bind_eq_some_iff] at hb
  obtain ⟨st, hst, hb⟩ := hb
  by_cases hl : st.1.length = 1
  · rw [if_pos hl, Option.some.injEq] at hb
    subst hb
    obtain ⟨-, h₂⟩ := bindNodes_spec _ nodes _ _ hst hk (by simp) hone (by simp) (by simp) (by simp)
    have hlen : (st.2.flatMap (·.2)).length = 1 := by rw [← h₂.length_eq, hl]
    obtain ⟨k, hk'⟩ := List.length_eq_one_iff.mp hlen
    rw [hk']
    have : k ∈ st.2.flatMap (·.2) := by rw [hk']; simp
    obtain ⟨x, hx, hxk⟩ := List.mem_flatMap.mp this
    rw [hidx x hx k hxk]
    rfl
  · rw [if_neg hl] at hb
    cases hb

/-- Two nodes, each with one output of the model. -/
def twoOutputs : Graph Unit := [(0, ⟨[⟨none, 0⟩], [[⟨none, 0⟩]], ()⟩), (1, ⟨[⟨none, 1⟩], [[⟨none, 1⟩]], ()⟩)]

example : (twoOutputs.map (·.1)).Nodup ∧ (∀ x ∈ twoOutputs, (x.2.outputs.filter fun w => w.any (·.node.isNone)).length ≤ 1) ∧
    bindOutputs 2 twoOutputs = some [(0, [0]), (1, [1])] := by decide

/-- C69 fails when a model has two output nodes: the map from nodes to outputs is a hash map, both its orders are possible, and in one of them prover and verifier draw
different challenges for the same outputs. Challenges are numbers drawn in increasing order here; the value of an output at a point is immaterial. -/
theorem C69_order_false :
    let draw : ℕ → ℕ → List ℕ × ℕ := fun s n => ((List.range n).map (s + ·), s + n)
    ∃ bound bound' : List (ℕ × List ℕ), bindOutputs 2 twoOutputs = some bound ∧ bound.Perm bound' ∧
      (verifierOutputClaims ⟨[], 0⟩ draw (fun _ : ℕ => 1) (fun v _ => v) 0 [7, 8] bound).map (fun r => r.1.map (·.point)) = some [[0], [1]] ∧
      (proverOutputClaims draw (fun _ : ℕ => 1) (fun v _ => v) 0 [7, 8]).1.map (·.point) = [[0], [1]] ∧
      (verifierOutputClaims ⟨[], 0⟩ draw (fun _ : ℕ => 1) (fun v _ => v) 0 [7, 8] bound').map (fun r => r.1.map (·.point)) = some [[1], [0]] :=
  ⟨[(0, [0]), (1, [1])], [(1, [1]), (0, [0])], by decide, List.Perm.swap _ _ _, by decide, by decide, by decide⟩

end Props
