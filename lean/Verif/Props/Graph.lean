import Verif.Lemmas.Graph

/-!
C48: the order of iteration; C49: building a model.
-/

namespace Props

open Model Spec Lemmas

variable {L : Type}

/-- A diamond: node 5 feeds 2 and 9, which both feed 0. -/
def toyGraph : Graph Unit :=
  [(0, ⟨[⟨some 2, 0⟩, ⟨some 9, 0⟩], [[⟨none, 0⟩]], ()⟩), (9, ⟨[⟨some 5, 0⟩], [[⟨some 0, 1⟩]], ()⟩), (5, ⟨[⟨none, 0⟩], [[⟨some 2, 0⟩, ⟨some 9, 0⟩]], ()⟩),
    (2, ⟨[⟨some 5, 0⟩], [[⟨some 0, 0⟩]], ()⟩)]

/-- C48, forward: each node is yielded at most once and after every node it takes an input from; the nodes yielded are exactly those from which no cycle can be
reached going back along inputs. -/
theorem C48_forward (g : Graph L) (h : (g.map (·.1)).Nodup) :
    Respects g (TakesFrom g) (forwardOrder g) ∧ ∀ x, x ∈ forwardOrder g ↔ (∃ n, (x, n) ∈ g) ∧ ¬ReachesCycle (TakesFrom g) x :=
  order_spec g h _ _ (takesFrom_iff g h)

/-- C48, backward: each node is yielded at most once and after every node that one of its outputs is recorded to go to; the nodes yielded are exactly those from
which no cycle can be reached along outputs. -/
theorem C48_backward (g : Graph L) (h : (g.map (·.1)).Nodup) :
    Respects g (GivesTo g) (backwardOrder g) ∧ ∀ x, x ∈ backwardOrder g ↔ (∃ n, (x, n) ∈ g) ∧ ¬ReachesCycle (GivesTo g) x :=
  order_spec g h _ _ (givesTo_iff g h)

/-- C48: all the nodes are yielded exactly when the graph has no cycle. -/
theorem C48_complete (g : Graph L) (h : (g.map (·.1)).Nodup) :
    ((∀ x n, (x, n) ∈ g → x ∈ forwardOrder g) ↔ ∀ x, ¬Relation.TransGen (TakesFrom g) x x) ∧
    ((∀ x n, (x, n) ∈ g → x ∈ backwardOrder g) ↔ ∀ x, ¬Relation.TransGen (GivesTo g) x x) := by
  have key : ∀ (r : ℕ → ℕ → Prop) (order : List ℕ), (∀ x y, r x y → ∃ n, (x, n) ∈ g) →
      (∀ x, x ∈ order ↔ (∃ n, (x, n) ∈ g) ∧ ¬ReachesCycle r x) →
      ((∀ x n, (x, n) ∈ g → x ∈ order) ↔ ∀ x, ¬Relation.TransGen r x x) := by
    intro r order hr ho
    constructor
    · intro hall x hx
      obtain ⟨n, hn⟩ : ∃ n, (x, n) ∈ g := by
        obtain ⟨y, hxy, -⟩ := Relation.TransGen.head'_iff.mp hx
        exact hr x y hxy
      exact ((ho x).mp (hall x n hn)).2 ⟨x, Relation.ReflTransGen.refl, hx⟩
    · intro hno x n hn
      exact (ho x).mpr ⟨⟨n, hn⟩, fun ⟨y, _, hyy⟩ => hno y hyy⟩
  refine ⟨key _ _ ?_ (C48_forward g h).2, key _ _ ?_ (C48_backward g h).2⟩
  · rintro x y ⟨⟨n, hn, -⟩, -⟩; exact ⟨n, hn⟩
  · rintro x y ⟨⟨n, hn, -⟩, -⟩; exact ⟨n, hn⟩

/-- C48: the order does not depend on the order of the hash map the nodes are stored in. -/
theorem C48_deterministic (g g' : Graph L) (h : (g.map (·.1)).Nodup) (hp : g.Perm g') :
    forwardOrder g = forwardOrder g' ∧ backwardOrder g = backwardOrder g' := by
  have h' : (g'.map (·.1)).Nodup := (hp.map _).nodup_iff.mp h
  have hg : ∀ x, mapGet x g = mapGet x g' := fun x => by
    apply Option.ext
    intro n
    rw [mapGet_iff_mem g h, mapGet_iff_mem g' h', hp.mem_iff]
  have hs : sortedIds g = sortedIds g' :=
    List.Perm.eq_of_pairwise (fun a b _ _ h₁ h₂ => Nat.le_antisymm h₁ h₂) (List.pairwise_insertionSort _ _) (List.pairwise_insertionSort _ _)
      ((List.perm_insertionSort _ _).trans ((hp.map _).trans (List.perm_insertionSort _ _).symm))
  have hf : forwardDeps g = forwardDeps g' := funext fun x => by simp only [forwardDeps, hg]
  have hb : backwardDeps g = backwardDeps g' := funext fun x => by simp only [backwardDeps, hg]
  simp only [forwardOrder, backwardOrder, hs, hf, hb, hp.length_eq, and_self]

/-- C48: the iterators that take ownership yield the same nodes in the same order, and never miss one. -/
theorem C48_owned (g : Graph L) (h : (g.map (·.1)).Nodup) :
    (∃ out, intoForward g = some out ∧ out.map (·.1) = forwardOrder g ∧ ∀ x ∈ out, x ∈ g) ∧
    (∃ out, intoBackward g = some out ∧ out.map (·.1) = backwardOrder g ∧ ∀ x ∈ out, x ∈ g) :=
  ⟨popNodes_spec _ g (C48_forward g h).1.once h (C48_forward g h).1.nodes, popNodes_spec _ g (C48_backward g h).1.once h (C48_backward g h).1.nodes⟩

example : (toyGraph.map (·.1)).Nodup ∧ forwardOrder toyGraph = [5, 2, 9, 0] ∧ backwardOrder toyGraph = [0, 2, 9, 5] := by decide

/-- Nodes on a cycle and everything behind them are skipped silently. -/
example : forwardOrder [(0, ⟨[⟨some 1, 0⟩], [], ()⟩), (1, ⟨[⟨some 0, 0⟩], [], ()⟩), (2, ⟨[⟨some 1, 0⟩], [], ()⟩), (3, ⟨[], [], ()⟩)] = [3] := by decide

/-- C49: in every model built by successful calls, every connection is recorded at both its ends exactly once, and ids are distinct. -/
theorem C49_symmetric (numOutputs : L → ℕ → ℕ) (numInputs : ℕ) (g : Graph L) (h : Built numOutputs numInputs g) :
    Symmetric g ∧ (g.map (·.1)).Nodup :=
  ⟨(built_good h).symmetric, (built_good h).keys⟩

/-- C49: the id given to a new node exists and is not in use. -/
theorem C49_fresh_id (g : Graph L) : ∃ id, freshId g = some id ∧ ∀ n, (id, n) ∉ g := by
  obtain ⟨id, h₁, h₂⟩ := freshId_spec g
  refine ⟨id, h₁, fun n hn => ?_⟩
  exact (mapGet_none_iff id g).mp h₂ (List.mem_map.mpr ⟨(id, n), hn, rfl⟩)

/-- C48 and C49: a model built by successful calls has no cycle, so both iterations yield all its nodes. -/
theorem C49_built_complete (numOutputs : L → ℕ → ℕ) (numInputs : ℕ) (g : Graph L) (h : Built numOutputs numInputs g) (x : ℕ) (n : Node L)
    (hx : (x, n) ∈ g) : x ∈ forwardOrder g ∧ x ∈ backwardOrder g := by
  have hg := built_good h
  have hs := hg.symmetric
  have hno : ∀ y, ¬Relation.TransGen (TakesFrom g) y y := fun y hy => by
    obtain ⟨z, ⟨⟨m, hm, -⟩, -⟩, -⟩ := Relation.TransGen.head'_iff.mp hy
    exact good_no_cycle hg y ⟨m, hm⟩ ⟨y, Relation.ReflTransGen.refl, hy⟩
  refine ⟨((C48_forward g hg.keys).2 x).mpr ⟨⟨n, hx⟩, good_no_cycle hg x ⟨n, hx⟩⟩, ?_⟩
  refine (C48_complete g hg.keys).2.mpr (fun y hy => ?_) x n hx
  refine hno y ?_
  rw [← Relation.transGen_swap]
  refine Relation.TransGen.mono (fun a b hab => ?_) y y hy
  obtain ⟨⟨na, hna, wire, hw, e, he, heb⟩, m, hm⟩ := hab
  obtain ⟨i, hi⟩ := List.getElem?_of_mem hw
  obtain ⟨node, j⟩ := e
  simp only at heb
  subst heb
  have hc := hs.out a na i wire hna hi b j
  have hpos : 0 < wire.count ⟨some b, j⟩ := List.count_pos_iff.mpr he
  by_cases hin : ∃ m' : Node L, (b, m') ∈ g ∧ m'.inputs[j]? = some ⟨some a, i⟩
  · obtain ⟨m', hm', hj⟩ := hin
    exact ⟨⟨m', hm', _, List.mem_of_getElem? hj, rfl⟩, ⟨na, hna⟩⟩
  · rw [hc.2 hin] at hpos
    omega

/-- Two nodes in a row and a third taking both, whose output is the output of the model. -/
def toyBuilt : Graph Unit :=
  [(0, ⟨[⟨none, 0⟩], [[⟨some 1, 0⟩, ⟨some 2, 1⟩]], ()⟩), (1, ⟨[⟨some 0, 0⟩], [[⟨some 2, 0⟩]], ()⟩),
    (2, ⟨[⟨some 1, 0⟩, ⟨some 0, 0⟩], [[⟨none, 0⟩]], ()⟩)]

theorem toyBuilt_built : Built (fun _ _ => 1) 1 toyBuilt := by
  have h₁ : Built (fun _ _ => 1) 1 (addConsecutive (fun _ _ => 1) 1 ([] : Graph Unit) () none).1 :=
    .consecutive .empty (prev := none) (op := ()) (id := 0) rfl
  have h₂ := Built.consecutive h₁ (prev := some 0) (op := ()) (id := 1)
    (g' := (addConsecutive (fun _ _ => 1) 1 (addConsecutive (fun _ _ => 1) 1 ([] : Graph Unit) () none).1 () (some 0)).1) (by decide)
  have h₃ := Built.node h₂ (inputs := [⟨some 1, 0⟩, ⟨some 0, 0⟩]) (op := ()) (id := 2)
    (g' := [(0, ⟨[⟨none, 0⟩], [[⟨some 1, 0⟩, ⟨some 2, 1⟩]], ()⟩), (1, ⟨[⟨some 0, 0⟩], [[⟨some 2, 0⟩]], ()⟩),
      (2, ⟨[⟨some 1, 0⟩, ⟨some 0, 0⟩], [[]], ()⟩)]) (by decide)
  exact Built.route h₃ (edges := none) (by decide)

/-- What a failed insertion does leave unchanged: the nodes, their inputs and their operations. -/
theorem C49_failed_insertion_partial (g g' : Graph L) (node : Node L) (hfail : addNode g node = (g', none)) :
    g'.map (·.1) = g.map (·.1) ∧ ∀ a n, mapGet a g = some n → ∃ n', mapGet a g' = some n' ∧ n'.inputs = n.inputs ∧ n'.op = n.op := by
  have key : ∀ (id : ℕ) (es : List Edge) (k : ℕ) (g g' : Graph L), addEdges id k es g = (g', false) → SameShape g g' := by
    intro id es
    induction es with
    | nil => intro k g g' h; simp [addEdges] at h
    | cons e es ih =>
      intro k g g' h
      simp only [addEdges] at h
      cases he : e.node with
      | none => rw [he] at h; exact ih _ _ _ h
      | some a =>
        rw [he] at h
        simp only at h
        cases hp : pushEdge g a e.index ⟨some id, k⟩ with
        | none => rw [hp] at h; simp at h; rw [h]; exact SameShape.refl _
        | some g₁ => rw [hp] at h; exact (pushEdge_spec hp).2.1.trans (ih _ _ _ h)
  unfold addNode at hfail
  obtain ⟨id, h₁, -⟩ := freshId_spec g
  rw [h₁] at hfail
  obtain ⟨⟨g₁, ok⟩, hr⟩ : ∃ r, r = addEdges id 0 node.inputs g := ⟨_, rfl⟩
  have hw : addNodeWithId g id node = if ok then (mapSet id node g₁, true) else (g₁, ok) := by
    unfold addNodeWithId
    rw [← hr]
  simp only [hw] at hfail
  cases ok with
  | true => simp at hfail
  | false =>
    simp at hfail
    subst hfail
    have s := key id _ _ _ _ hr.symm
    refine ⟨s.keys, fun a n hn => ?_⟩
    obtain ⟨n', q₁, q₂, q₃, -⟩ := s.node a n hn
    exact ⟨n', q₁, q₂, q₃⟩

/-- C49 is false for failed insertions: adding a node whose first input exists and whose second does not fails, but leaves the output of the first input's node
connected to a node that is not in the model. -/
theorem C49_failed_insertion_false (g : Graph L) (hk : (g.map (·.1)).Nodup) (hs : Symmetric g) (a i c : ℕ) (n : Node L) (ha : (a, n) ∈ g)
    (hi : i < n.outputs.length) (hc : ∀ m, (c, m) ∉ g) (outputs : List (List Edge)) (op : L) :
    ∃ g', addNode g ⟨[⟨some a, i⟩, ⟨some c, 0⟩], outputs, op⟩ = (g', none) ∧ g' ≠ g ∧ ¬Symmetric g' := by
  obtain ⟨id, h₁, h₂⟩ := freshId_spec g
  have hget := (mapGet_iff_mem g hk a n).mpr ha
  have hpush : ∃ g', pushEdge g a i ⟨some id, 0⟩ = some g' := by
    simp [pushEdge, hget, hi]
  obtain ⟨g', hg'⟩ := hpush
  obtain ⟨-, s, hcount⟩ := pushEdge_spec hg'
  have hcn : mapGet c g' = none := by
    rw [s.none, mapGet_none_iff]
    intro hm
    obtain ⟨x, hx, rfl⟩ := List.mem_map.mp hm
    exact hc x.2 hx
  obtain ⟨n', hn', -, -, hlen⟩ := s.node a n hget
  have hk' : (g'.map (·.1)).Nodup := s.keys ▸ hk
  have hid : ∀ m, (id, m) ∉ g := fun m hm => (mapGet_none_iff id g).mp h₂ (List.mem_map.mpr ⟨(id, m), hm, rfl⟩)
  have hid' : ∀ m, (id, m) ∉ g' := fun m hm => by
    have := (mapGet_iff_mem g' hk' id m).mpr hm
    rw [(s.none id).mpr h₂] at this
    cases this
  have hcnt : (n'.outputs[i]'(by omega)).count ⟨some id, 0⟩ = 1 := by
    have h := hcount a i ⟨some id, 0⟩
    have h0 : (n.outputs[i]).count ⟨some id, 0⟩ = 0 :=
      (hs.out a n i _ ha (List.getElem?_eq_getElem hi) id 0).2 (fun ⟨m, hm, _⟩ => hid m hm)
    unfold wireCount at h
    rw [hn', hget] at h
    simpa [List.getElem?_eq_getElem hi, List.getElem?_eq_getElem (show i < n'.outputs.length by omega), h0] using h
  have hns : ¬Symmetric g' := fun hsym => by
    have := (hsym.out a n' i _ ((mapGet_iff_mem g' hk' a n').mp hn') (List.getElem?_eq_getElem (by omega)) id 0).2 (fun ⟨m, hm, _⟩ => hid' m hm)
    omega
  refine ⟨g', ?_, fun e => hns (e ▸ hs), hns⟩
  have h3 : pushEdge g' c 0 ⟨some id, 1⟩ = none := by simp [pushEdge, hcn]
  simp [addNode, h₁, addNodeWithId, addEdges, hg', h3]

/-- C49 is false when an id in use is given to `add_node_with_id`: the call succeeds, replaces the node, and the producer of its old input still lists it. -/
theorem C49_id_reused_false (g : Graph L) (hk : (g.map (·.1)).Nodup) (hs : Symmetric g) (a i b : ℕ) (n m : Node L) (ha : (a, n) ∈ g) (hb : (b, m) ∈ g)
    (hab : a ≠ b) (hm : m.inputs[0]? = some ⟨some a, i⟩) (outputs : List (List Edge)) (op : L) :
    ∃ g', addNodeWithId g b ⟨[], outputs, op⟩ = (g', true) ∧ ¬Symmetric g' := by
  refine ⟨mapSet b ⟨[], outputs, op⟩ g, by simp [addNodeWithId, addEdges], fun hsym => ?_⟩
  have hget := (mapGet_iff_mem g hk a n).mpr ha
  have hbget := (mapGet_iff_mem g hk b m).mpr hb
  have hkeys := mapSet_keys_of_mem b (⟨[], outputs, op⟩ : Node L) g (by rw [hbget]; rfl)
  have hk' : ((mapSet b (⟨[], outputs, op⟩ : Node L) g).map (·.1)).Nodup := hkeys ▸ hk
  obtain ⟨n₁, wire, hn₁, hw⟩ := hs.inp b m 0 a i hb hm
  have : n₁ = n := by
    have := (mapGet_iff_mem g hk a n₁).mpr hn₁
    rw [hget] at this
    cases this
    rfl
  subst this
  have h1 := (hs.out a n₁ i wire ha hw b 0).1 ⟨m, hb, hm⟩
  have ha' : (a, n₁) ∈ mapSet b (⟨[], outputs, op⟩ : Node L) g :=
    (mapGet_iff_mem _ hk' a n₁).mp (by rw [mapGet_mapSet, if_neg hab, hget])
  have h0 := (hsym.out a n₁ i wire ha' hw b 0).2 (by
    rintro ⟨m', hm', hj⟩
    have := (mapGet_iff_mem _ hk' b m').mpr hm'
    rw [mapGet_mapSet, if_pos rfl] at this
    cases this
    simp at hj)
  omega

example : (toyBuilt.map (·.1)).Nodup ∧ ∃ n m, (0, n) ∈ toyBuilt ∧ 0 < n.outputs.length ∧ (1, m) ∈ toyBuilt ∧ m.inputs[0]? = some ⟨some 0, 0⟩ :=
  ⟨by decide, ⟨[⟨none, 0⟩], [[⟨some 1, 0⟩, ⟨some 2, 1⟩]], ()⟩,
    ⟨[⟨some 0, 0⟩], [[⟨some 2, 0⟩]], ()⟩, by decide, by decide, by decide, rfl⟩

end Props
