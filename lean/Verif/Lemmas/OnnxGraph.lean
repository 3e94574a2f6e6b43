import Verif.Lemmas.OnnxLoad
import Verif.Lemmas.GraphClaims
import Verif.Lemmas.GraphRun

namespace Lemmas

open Model Spec

variable {R : Type} [CommRing R] [LinearOrder R]

section

variable {m : OnnxGraph R} {x : Tensor R} {val : ℕ → Tensor R}

/-- A node of the loaded model gives the value of the node of the graph with its id. -/
def NodeOk (x : Tensor R) (val : ℕ → Tensor R) (a : ℕ) (n : Node (OnnxLayer R)) : Prop :=
  n.outputs.length = 1 ∧ ∃ e v, n.inputs = [e] ∧ ((e = ⟨none, 0⟩ ∧ v = x) ∨ ∃ k, e.node = some k ∧ v = val k) ∧
    ∀ t' outs, SameButBatch v t' → n.op.eval [t'] = some outs → ∃ y, outs = [y] ∧ SameButBatch (val a) y

theorem parseNode_ok {keys : List (List Char × OnnxLoader)} {id : ℕ} {rest : List ℕ} {l : OnnxLoaded R} {first : Bool} (hkeys : ∀ k ∈ keys, k ∈ onnxKeys)
    (hv : OnnxValues m x val) (hg : ∀ n, m.nodes[id]? = some n → TakenForGranted m n) (h : parseNode keys m id rest first = some l) :
    ∃ n l₀, m.nodes[id]? = some n ∧ LoadedOk m val n l₀ ∧ l = if first then { l₀ with inputs := l₀.inputs.map fun e => ⟨none, e.index⟩ } else l₀ := by
  unfold parseNode at h
  simp only [Option.bind_eq_bind, Option.bind_eq_some_iff] at h
  obtain ⟨n, hn, k, hk, l₀, hl, h⟩ := h
  refine ⟨n, l₀, hn, ?_, (Option.some.inj h).symm⟩
  have hkm := hkeys k (List.mem_of_find?_eq_some hk)
  have hkn : k.1 <:+: n.name := by simpa using List.find?_some hk
  have hgn := hg n hn
  obtain ⟨kn, kl⟩ := k
  cases kl with
  | conv => exact loadConv_ok hn hv hgn hl
  | gemm => exact loadGemm_ok hn hv hgn hl
  | relu =>
    have : kn = ['R', 'e', 'l', 'u'] := by simpa [onnxKeys] using hkm
    exact loadRelu_ok hn hv hgn (this ▸ hkn) hl
  | flatten =>
    have : kn = ['F', 'l', 'a', 't', 't', 'e', 'n'] := by simpa [onnxKeys] using hkm
    exact loadFlatten_ok hn hv hgn (this ▸ hkn) hl
  | pool => exact loadMaxPool_ok hn hv hgn hl
  | reshape => exact loadReshape_ok hn hv hgn hl

theorem loaded_node_ok {n : OnnxNode R} {l : OnnxLoaded R} (h : LoadedOk m val n l) : NodeOk x val l.id (Node.new OnnxLayer.numOutputs l.inputs l.layer) := by
  obtain ⟨k, s, h1, -, -, h4, h5⟩ := h
  refine ⟨?_, ⟨some k, s⟩, val k, h1, Or.inr ⟨k, rfl, rfl⟩, h5⟩
  unfold Node.new
  simp only [h1, List.length_cons, List.length_nil, Nat.zero_add, List.length_replicate, h4]

theorem loaded_first_ok {src first : ℕ} {ids : List ℕ} {n sn : OnnxNode R} {shape : List ℕ} {l : OnnxLoaded R} (ho : m.order = src :: first :: ids)
    (hv : OnnxValues m x val) (hs : StartsAtSource m) (hsn : m.nodes[src]? = some sn) (hop : sn.op = .source shape) (hn : m.nodes[first]? = some n)
    (h : LoadedOk m val n l) : NodeOk x val l.id (Node.new OnnxLayer.numOutputs (l.inputs.map fun e => ⟨none, e.index⟩) l.layer) := by
  obtain ⟨k, s, h1, h2, h3, h4, h5⟩ := h
  obtain ⟨n', hn', hmem, -⟩ := hs src first ids ho
  rw [hn] at hn'
  obtain rfl := Option.some.inj hn'
  have hks : (src, 0) = (k, s) := by
    by_contra hne
    have := h3 _ hmem hne
    unfold OnnxGraph.isConst OnnxNode.isConst at this
    rw [hsn] at this
    simp [hop] at this
  have hk : k = src := by simp at hks; exact hks.1.symm
  have hs0 : s = 0 := by simp at hks; exact hks.2.symm
  refine ⟨?_, ⟨none, 0⟩, x, ?_, Or.inl ⟨rfl, rfl⟩, ?_⟩
  · unfold Node.new
    simp only [h1, List.map_cons, List.map_nil, List.length_cons, List.length_nil, Nat.zero_add, List.length_replicate, h4]
  · unfold Node.new
    simp [h1, hs0]
  · have hx := hv.source src _ ho
    rw [← hx, ← hk]
    exact h5

/-! ### Adding edges -/

variable {L : Type}

theorem mem_of_mapGet_graph {β : Type} : ∀ {g : List (ℕ × β)} {a : ℕ} {n : β}, mapGet a g = some n → (a, n) ∈ g := by
  intro g a n h
  rw [mapGet_eq_lookup] at h
  exact lookup_some_mem h

theorem pushEdge_mem {g g' : Graph L} {a i : ℕ} {e : Edge} (h : pushEdge g a i e = some g') : ∀ b n, (b, n) ∈ g' → (b, n) ∈ g ∨
    ∃ n₀, (a, n₀) ∈ g ∧ b = a ∧ n = { n₀ with outputs := n₀.outputs.modify i (· ++ [e]) } := by
  unfold pushEdge at h
  simp only [Option.bind_eq_bind, Option.bind_eq_some_iff] at h
  obtain ⟨n₀, hn₀, h⟩ := h
  split at h
  · obtain rfl := Option.some.inj h
    intro b n hb
    rcases mem_mapSet_cases _ _ _ _ hb with hb | hb
    · exact Or.inl hb
    · simp only [Prod.mk.injEq] at hb
      exact Or.inr ⟨n₀, mem_of_mapGet_graph hn₀, hb.1, hb.2⟩
  · cases h

/-- A loaded graph: every node is right, and wires lead to nodes only. -/
def GraphOk (x : Tensor R) (val : ℕ → Tensor R) (g : Graph (OnnxLayer R)) : Prop :=
  ∀ a n, (a, n) ∈ g → NodeOk x val a n ∧ ∀ w ∈ n.outputs, ∀ e ∈ w, e.node ≠ none

theorem mem_modify_append {w : List Edge} {ws : List (List Edge)} {i : ℕ} {e : Edge} (h : w ∈ ws.modify i (· ++ [e])) : w ∈ ws ∨ ∃ w₀ ∈ ws, w = w₀ ++ [e] := by
  obtain ⟨j, hj⟩ := List.getElem?_of_mem h
  rw [List.getElem?_modify] at hj
  cases hw : ws[j]? with
  | none => simp [hw] at hj
  | some w₀ =>
    rw [hw] at hj
    have hm := List.mem_of_getElem? hw
    by_cases hij : i = j
    · simp only [hij, if_true, Option.map_eq_map, Option.map_some, Option.some.injEq] at hj
      exact Or.inr ⟨w₀, hm, hj.symm⟩
    · simp only [hij, if_false, Option.map_eq_map, Option.map_some, Option.some.injEq, id] at hj
      exact Or.inl (hj ▸ hm)

theorem nodeOk_outputs {a : ℕ} {n : Node (OnnxLayer R)} (h : NodeOk x val a n) (i : ℕ) (e : Edge) :
    NodeOk x val a { n with outputs := n.outputs.modify i (· ++ [e]) } := by
  obtain ⟨h1, h2⟩ := h
  exact ⟨by simpa using h1, h2⟩

theorem pushEdge_ok {g g' : Graph (OnnxLayer R)} {a i b j : ℕ} (hg : GraphOk x val g) (h : pushEdge g a i ⟨some b, j⟩ = some g') : GraphOk x val g' := by
  intro c n hc
  rcases pushEdge_mem h c n hc with hc | ⟨n₀, h0, rfl, rfl⟩
  · exact hg c n hc
  · obtain ⟨k1, k2⟩ := hg _ _ h0
    refine ⟨nodeOk_outputs k1 _ _, ?_⟩
    intro w hw e he
    rcases mem_modify_append hw with hw | ⟨w₀, hw0, rfl⟩
    · exact k2 w hw e he
    · rcases List.mem_append.1 he with he | he
      · exact k2 w₀ hw0 e he
      · simp only [List.mem_singleton] at he
        rw [he]
        exact nofun

theorem addEdges_ok (id : ℕ) : ∀ (es : List Edge) (i : ℕ) (g : Graph (OnnxLayer R)), GraphOk x val g → GraphOk x val (addEdges id i es g).1
  | [], _, _, h => h
  | e :: es, i, g, h => by
    unfold addEdges
    split
    · exact addEdges_ok id es _ _ h
    · split
      · exact h
      · rename_i hp
        exact addEdges_ok id es _ _ (pushEdge_ok h hp)

theorem addNodeWithId_ok {g : Graph (OnnxLayer R)} {id : ℕ} {n : Node (OnnxLayer R)} (hg : GraphOk x val g) (hn : NodeOk x val id n)
    (hw : ∀ w ∈ n.outputs, ∀ e ∈ w, e.node ≠ none) : GraphOk x val (addNodeWithId g id n).1 := by
  unfold addNodeWithId
  simp only
  have h1 := addEdges_ok (x := x) (val := val) id n.inputs 0 g hg
  split
  · intro a n' ha
    rcases mem_mapSet_cases _ _ _ _ ha with ha | ha
    · exact h1 a n' ha
    · simp only [Prod.mk.injEq] at ha
      obtain ⟨rfl, rfl⟩ := ha
      exact ⟨hn, hw⟩
  · exact h1

theorem new_wires {inputs : List Edge} {op : OnnxLayer R} : ∀ w ∈ (Node.new OnnxLayer.numOutputs inputs op).outputs, ∀ e ∈ w, e.node ≠ none := by
  intro w hw e he
  unfold Node.new at hw
  simp only [List.mem_replicate] at hw
  rw [hw.2] at he
  cases he

theorem parse_rest {keys : List (List Char × OnnxLoader)} {id : ℕ} {rest : List ℕ} {l : OnnxLoaded R} {first : Bool} (h : parseNode keys m id rest first = some l) :
    ∀ i ∈ l.rest, i ∈ rest := by
  unfold parseNode at h
  simp only [Option.bind_eq_bind, Option.bind_eq_some_iff] at h
  obtain ⟨n, -, k, -, l₀, hl, h⟩ := h
  have hr : l.rest = l₀.rest := by
    rw [← Option.some.inj h]; split <;> rfl
  rw [hr]
  obtain ⟨kn, kl⟩ := k
  cases kl with
  | conv =>
    change loadConv m id n rest = some l₀ at hl
    unfold loadConv at hl
    split at hl
    · split at hl
      · simp only [Option.bind_eq_bind, Option.bind_eq_some_iff] at hl
        obtain ⟨_, _, _, _, _, _, _, _, _, _, hl⟩ := hl
        rw [← Option.some.inj hl]; exact fun i hi => hi
      · cases hl
    · cases hl
  | gemm =>
    change loadGemm m id n rest = some l₀ at hl
    unfold loadGemm at hl
    split at hl
    · simp only [Option.bind_eq_bind, Option.bind_eq_some_iff] at hl
      obtain ⟨_, _, _, _, _, _, _, _, _, _, _, _, _, _, _, _, r, hr, _, _, _, _, _, _, hl⟩ := hl
      rw [← Option.some.inj hl]
      intro i hi
      unfold gemmBias at hr
      split at hr
      · rw [← Option.some.inj hr] at hi; exact hi
      · simp only [Option.bind_eq_bind, Option.bind_eq_some_iff] at hr
        obtain ⟨_, _, hr⟩ := hr
        split at hr
        · split at hr
          · rw [← Option.some.inj hr] at hi; exact List.mem_cons_of_mem _ hi
          · split at hr
            · rw [← Option.some.inj hr] at hi; exact List.mem_cons_of_mem _ hi
            · rw [← Option.some.inj hr] at hi; exact hi
        · rw [← Option.some.inj hr] at hi; exact hi
    · cases hl
  | relu =>
    change loadRelu m id n rest = some l₀ at hl
    unfold loadRelu at hl
    split at hl
    · simp only [Option.bind_eq_bind, Option.bind_eq_some_iff] at hl
      obtain ⟨_, _, hl⟩ := hl
      split at hl
      · rw [← Option.some.inj hl]; exact fun i hi => hi
      · simp only [Option.bind_eq_some_iff] at hl
        obtain ⟨_, _, hl⟩ := hl
        split at hl
        · rw [← Option.some.inj hl]; exact fun i hi => hi
        · cases hl
    · cases hl
  | flatten =>
    change loadFlatten id n rest = some l₀ at hl
    unfold loadFlatten at hl
    split at hl
    · rw [← Option.some.inj hl]; exact fun i hi => hi
    · cases hl
  | pool =>
    change loadMaxPool id n rest = some l₀ at hl
    unfold loadMaxPool at hl
    split at hl
    · split at hl
      · rw [← Option.some.inj hl]; exact fun i hi => hi
      · cases hl
    · cases hl
  | reshape =>
    change loadReshape id n rest = some l₀ at hl
    unfold loadReshape at hl
    split at hl
    · split at hl
      · rw [← Option.some.inj hl]; exact fun i hi => hi
      · cases hl
    · cases hl

theorem loadNodes_ok {keys : List (List Char × OnnxLoader)} (hkeys : ∀ k ∈ keys, k ∈ onnxKeys) (hv : OnnxValues m x val) :
    ∀ (fuel : ℕ) (ids : List ℕ) (last : ℕ) (g g' : Graph (OnnxLayer R)) (last' : ℕ),
    (∀ id ∈ ids, ∀ n, m.nodes[id]? = some n → TakenForGranted m n) → GraphOk x val g → loadNodes keys m fuel ids false last g = some (g', last') → GraphOk x val g'
  | fuel, [], last, g, g', last', _, hg, h => by
    unfold loadNodes at h
    cases h
    exact hg
  | 0, _ :: _, _, _, _, _, _, _, h => by
    unfold loadNodes at h
    cases h
  | fuel + 1, id :: rest, last, g, g', last', ht, hg, h => by
    unfold loadNodes at h
    simp only [Option.bind_eq_bind, Option.bind_eq_some_iff] at h
    obtain ⟨l, hl, h⟩ := h
    obtain ⟨n, l₀, hn, hok, hll⟩ := parseNode_ok hkeys hv (ht id (by simp)) hl
    simp only [Bool.false_eq_true, if_false] at hll
    subst hll
    split at h
    · refine loadNodes_ok hkeys hv fuel _ _ _ _ _ (fun i hi => ht i (List.mem_cons_of_mem _ (parse_rest hl i hi))) ?_ h
      exact addNodeWithId_ok hg (loaded_node_ok hok) new_wires
    · cases h

theorem loadNodes_first_ok {keys : List (List Char × OnnxLoader)} (hkeys : ∀ k ∈ keys, k ∈ onnxKeys) (hv : OnnxValues m x val) (hs : StartsAtSource m) {src : ℕ}
    {ids : List ℕ} (ho : m.order = src :: ids) {sn : OnnxNode R} {shape : List ℕ} (hsn : m.nodes[src]? = some sn) (hop : sn.op = .source shape)
    (ht : ∀ id ∈ ids, ∀ n, m.nodes[id]? = some n → TakenForGranted m n) (fuel : ℕ) (g' : Graph (OnnxLayer R)) (last' : ℕ)
    (h : loadNodes keys m fuel ids true 0 [] = some (g', last')) : GraphOk x val g' := by
  cases ids with
  | nil =>
    unfold loadNodes at h
    cases h
    intro a n ha
    cases ha
  | cons id rest =>
    cases fuel with
    | zero => unfold loadNodes at h; cases h
    | succ fuel =>
      unfold loadNodes at h
      simp only [Option.bind_eq_bind, Option.bind_eq_some_iff] at h
      obtain ⟨l, hl, h⟩ := h
      obtain ⟨n, l₀, hn, hok, hll⟩ := parseNode_ok hkeys hv (ht id (by simp)) hl
      simp only [if_true] at hll
      split at h
      · refine loadNodes_ok hkeys hv fuel _ _ _ _ _ (fun i hi => ht i (List.mem_cons_of_mem _ (parse_rest hl i hi))) ?_ h
        subst hll
        exact addNodeWithId_ok (fun a n ha => by cases ha) (loaded_first_ok ho hv hs hsn hop hn hok) new_wires
      · cases h

/-! ### Routing the outputs -/

/-- After routing: every node is right, and a wire to output `k` of the model comes from the `k`-th outlet. -/
def RoutedOk (x : Tensor R) (val : ℕ → Tensor R) (outs : List (ℕ × ℕ)) (g : Graph (OnnxLayer R)) : Prop :=
  ∀ a n, (a, n) ∈ g → NodeOk x val a n ∧ ∀ (i : ℕ) w, n.outputs[i]? = some w → ∀ e ∈ w, e.node = none → outs[e.index]? = some (a, i)

theorem pushEdge_get {g g' : Graph L} {a i : ℕ} {e : Edge} (h : pushEdge g a i e = some g') :
    (∃ n w, mapGet a g' = some n ∧ n.outputs[i]? = some w ∧ e ∈ w) ∧
    ∀ (b j : ℕ) (f : Edge), (∃ n w, mapGet b g = some n ∧ n.outputs[j]? = some w ∧ f ∈ w) → ∃ n w, mapGet b g' = some n ∧ n.outputs[j]? = some w ∧ f ∈ w := by
  unfold pushEdge at h
  simp only [Option.bind_eq_bind, Option.bind_eq_some_iff] at h
  obtain ⟨n₀, hn₀, h⟩ := h
  split at h
  swap
  · cases h
  rename_i hi
  obtain rfl := Option.some.inj h
  constructor
  · refine ⟨_, n₀.outputs[i] ++ [e], by rw [mapGet_mapSet, if_pos rfl], ?_, by simp⟩
    simp [List.getElem?_modify, hi]
  · rintro b j f ⟨n, w, h1, h2, h3⟩
    by_cases hb : b = a
    · subst hb
      rw [hn₀] at h1
      obtain rfl := Option.some.inj h1
      by_cases hij : i = j
      · refine ⟨_, w ++ [e], by rw [mapGet_mapSet, if_pos rfl], ?_, List.mem_append_left _ h3⟩
        simp [List.getElem?_modify, hij, h2]
      · refine ⟨_, w, by rw [mapGet_mapSet, if_pos rfl], ?_, h3⟩
        simp [List.getElem?_modify, hij, h2]
    · exact ⟨n, w, by rw [mapGet_mapSet, if_neg hb]; exact h1, h2, h3⟩

theorem routeEdges_ok {outs : List (ℕ × ℕ)} : ∀ (es : List (ℕ × ℕ)) (k : ℕ) (g g' : Graph (OnnxLayer R)), outs.drop k = es → RoutedOk x val outs g →
    routeEdges k (es.map fun o => (⟨some o.1, o.2⟩ : Edge)) g = (g', true) → RoutedOk x val outs g'
  | [], k, g, g', _, hg, h => by
    unfold routeEdges at h
    simp only [List.map_nil, Prod.mk.injEq, and_true] at h
    exact h ▸ hg
  | o :: es, k, g, g', hd, hg, h => by
    unfold routeEdges at h
    simp only [List.map_cons] at h
    split at h
    · simp at h
    · rename_i g₁ hp
      have hk : outs[k]? = some o := by
        have := congrArg (·[0]?) hd
        simpa using this
      refine routeEdges_ok es (k + 1) g₁ g' ?_ ?_ h
      · rw [← List.drop_drop, hd]; rfl
      · intro b n hb
        rcases pushEdge_mem hp b n hb with hb | ⟨n₀, h0, rfl, rfl⟩
        · exact hg b n hb
        · obtain ⟨k1, k2⟩ := hg _ _ h0
          refine ⟨nodeOk_outputs k1 _ _, ?_⟩
          intro i w hw e he hne
          simp only [List.getElem?_modify] at hw
          cases hw0 : n₀.outputs[i]? with
          | none => simp [hw0] at hw
          | some w₀ =>
            rw [hw0] at hw
            by_cases hij : o.2 = i
            · simp only [hij, if_true, Option.map_eq_map, Option.map_some, Option.some.injEq] at hw
              subst hw
              rcases List.mem_append.1 he with he | he
              · exact k2 i w₀ hw0 e he hne
              · simp only [List.mem_singleton] at he
                rw [he]
                simp only
                rw [hk, ← hij]
            · simp only [hij, if_false, Option.map_eq_map, Option.map_some, Option.some.injEq, id] at hw
              subst hw
              exact k2 i w₀ hw0 e he hne

theorem routeEdges_get : ∀ (es : List (ℕ × ℕ)) (k : ℕ) (g g' : Graph L), routeEdges k (es.map fun o => (⟨some o.1, o.2⟩ : Edge)) g = (g', true) →
    (∀ (b j : ℕ) (f : Edge), (∃ n w, mapGet b g = some n ∧ n.outputs[j]? = some w ∧ f ∈ w) → ∃ n w, mapGet b g' = some n ∧ n.outputs[j]? = some w ∧ f ∈ w) ∧
    ∀ (j : ℕ) o, es[j]? = some o → ∃ n w, mapGet o.1 g' = some n ∧ n.outputs[o.2]? = some w ∧ (⟨none, k + j⟩ : Edge) ∈ w
  | [], k, g, g', h => by
    unfold routeEdges at h
    simp only [List.map_nil, Prod.mk.injEq, and_true] at h
    subst h
    exact ⟨fun _ _ _ h => h, by simp⟩
  | o :: es, k, g, g', h => by
    unfold routeEdges at h
    simp only [List.map_cons] at h
    split at h
    · simp at h
    · rename_i g₁ hp
      obtain ⟨r1, r2⟩ := routeEdges_get es (k + 1) g₁ g' h
      obtain ⟨p1, p2⟩ := pushEdge_get hp
      refine ⟨fun b j f hf => r1 b j f (p2 b j f hf), ?_⟩
      intro j o' ho
      cases j with
      | zero =>
        simp only [List.getElem?_cons_zero, Option.some.injEq] at ho
        subst ho
        exact r1 _ _ _ p1
      | succ j =>
        simp only [List.getElem?_cons_succ] at ho
        have := r2 j o' ho
        rwa [Nat.add_right_comm, Nat.add_assoc] at this

/-! ### Running the loaded model -/

theorem runStep_ok {outs : List (ℕ × ℕ)} {g : Graph (OnnxLayer R)} (hg : RoutedOk x val outs g) {x' : Tensor R} (hx : SameButBatch x x') {t t' : List (ℕ × List (Tensor R))}
    {id : ℕ} (ht : ∀ a vs, mapGet a t = some vs → ∃ y, vs = [y] ∧ SameButBatch (val a) y) (h : runStep OnnxLayer.eval g [x'] t id = some t') :
    ∀ a vs, mapGet a t' = some vs → ∃ y, vs = [y] ∧ SameButBatch (val a) y := by
  unfold runStep at h
  simp only [Option.bind_eq_bind, Option.bind_eq_some_iff] at h
  obtain ⟨n, hn, ins, hins, out, hout, h⟩ := h
  obtain rfl := Option.some.inj h
  intro a vs ha
  rw [mapGet_mapSet] at ha
  split at ha
  · rename_i hai
    subst hai
    obtain rfl := Option.some.inj ha
    obtain ⟨⟨-, e, v, he, hev, hval⟩, -⟩ := hg a n (mem_of_mapGet_graph hn)
    rw [he] at hins
    simp only [List.mapM_cons, List.mapM_nil, Option.pure_def, Option.bind_eq_bind, Option.bind_eq_some_iff, Option.bind_some] at hins
    obtain ⟨t', ht', hins⟩ := hins
    obtain rfl := Option.some.inj hins
    refine hval t' out ?_ hout
    unfold edgeValue at ht'
    rcases hev with ⟨rfl, rfl⟩ | ⟨k, hk, rfl⟩
    · simp only [List.getElem?_cons_zero, Option.some.injEq] at ht'
      exact ht' ▸ hx
    · rw [hk] at ht'
      simp only [Option.bind_eq_bind, Option.bind_eq_some_iff] at ht'
      obtain ⟨vs, hvs, ht'⟩ := ht'
      obtain ⟨y, rfl, hy⟩ := ht k vs hvs
      match hi : e.index, ht' with
      | 0, ht' => simp only [List.getElem?_cons_zero, Option.some.injEq] at ht'; exact ht' ▸ hy
      | i + 1, ht' => simp at ht'
  · exact ht a vs ha

theorem runTrace_ok {outs : List (ℕ × ℕ)} {g : Graph (OnnxLayer R)} (hg : RoutedOk x val outs g) {x' : Tensor R} (hx : SameButBatch x x') :
    ∀ (order : List ℕ) (t t' : List (ℕ × List (Tensor R))), (∀ a vs, mapGet a t = some vs → ∃ y, vs = [y] ∧ SameButBatch (val a) y) →
    order.foldlM (runStep OnnxLayer.eval g [x']) t = some t' → ∀ a vs, mapGet a t' = some vs → ∃ y, vs = [y] ∧ SameButBatch (val a) y
  | [], t, t', ht, h => by
    simp only [List.foldlM_nil, Option.pure_def, Option.some.injEq] at h
    exact h ▸ ht
  | id :: order, t, t', ht, h => by
    simp only [List.foldlM_cons, Option.bind_eq_bind, Option.bind_eq_some_iff] at h
    obtain ⟨t₁, h1, h⟩ := h
    exact runTrace_ok hg hx order t₁ t' (runStep_ok hg hx ht h1) h

end

end Lemmas
