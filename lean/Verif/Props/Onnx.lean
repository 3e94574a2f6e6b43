import Verif.Lemmas.OnnxGraph
import Verif.Props.GraphRun

/-!
C101: a loaded ONNX model computes what the ONNX graph computes; C102: loading the same file twice gives the same model.
-/

namespace Props

open Model Spec Lemmas

/-! ### C101 -/

section

variable {R : Type} [CommRing R] [LinearOrder R]

/-- C101, for graphs whose nodes are as the loader takes for granted (`TakenForGranted`) and that start at one source: whatever the order of the hash map, if the graph is
loaded and the loaded model runs on an input, then every node of the loaded model has the value the node with its id has in the graph, the model has as many outputs as the
graph, and they are the values of the outlets of the graph, in their order. The shape of the input is that of the source, without a first dimension of one. Missing: graphs
that violate one of the assumptions, of which the theorems below show that they are loaded to models that compute something else; and that every graph of the supported
operations is loaded. -/
theorem C101_loaded_partial (keys : List (List Char × OnnxLoader)) (hkeys : keys.Perm onnxKeys) (m : OnnxGraph R) (x : Tensor R) (val : ℕ → Tensor R)
    (hv : OnnxValues m x val) (hs : StartsAtSource m) (hg : ∀ id ∈ m.order.tail, ∀ n, m.nodes[id]? = some n → TakenForGranted m n) (hout : m.outputs.Nodup)
    (shape : List ℕ) (g : Graph (OnnxLayer R)) (hl : loadOnnx keys m = some (shape, g)) (x' : Tensor R) (hd : x'.data = x.data) (hx : x'.shape = shape)
    (t : List (ℕ × List (Tensor R))) (outs : List (Tensor R)) (hr : runModel OnnxLayer.eval g [x'] = some (t, outs)) :
    SameButBatch x x' ∧ (∀ a vs, mapGet a t = some vs → ∃ y, vs = [y] ∧ SameButBatch (val a) y) ∧ outs.length = m.outputs.length ∧
      ∀ (k : ℕ) (o : ℕ × ℕ) (v : Tensor R), m.outputs[k]? = some o → outs[k]? = some v → SameButBatch (val o.1) v := by
  unfold loadOnnx at hl
  split at hl
  · cases hl
  rename_i src ids ho
  simp only [Option.bind_eq_bind, Option.bind_eq_some_iff] at hl
  obtain ⟨sn, hsn, hl⟩ := hl
  obtain ⟨sh, hop, hl⟩ : ∃ sh, sn.op = .source sh ∧ (sh[0]?.bind fun d => (loadNodes keys m ids.length ids true 0 []).bind fun r =>
      if (m.outputs.any fun o => o.1 == r.2) = true then
        if (routeOutput r.1 (some (m.outputs.map fun o => ⟨some o.1, o.2⟩))).2 = true then
          some (if d = 1 then sh.drop 1 else sh, (routeOutput r.1 (some (m.outputs.map fun o => ⟨some o.1, o.2⟩))).1) else none
      else none) = some (shape, g) := by
    split at hl
    · rename_i sh hsh
      exact ⟨sh, hsh, hl⟩
    · simp at hl
  simp only [Option.bind_eq_some_iff] at hl
  obtain ⟨d, hd0, ⟨g₀, last⟩, hn, hl⟩ := hl
  split at hl
  swap
  · cases hl
  split at hl
  swap
  · cases hl
  rename_i hroute
  simp only [Option.some.injEq, Prod.mk.injEq] at hl
  obtain ⟨hshape, hgr⟩ := hl
  have hk : ∀ k ∈ keys, k ∈ onnxKeys := fun k hk => hkeys.mem_iff.1 hk
  have hok := loadNodes_first_ok hk hv hs ho hsn hop (by rw [ho] at hg; exact hg) _ g₀ last hn
  have hroute' : routeEdges 0 (m.outputs.map fun o => (⟨some o.1, o.2⟩ : Edge)) g₀ = (g, true) := by
    have : routeOutput g₀ (some (m.outputs.map fun o => ⟨some o.1, o.2⟩)) = routeEdges 0 (m.outputs.map fun o => (⟨some o.1, o.2⟩ : Edge)) g₀ := rfl
    rw [← this]
    exact Prod.ext hgr hroute
  have hr0 : RoutedOk x val m.outputs g₀ := by
    intro a n ha
    obtain ⟨k1, k2⟩ := hok a n ha
    exact ⟨k1, fun i w hw e he hne => absurd hne (k2 w (List.mem_of_getElem? hw) e he)⟩
  have hrg := routeEdges_ok m.outputs 0 g₀ g (by simp) hr0 hroute'
  have hget := (routeEdges_get m.outputs 0 g₀ g hroute').2
  -- the input
  have hxs : x.shape = sh := by rw [← hv.source src ids ho]; exact hv.input src sn sh hsn hop
  have hsame : SameButBatch x x' := by
    refine ⟨hd.symm, ?_⟩
    rw [hx, ← hshape, hxs]
    split
    · rename_i h1
      right
      match sh, hd0 with
      | e :: es, hd0 =>
        simp only [List.getElem?_cons_zero, Option.some.injEq] at hd0
        rw [hd0, h1]; rfl
    · exact Or.inl rfl
  have hrun := hr
  unfold runModel at hrun
  simp only [Option.bind_eq_bind, Option.bind_eq_some_iff, Option.some.injEq, Prod.mk.injEq] at hrun
  obtain ⟨t', ht, acc, hacc, outs', ho', rfl, rfl⟩ := hrun
  have htrace := runTrace_ok hrg hsame (forwardOrder g) [] t' (by intro a vs h; simp [mapGet] at h) ht
  have hone : ∀ a n, (a, n) ∈ g → ∀ w ∈ n.outputs, n.outputs = [w] := by
    intro a n ha w hw
    have := (hrg a n ha).1.1
    match ho : n.outputs, this with
    | [w'], _ =>
      rw [ho] at hw
      simp only [List.mem_singleton] at hw
      rw [hw]
  have hw0 : ∀ a n, (a, n) ∈ g → ∀ w ∈ n.outputs, ∀ e ∈ w, e.node = none → m.outputs[e.index]? = some (a, 0) := by
    intro a n ha w hw e he hne
    exact (hrg a n ha).2 0 w (by rw [hone a n ha w hw]; rfl) e he hne
  have houts := C67_outputs_partial OnnxLayer.eval g [x'] t' outs' hr
    (by
      intro a n ha ⟨w, hw, e, he, hne⟩ w' hw'
      have := hone a n ha w hw
      rw [this] at hw'
      simp only [List.mem_singleton] at hw'
      exact ⟨e, hw' ▸ he, hne⟩)
    (by
      intro a n ha w hw e he e' he' hne hne'
      have h1 := hw0 a n ha w hw e he hne
      have h2 := hw0 a n ha w hw e' he' hne'
      have hidx : e.index = e'.index := by
        obtain ⟨l1, e1⟩ := List.getElem?_eq_some_iff.1 h1
        obtain ⟨l2, e2⟩ := List.getElem?_eq_some_iff.1 h2
        exact (List.Nodup.getElem_inj_iff hout).1 (e1.trans e2.symm)
      cases e; cases e'; simp_all)
  refine ⟨hsame, htrace, ?_, ?_⟩
  · apply le_antisymm
    · by_contra hlt
      obtain ⟨a, n, i, w, vals, ha, hw, he, -, -⟩ := (houts m.outputs.length _).1 (List.getElem?_eq_getElem (by omega))
      have := hw0 a n ha w (List.mem_of_getElem? hw) _ he rfl
      simp at this
    · by_contra hlt
      have hlt' : outs'.length < m.outputs.length := by omega
      obtain ⟨n, w, h1, h2, h3⟩ := hget outs'.length _ (List.getElem?_eq_getElem hlt')
      rw [Nat.zero_add] at h3
      have hmem := mem_of_mapGet_graph h1
      have hone' := hone _ n hmem w (List.mem_of_getElem? h2)
      obtain ⟨-, a₂, -⟩ := collectNodes_spec t' _ _ _ hacc (by simp)
      obtain ⟨vs, hvs, hvl⟩ := a₂ (_, n) (by
        unfold outputNodes
        rw [List.mem_filter]
        refine ⟨hmem, ?_⟩
        simp only [hone', List.all_cons, List.all_nil, Bool.and_true, List.any_eq_true]
        exact ⟨_, h3, rfl⟩)
      obtain ⟨y, rfl, -⟩ := htrace _ _ hvs
      have hi0 : (m.outputs[outs'.length]'hlt').2 = 0 := by
        have h4 := hw0 _ n hmem w (List.mem_of_getElem? h2) _ h3 rfl
        rw [List.getElem?_eq_getElem hlt'] at h4
        exact congrArg Prod.snd (Option.some.inj h4)
      have := (houts outs'.length y).2 ⟨_, n, _, w, [y], hmem, h2, h3, hvs, by rw [hi0]; rfl⟩
      simp at this
  · intro k o v hk hv'
    obtain ⟨a, n, i, w, vals, ha, hw, he, hm, hvi⟩ := (houts k v).1 hv'
    have h4 := hw0 a n ha w (List.mem_of_getElem? hw) _ he rfl
    simp only at h4
    rw [hk] at h4
    obtain rfl := Option.some.inj h4
    obtain ⟨y, rfl, hy⟩ := htrace _ _ hm
    match i, hvi with
    | 0, hvi => simp only [List.getElem?_cons_zero, Option.some.injEq] at hvi; exact hvi ▸ hy
    | i + 1, hvi => simp at hvi

end

/-! ### C102 -/

section

variable {R : Type} [Zero R]

theorem parse_keys (keys keys' : List (List Char × OnnxLoader)) (hkeys : keys.Perm onnxKeys) (hkeys' : keys'.Perm onnxKeys) (m : OnnxGraph R) (id : ℕ)
    (hu : ∀ n, m.nodes[id]? = some n → ∀ k ∈ onnxKeys, ∀ k' ∈ onnxKeys, k.1 <:+: n.name → k'.1 <:+: n.name → k.2 = k'.2) (rest : List ℕ) (first : Bool) :
    parseNode keys m id rest first = parseNode keys' m id rest first := by
  unfold parseNode
  cases hn : m.nodes[id]? with
  | none => rfl
  | some n =>
    simp only [Option.bind_eq_bind, Option.bind_some]
    have hu := hu n hn
    have hex : ∀ l l' : List (List Char × OnnxLoader), l.Perm onnxKeys → l'.Perm onnxKeys → ∀ k, (l.find? fun k => decide (k.1 <:+: n.name)) = some k →
        ∃ k', (l'.find? fun k => decide (k.1 <:+: n.name)) = some k' ∧ k.2 = k'.2 := by
      intro l l' hl hl' k hk
      have h1 := hl.mem_iff.1 (List.mem_of_find?_eq_some hk)
      have h2 : k.1 <:+: n.name := by simpa using List.find?_some hk
      cases hf : l'.find? fun k => decide (k.1 <:+: n.name) with
      | none =>
        rw [List.find?_eq_none] at hf
        exact absurd (by simpa using h2) (hf k (hl'.mem_iff.2 h1))
      | some k' =>
        exact ⟨k', rfl, hu k h1 k' (hl'.mem_iff.1 (List.mem_of_find?_eq_some hf)) h2 (by simpa using List.find?_some hf)⟩
    cases hf : keys.find? fun k => decide (k.1 <:+: n.name) with
    | some k =>
      obtain ⟨k', hk', he⟩ := hex keys keys' hkeys hkeys' k hf
      rw [hk', Option.bind_some, Option.bind_some, he]
    | none =>
      cases hf' : keys'.find? fun k => decide (k.1 <:+: n.name) with
      | none => rfl
      | some k' =>
        obtain ⟨k, hk, -⟩ := hex keys' keys hkeys' hkeys k' hf'
        rw [hf] at hk
        cases hk

end

section

variable {R : Type} [CommRing R] [LinearOrder R]

theorem loadNodes_keys (keys keys' : List (List Char × OnnxLoader)) (hkeys : keys.Perm onnxKeys) (hkeys' : keys'.Perm onnxKeys) (m : OnnxGraph R) :
    ∀ (fuel : ℕ) (ids : List ℕ), (∀ id ∈ ids, ∀ n, m.nodes[id]? = some n → ∀ k ∈ onnxKeys, ∀ k' ∈ onnxKeys, k.1 <:+: n.name → k'.1 <:+: n.name → k.2 = k'.2) →
    ∀ first last g, loadNodes keys m fuel ids first last g = loadNodes keys' m fuel ids first last g
  | _, [], _, _, _, _ => by unfold loadNodes; rfl
  | 0, _ :: _, _, _, _, _ => by unfold loadNodes; rfl
  | fuel + 1, id :: rest, hu, first, last, g => by
    unfold loadNodes
    rw [parse_keys keys keys' hkeys hkeys' m id (hu id (by simp))]
    cases hp : parseNode keys' m id rest first with
    | none => rfl
    | some l =>
      simp only [Option.bind_eq_bind, Option.bind_some]
      split
      · exact loadNodes_keys keys keys' hkeys hkeys' m fuel l.rest (fun i hi => hu i (List.mem_cons_of_mem _ (parse_rest hp i hi))) _ _ _
      · rfl

/-- C102, for graphs in the name of whose nodes the keys of at most one loader occur: the loaded model, or the failure, does not depend on the order of the hash map.
Missing: other names, for which the theorem below shows the contrary. -/
theorem C102_unambiguous_partial (keys keys' : List (List Char × OnnxLoader)) (hkeys : keys.Perm onnxKeys) (hkeys' : keys'.Perm onnxKeys) (m : OnnxGraph R)
    (hu : ∀ id ∈ m.order, ∀ n, m.nodes[id]? = some n → ∀ k ∈ onnxKeys, ∀ k' ∈ onnxKeys, k.1 <:+: n.name → k'.1 <:+: n.name → k.2 = k'.2) :
    loadOnnx keys m = loadOnnx keys' m := by
  unfold loadOnnx
  split
  · rfl
  · rename_i src ids ho
    rw [loadNodes_keys keys keys' hkeys hkeys' m ids.length ids (fun i hi => hu i (by rw [ho]; exact List.mem_cons_of_mem _ hi))]

end

end Props
