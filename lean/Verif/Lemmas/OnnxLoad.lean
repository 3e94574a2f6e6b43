import Verif.Lemmas.Onnx
import Verif.Lemmas.Graph
import Verif.Lemmas.CollectPairs

namespace Lemmas

open Model Spec

variable {R : Type} [CommRing R] [LinearOrder R]

/-- The evaluation of a dense layer, also for inputs without entries. -/
theorem denseEval_of_some (m n : ℕ) (w b x : List R) (u s : List ℕ) (hw : w.length = m * n) (hb : b.length = m) (hx : x.length = n) (hs : s.length = 1 → s = [n])
    (y : Tensor R) (hy : (DenseLayer.mk (⟨[m, n], w⟩ : Tensor R) ⟨[m], b⟩ u).evaluate ⟨s, x⟩ = some y) :
    y.shape = [m] ∧ y.data.length = m ∧ ∀ i < m, y.data.getD i 0 = ∑ j ∈ Finset.range n, w.getD (i * n + j) 0 * x.getD j 0 + b.getD i 0 := by
  obtain ⟨z, h1, h2, h3⟩ := matvec_spec (⟨[m, n], w⟩ : Tensor R) ⟨[n], x⟩ m n rfl rfl hw hx
  have hres : y = ⟨[m], (List.range m).map fun i => z.getD i 0 + b.getD i 0⟩ := by
    unfold DenseLayer.evaluate at hy
    simp only at hy
    by_cases h : s.length = 1
    · rw [if_neg (not_not.2 h), hs h, h1, Option.bind_eq_bind, Option.bind_some, addVec_spec m z b h2 hb] at hy
      exact (Option.some.inj hy).symm
    · rw [if_pos h] at hy
      simp only [Option.bind_eq_bind, Option.bind_eq_some_iff] at hy
      obtain ⟨c, -, hy⟩ := hy
      split at hy
      · simp only [hx, h1, Option.bind_some, addVec_spec m z b h2 hb] at hy
        exact (Option.some.inj hy).symm
      · cases hy
  subst hres
  refine ⟨rfl, by simp, fun i hi => ?_⟩
  rw [getD_map_range' _ _ _ _ hi, h3 i hi]

section

variable {m : OnnxGraph R} {x : Tensor R} {val : ℕ → Tensor R}

theorem constTensor_val (hv : OnnxValues m x val) {k : ℕ} {n : OnnxNode R} {t : Tensor R} (hn : m.nodes[k]? = some n) (h : n.constTensor = some t) : val k = t := by
  have h1 := hv.shapes k n hn
  unfold OnnxNode.constTensor at h
  split at h
  · rename_i c sh hop hsh
    have h2 := hv.node k n hn (by intro s; rw [hop]; exact nofun)
    rw [hop] at h2
    change val k = c at h2
    unfold Tensor.new at h
    split at h
    · rw [hsh] at h1
      have h3 : sh = (val k).shape := by simpa using h1
      rw [← Option.some.inj h, h3, h2]
    · cases h
  · cases h

theorem constTensor_isConst {n : OnnxNode R} {t : Tensor R} (h : n.constTensor = some t) : n.isConst = true := by
  unfold OnnxNode.constTensor at h
  split at h
  · rename_i c sh hop hsh
    unfold OnnxNode.isConst
    rw [hop]
  · cases h

/-- What a loaded node must satisfy: it takes the only input that is not a constant, and its layer gives the value of the node of its id. -/
def LoadedOk (m : OnnxGraph R) (val : ℕ → Tensor R) (n : OnnxNode R) (l : OnnxLoaded R) : Prop :=
  ∃ k s, l.inputs = [⟨some k, s⟩] ∧ (k, s) ∈ n.inputs ∧ (∀ i ∈ n.inputs, i ≠ (k, s) → m.isConst i.1 = some true) ∧
    l.layer.numOutputs 1 = 1 ∧
    ∀ t' outs, SameButBatch (val k) t' → l.layer.eval [t'] = some outs → ∃ y, outs = [y] ∧ SameButBatch (val l.id) y

theorem flatten_ok {id : ℕ} {n : OnnxNode R} (hn : m.nodes[id]? = some n) (hv : OnnxValues m x val) (hg : TakenForGranted m n) {i : ℕ × ℕ} (hi : n.inputs = [i])
    {start : ℕ} {current new : List ℕ} (hop : n.op = .reshape start current new) (hnew : new.length = 1) (rest : List ℕ) :
    LoadedOk m val n ⟨id, [⟨some i.1, i.2⟩], .flatten, rest⟩ := by
  refine ⟨i.1, i.2, rfl, by rw [hi]; simp, by rw [hi]; simp, rfl, ?_⟩
  intro t' outs ht he
  have hm := hv.node id n hn (by intro s; rw [hop]; exact nofun)
  rw [hop, hi] at hm
  obtain ⟨pre', post', p1, p2, p3, p4⟩ : IsReshape start current new (val i.1) (val id) := hm
  obtain ⟨-, -, hg3, -⟩ := hg
  obtain ⟨xn, pre, q1, q2, q3, q4⟩ := hg3 start current new hop i hi
  have hxs := hv.shapes i.1 xn q1
  rw [q2] at hxs
  have hxs' : pre ++ current = pre' ++ current ++ post' := by
    rw [← p2]; simpa using hxs
  rw [List.append_assoc] at hxs'
  obtain ⟨e1, e2⟩ := List.append_inj hxs' (by omega)
  have e3 : post' = [] := by simpa using e2
  subst e1 e3
  unfold OnnxLayer.eval at he
  have he' := (Option.some.inj he).symm
  simp only [List.map_cons, List.map_nil] at he'
  refine ⟨_, he', ?_, ?_⟩
  · simp only; rw [p4, ht.1]
  · have hfull := hv.full id
    simp only
    match new, hnew with
    | [d], _ =>
      rw [p3, p4, ht.1] at hfull
      rw [p3]
      rcases q4 with rfl | rfl
      · left; simpa using hfull.symm
      · right; simpa using hfull.symm

theorem loadReshape_ok {id : ℕ} {n : OnnxNode R} {rest : List ℕ} {l : OnnxLoaded R} (hn : m.nodes[id]? = some n) (hv : OnnxValues m x val) (hg : TakenForGranted m n)
    (h : loadReshape id n rest = some l) : LoadedOk m val n l := by
  unfold loadReshape at h
  split at h
  · rename_i i start current new hi hop
    split at h
    · rename_i hc
      obtain rfl := Option.some.inj h
      exact flatten_ok hn hv hg hi hop hc.2 rest
    · cases h
  · cases h

theorem loadFlatten_ok {id : ℕ} {n : OnnxNode R} {rest : List ℕ} {l : OnnxLoaded R} (hn : m.nodes[id]? = some n) (hv : OnnxValues m x val) (hg : TakenForGranted m n)
    (hname : ['F', 'l', 'a', 't', 't', 'e', 'n'] <:+: n.name) (h : loadFlatten id n rest = some l) : LoadedOk m val n l := by
  unfold loadFlatten at h
  split at h
  · rename_i i hi
    obtain rfl := Option.some.inj h
    obtain ⟨start, current, new, hop, hnew⟩ := hg.2.1 hname
    exact flatten_ok hn hv hg hi hop hnew rest
  · cases h

theorem loadMaxPool_ok {id : ℕ} {n : OnnxNode R} {rest : List ℕ} {l : OnnxLoaded R} (hn : m.nodes[id]? = some n) (hv : OnnxValues m x val) (hg : TakenForGranted m n)
    (h : loadMaxPool id n rest = some l) : LoadedOk m val n l := by
  unfold loadMaxPool at h
  split at h
  · rename_i i spec hi hop
    split at h
    · rename_i hc
      obtain rfl := Option.some.inj h
      refine ⟨i.1, i.2, rfl, by rw [hi]; simp, by rw [hi]; simp, rfl, ?_⟩
      intro t' outs ht he
      have hm := hv.node id n hn (by intro s; rw [hop]; exact nofun)
      rw [hop, hi] at hm
      obtain ⟨-, -, -, hg4, -⟩ := hg
      obtain ⟨g1, g2⟩ := hg4 spec hop
      unfold OnnxLayer.eval at he
      simp only [List.mapM_cons, List.mapM_nil, Option.pure_def, Option.bind_eq_bind, Option.bind_eq_some_iff, Option.bind_some] at he
      obtain ⟨y', hy', he⟩ := he
      refine ⟨y', (Option.some.inj he).symm, maxpool_same spec (val i.1) t' (val id) y' hc g1 g2 (hv.full _) (hv.full _) hm ht hy'⟩
    · cases h
  · cases h

theorem isConst_of_op {k : ℕ} {t : Tensor R} (h : (m.nodes[k]?).map (·.op) = some (.const t)) : m.isConst k = some true := by
  unfold OnnxGraph.isConst
  cases hn : m.nodes[k]? with
  | none => rw [hn] at h; cases h
  | some n =>
    rw [hn] at h
    simp only [Option.map_some, Option.some.injEq] at h ⊢
    unfold OnnxNode.isConst
    rw [h]

theorem const_val (hv : OnnxValues m x val) {k : ℕ} {t : Tensor R} (h : (m.nodes[k]?).map (·.op) = some (.const t)) : val k = t := by
  cases hn : m.nodes[k]? with
  | none => rw [hn] at h; cases h
  | some n =>
    rw [hn] at h
    simp only [Option.map_some, Option.some.injEq] at h
    have := hv.node k n hn (by intro s; rw [h]; exact nofun)
    rw [h] at this
    exact this

theorem loadRelu_ok {id : ℕ} {n : OnnxNode R} {rest : List ℕ} {l : OnnxLoaded R} (hn : m.nodes[id]? = some n) (hv : OnnxValues m x val) (hg : TakenForGranted m n)
    (hname : ['R', 'e', 'l', 'u'] <:+: n.name) (h : loadRelu m id n rest = some l) : LoadedOk m val n l := by
  obtain ⟨hop, i, j, k, t, hin, hic, hk, ht1, ht0⟩ := hg.1 hname
  have hkc := isConst_of_op hk
  have hkv := const_val hv hk
  have hm := hv.node id n hn (by intro s; rw [hop]; exact nofun)
  have hl : l = ⟨id, [⟨some i.1, i.2⟩], .relu, rest⟩ := by
    unfold loadRelu at h
    rcases hin with hin | hin <;> rw [hin] at h
    · simp only [hkc, Option.bind_eq_bind, Option.bind_some, if_true, Option.some.injEq] at h
      exact h.symm
    · simp only [hkc, hic, Option.bind_eq_bind, Option.bind_some, if_true, Bool.false_eq_true, if_false, Option.some.injEq] at h
      exact h.symm
  subst hl
  refine ⟨i.1, i.2, rfl, by rcases hin with hin | hin <;> rw [hin] <;> simp, ?_, rfl, ?_⟩
  · intro e he hne
    rcases hin with hin | hin <;> rw [hin] at he <;> simp only [List.mem_cons, List.not_mem_nil, or_false] at he <;> rcases he with rfl | rfl
    · exact absurd rfl hne
    · exact hkc
    · exact hkc
    · exact absurd rfl hne
  · intro t' outs ht he
    have hb : IsBinary max (val i.1) t (val id) ∨ IsBinary max t (val i.1) (val id) := by
      rcases hin with hin | hin <;> rw [hop, hin] at hm
      · left; rw [← hkv]; exact hm
      · right; rw [← hkv]; exact hm
    obtain ⟨s1, s2⟩ := max_zero_spec (val i.1) t (val id) (hv.full _) (hv.full _) ht1 ht0 hb
    unfold OnnxLayer.eval at he
    have he' := (Option.some.inj he).symm
    simp only [List.map_cons, List.map_nil] at he'
    refine ⟨_, he', ?_, ?_⟩
    · simp only; rw [s2, ht.1]
    · simp only; rw [s1]; exact ht.2

theorem convLayer_eq {f b : Tensor R} {l : OnnxLayer R} (h : convLayer f b = some l) : ∃ b', l = .conv f b' := by
  unfold convLayer at h
  split at h
  · split at h
    · exact ⟨_, (Option.some.inj h).symm⟩
    · split at h
      · exact ⟨_, (Option.some.inj h).symm⟩
      · cases h
  · cases h

theorem constTensor_op {n : OnnxNode R} {t : Tensor R} (h : n.constTensor = some t) : ∃ c, n.op = .const c := by
  unfold OnnxNode.constTensor at h
  split at h
  · rename_i c sh hop hsh
    exact ⟨c, hop⟩
  · cases h

theorem loadConv_ok {id : ℕ} {n : OnnxNode R} {rest : List ℕ} {l : OnnxLoaded R} (hn : m.nodes[id]? = some n) (hv : OnnxValues m x val) (hg : TakenForGranted m n)
    (h : loadConv m id n rest = some l) : LoadedOk m val n l := by
  unfold loadConv at h
  split at h
  · rename_i spec groups i f b hop hin
    split at h
    · rename_i hc
      simp only [Option.bind_eq_bind, Option.bind_eq_some_iff] at h
      obtain ⟨fn, hfn, bn, hbn, ft, hft, bt, hbt, la, hla, h⟩ := h
      obtain rfl := Option.some.inj h
      obtain ⟨b', rfl⟩ := convLayer_eq hla
      have hfv := constTensor_val hv hfn hft
      have hbv := constTensor_val hv hbn hbt
      have hm := hv.node id n hn (by intro s; rw [hop]; exact nofun)
      rw [hop, hin] at hm
      change IsConvolution spec groups (val i.1) (val f.1) (val b.1) (val id) at hm
      have hconst : ∀ (k : ℕ) (nd : OnnxNode R) (t : Tensor R), m.nodes[k]? = some nd → nd.constTensor = some t → m.isConst k = some true := by
        intro k nd t h1 h2
        unfold OnnxGraph.isConst
        rw [h1, Option.map_some, constTensor_isConst h2]
      refine ⟨i.1, i.2, rfl, by rw [hin]; simp, ?_, rfl, ?_⟩
      · intro e he hne
        rw [hin] at he
        simp only [List.mem_cons, List.not_mem_nil, or_false] at he
        rcases he with rfl | rfl | rfl
        · exact absurd rfl hne
        · exact hconst _ _ _ hfn hft
        · exact hconst _ _ _ hbn hbt
      · intro t' outs ht he
        unfold OnnxLayer.eval at he
        simp only [Option.map_eq_some_iff] at he
        obtain ⟨y', hy', rfl⟩ := he
        refine ⟨y', rfl, ?_⟩
        have hb0 : (val b.1).shape = [] → (val b.1).data = [0] := by
          intro h0
          obtain ⟨-, -, -, -, -, -, hg7⟩ := hg
          obtain ⟨c, hcop⟩ := constTensor_op hbt
          have hmap : (m.nodes[b.1]?).map (·.op) = some (.const c) := by rw [hbn, Option.map_some, hcop]
          have hcv := const_val hv hmap
          rw [hcv] at h0 ⊢
          exact hg7 spec groups hop i f b hin c hmap h0
        have := conv_same spec groups (val i.1) t' (val f.1) (val b.1) b' (val id) y' hc (hv.full _) (hv.full _) (hv.full _) (hv.full _) hm ht
          (by rw [hfv, hbv]; exact hla) hb0 (by rw [hfv]; exact hy')
        rw [this]
        exact ⟨rfl, Or.inl rfl⟩
    · cases h
  · cases h

/-- The bias of a product: the loaded node stands for the sum. -/
theorem gemm_bias_spec (hv : OnnxValues m x val) {id o : ℕ} {rest : List ℕ} {r : ℕ × Option ℕ × List ℕ} {b : Tensor R}
    (hs : (val id).shape = [o] ∨ (val id).shape = [1, o]) (h : gemmBias m id rest = some r) (hb : gemmBiasTensor m o r.2.1 = some b) :
    b.shape = [o] ∧ b.data.length = o ∧ (val r.1).shape = (val id).shape ∧ ∀ j, j < o → (val r.1).data.getD j 0 = (val id).data.getD j 0 + b.data.getD j 0 := by
  have hnone : gemmBiasTensor m o none = some b → b.shape = [o] ∧ b.data.length = o ∧ ∀ j, b.data.getD j 0 = 0 := by
    intro h
    unfold gemmBiasTensor at h
    simp only [Option.bind_eq_bind, Option.bind_some, List.getElem?_cons_zero, if_true, Option.some.injEq] at h
    subst h
    refine ⟨rfl, by simp, fun j => ?_⟩
    rcases lt_or_ge j (List.replicate o (0 : R)).length with h | h
    · rw [List.getD_eq_getElem _ _ h]; simp
    · rw [List.getD_eq_default _ _ h]
  have hid : r.1 = id → r.2.1 = none → b.shape = [o] ∧ b.data.length = o ∧ (val r.1).shape = (val id).shape ∧
      ∀ j, j < o → (val r.1).data.getD j 0 = (val id).data.getD j 0 + b.data.getD j 0 := by
    intro h1 h2
    rw [h2] at hb
    obtain ⟨a1, a2, a3⟩ := hnone hb
    exact ⟨a1, a2, by rw [h1], fun j _ => by rw [h1, a3, add_zero]⟩
  have hsome : ∀ k next, r.2.1 = some k → (IsBinary (· + ·) (val id) (val k) (val next) ∨ IsBinary (· + ·) (val k) (val id) (val next)) → r.1 = next →
      b.shape = [o] ∧ b.data.length = o ∧ (val r.1).shape = (val id).shape ∧ ∀ j, j < o → (val r.1).data.getD j 0 = (val id).data.getD j 0 + b.data.getD j 0 := by
    intro k next hk hbin hnext
    rw [hk] at hb
    unfold gemmBiasTensor at hb
    simp only [Option.bind_eq_bind, Option.bind_eq_some_iff] at hb
    obtain ⟨cn, hcn, c, hct, hb⟩ := hb
    have hcv := constTensor_val hv hcn hct
    have hlen : (val id).shape.length = c.shape.length := by
      rw [← hcv]
      rcases hbin with hbin | hbin
      · exact hbin.1
      · exact hbin.1.symm
    have hfull := hv.full k
    rw [hcv] at hfull
    have hshape : (val id).shape = c.shape ∧ b.data = c.data ∧ b.shape = [o] := by
      split at hb
      · rename_i d hd
        simp only [Option.bind_some, hd, List.getElem?_cons_zero] at hb
        split at hb
        · rename_i hko
          obtain rfl := Option.some.inj hb
          rw [hd] at hlen ⊢
          rcases hs with hs | hs
          · rw [hs, hko]; simp
          · rw [hs] at hlen; simp at hlen
        · cases hb
      · rename_i d e hd
        split at hb
        · rename_i hd1
          simp only [Option.bind_some, List.getElem?_cons_zero] at hb
          split at hb
          · rename_i hko
            obtain rfl := Option.some.inj hb
            rw [hd] at hlen ⊢
            rcases hs with hs | hs
            · rw [hs] at hlen; simp at hlen
            · rw [hs, hko, hd1]; simp
          · cases hb
        · cases hb
      · cases hb
    obtain ⟨s1, s2, s3⟩ := hshape
    have hprod : (val id).shape.prod = o := by rcases hs with hs | hs <;> rw [hs] <;> simp
    refine ⟨s3, by rw [s2, hfull, ← s1, hprod], ?_⟩
    rw [hnext, s2]
    rcases hbin with hbin | hbin
    · rw [hcv] at hbin
      obtain ⟨a1, a2⟩ := add_same_spec (val id) c (val next) s1 hbin
      exact ⟨a1, fun j hj => a2 j (by rw [hprod]; exact hj)⟩
    · rw [hcv] at hbin
      obtain ⟨a1, a2⟩ := add_same_spec c (val id) (val next) s1.symm hbin
      exact ⟨a1.trans s1.symm, fun j hj => by rw [a2 j (by rw [← s1, hprod]; exact hj), add_comm]⟩
  unfold gemmBias at h
  split at h
  · obtain rfl := Option.some.inj h
    exact hid rfl rfl
  · rename_i next rest'
    simp only [Option.bind_eq_bind, Option.bind_eq_some_iff] at h
    obtain ⟨nn, hnn, h⟩ := h
    split at h
    · rename_i i j hin hop
      have hm := hv.node next nn hnn (by intro s; rw [hop]; exact nofun)
      rw [hop, hin] at hm
      change IsBinary (· + ·) (val i.1) (val j.1) (val next) at hm
      split at h
      · rename_i hi
        obtain rfl := Option.some.inj h
        exact hsome j.1 next rfl (Or.inl (hi ▸ hm)) rfl
      · split at h
        · rename_i hj
          obtain rfl := Option.some.inj h
          exact hsome i.1 next rfl (Or.inr (hj ▸ hm)) rfl
        · obtain rfl := Option.some.inj h
          exact hid rfl rfl
    · obtain rfl := Option.some.inj h
      exact hid rfl rfl

theorem gemm_links {i j : ℕ × ℕ} {k : ℕ} (hk : k < 2) (h1 : m.isConst (if k = 1 then j.1 else i.1) = some true) (h2 : m.isConst (if k = 1 then i.1 else j.1) = some false) :
    gemmWeights m i j = some (if k = 1 then j else i) ∧ gemmInput i j (if k = 1 then j else i).1 = some (if k = 1 then i else j) := by
  have hne : (if k = 1 then j.1 else i.1) ≠ (if k = 1 then i.1 else j.1) := by
    intro h; rw [h, h2] at h1; simp at h1
  unfold gemmWeights gemmInput
  by_cases hk1 : k = 1
  · simp only [hk1, if_true] at h1 h2 hne ⊢
    simp only [h1, Option.bind_eq_bind, Option.bind_some, if_true, true_and]
    rw [if_pos (Ne.symm hne)]
  · simp only [hk1, if_false] at h1 h2 hne ⊢
    simp only [h1, h2, Option.bind_eq_bind, Option.bind_some, if_true, Bool.false_eq_true, if_false, true_and, ne_eq, not_true_eq_false]
    rw [if_pos (Ne.symm hne)]

theorem loadGemm_ok {id : ℕ} {n : OnnxNode R} {rest : List ℕ} {l : OnnxLoaded R} (hn : m.nodes[id]? = some n) (hv : OnnxValues m x val) (hg : TakenForGranted m n)
    (h : loadGemm m id n rest = some l) : LoadedOk m val n l := by
  unfold loadGemm at h
  split at h
  · rename_i k inFirst i j hop hin
    obtain ⟨-, -, -, -, hg5, hg6, -⟩ := hg
    obtain ⟨hk, hc1, hc2⟩ := hg6 k inFirst hop i j hin
    obtain ⟨hw, hi⟩ := gemm_links hk hc1 hc2
    obtain ⟨wl, hwl⟩ : ∃ wl, wl = if k = 1 then j else i := ⟨_, rfl⟩
    obtain ⟨il, hil⟩ : ∃ il, il = if k = 1 then i else j := ⟨_, rfl⟩
    have hwl1 : (if k = 1 then j.1 else i.1) = wl.1 := by rw [hwl]; split <;> rfl
    have hil1 : (if k = 1 then i.1 else j.1) = il.1 := by rw [hil]; split <;> rfl
    rw [hwl1] at hc1
    rw [hil1] at hc2
    rw [← hwl] at hw hi
    rw [← hil] at hi
    simp only [hw, Option.bind_eq_bind, Option.bind_some, hi, Option.bind_eq_some_iff] at h
    obtain ⟨wn, hwn, w, hwt, w₁, hw₁, xn, hxn, xs, hxs, w₂, hw₂, r, hr, rows, hrows, bias, hbias, d, hd, h⟩ := h
    obtain rfl := Option.some.inj h
    have hwv := constTensor_val hv hwn hwt
    have hm := hv.node id n hn (by intro s; rw [hop]; exact nofun)
    rw [hop, hin] at hm
    have hprod : IsProduct inFirst (val il.1) (val wl.1) (val id) := by
      rw [hwl, hil]
      by_cases hk1 : k = 1
      · simp only [hk1, if_true]
        subst hk1
        exact hm
      · simp only [hk1, if_false]
        change (if k = 1 then IsProduct inFirst (val i.1) (val j.1) (val id) else IsProduct inFirst (val j.1) (val i.1) (val id)) at hm
        rwa [if_neg hk1] at hm
    obtain ⟨o, ho1, ho2, ho3⟩ := hprod
    have hxsz : xs.prod = (val il.1).data.length := by
      have h1 := hv.shapes _ _ hxn
      rw [h1] at hxs
      rw [hv.full]
      congr 1
      match hs : il.2, hxs with
      | 0, hxs => simpa using hxs.symm
      | s + 1, hxs => simp at hxs
    rw [hxsz] at hw₂
    have hns : inFirst = true → ∃ a b, (val wl.1).shape = [a, b] ∧ a ≠ b := by
      rintro rfl
      obtain ⟨wn', a, b, e1, e2, e3⟩ := hg5 k hop i j hin
      rw [hwl1] at e1
      have := hv.shapes _ _ e1
      rw [e2] at this
      exact ⟨a, b, by simpa using this.symm, e3⟩
    obtain ⟨m1, m2, m3⟩ := gemm_matrix_spec inFirst (val il.1) (val wl.1) (val id) w₁ w₂ o (hv.full _) ho2 hns (by rw [hwv]; exact hw₁) hw₂
    rw [m1] at hrows
    simp only [List.getElem?_cons_zero, Option.some.injEq] at hrows
    subst hrows
    obtain ⟨b1, b2, b3, b4⟩ := gemm_bias_spec hv ho1 hr hbias
    refine ⟨il.1, il.2, rfl, ?_, ?_, rfl, ?_⟩
    · rw [hin, hil]; split <;> simp
    · intro e he hne
      rw [hin] at he
      have : e = wl := by
        simp only [List.mem_cons, List.not_mem_nil, or_false] at he
        rw [hwl]
        rw [hil] at hne
        by_cases hk1 : k = 1
        · simp only [hk1, if_true] at hne ⊢
          rcases he with rfl | rfl
          · exact absurd rfl hne
          · rfl
        · simp only [hk1, if_false] at hne ⊢
          rcases he with rfl | rfl
          · rfl
          · exact absurd rfl hne
      rw [this, hc1]
    · intro t' outs ht he
      unfold OnnxLayer.eval at he
      simp only [Option.map_eq_some_iff] at he
      obtain ⟨y', hy', rfl⟩ := he
      refine ⟨y', rfl, ?_⟩
      have hdd : d = ⟨⟨[o, (val il.1).data.length], w₂.data⟩, ⟨[o], bias.data⟩, w₂.shape⟩ := by
        unfold DenseLayer.new at hd
        simp only [Option.bind_eq_bind, Option.bind_eq_some_iff] at hd
        obtain ⟨a, -, c, -, hd⟩ := hd
        split at hd
        · rw [← Option.some.inj hd]
          cases w₂; cases bias; simp_all
        · cases hd
      subst hdd
      have ht1 : t'.data.length = (val il.1).data.length := by rw [ht.1]
      have htf : t'.shape.length = 1 → t'.shape = [(val il.1).data.length] := by
        intro h1
        have hf := hv.full il.1
        match hsh : t'.shape, h1 with
        | [d], _ =>
          rcases ht.2 with e | e <;> rw [e, hsh] at hf <;> simp at hf <;> rw [hf]
      obtain ⟨y1, y2, y3⟩ := denseEval_of_some o _ w₂.data bias.data t'.data w₂.shape t'.shape m2 b2 ht1 htf y' hy'
      have hfr := hv.full r.1
      rw [b3] at hfr
      refine ⟨?_, ?_⟩
      · apply list_ext_getD 0
        · rw [y2, hfr]
          rcases ho1 with e | e <;> rw [e] <;> simp
        · intro q hq
          have hqo : q < o := by
            rw [hfr] at hq
            rcases ho1 with e | e <;> rw [e] at hq <;> simpa using hq
          rw [b4 q hqo, y3 q hqo, ho3 q hqo]
          congr 1
          apply Finset.sum_congr rfl
          intro e he
          rw [Finset.mem_range] at he
          rw [m3 q e hqo he, ht.1, mul_comm]
      · rw [b3, y1]
        exact ho1
  · cases h

end

end Lemmas
