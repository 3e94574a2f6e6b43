import Verif.Props.Onnx

/-!
C101, C102: a convolutional network that is loaded as it should be, and graphs that are not.
-/

namespace Props

open Model Spec Lemmas

/-! ### A network that satisfies the assumptions -/

/-- A convolution with a kernel of size 2 and stride 1. -/
def onnxConvSpec : OnnxPool := ⟨[2, 2], .explicit [0, 0] [0, 0], some [1, 1], some [1, 1]⟩

/-- A pooling with a window of size 2 and stride 2. -/
def onnxPoolSpec : OnnxPool := ⟨[2, 2], .explicitOnnxPool [0, 0] [0, 0] false, some [2, 2], none⟩

/-- Source, convolution, ReLU, pooling, flattening, product with a matrix and addition of a bias; the constants come first, as in the graphs of tract. -/
def onnxNet : OnnxGraph ℤ :=
  { nodes := [
      ⟨['x'], .source [1, 1, 3, 3], [], [[1, 1, 3, 3]]⟩,
      ⟨['f'], .const ⟨[1, 1, 2, 2], [1, -1, 2, 0]⟩, [], [[1, 1, 2, 2]]⟩,
      ⟨['b'], .const ⟨[1], [3]⟩, [], [[1]]⟩,
      ⟨['/', 'C', 'o', 'n', 'v'], .conv onnxConvSpec 1, [(0, 0), (1, 0), (2, 0)], [[1, 1, 2, 2]]⟩,
      ⟨['z'], .const ⟨[1, 1, 1, 1], [0]⟩, [], [[1, 1, 1, 1]]⟩,
      ⟨['/', 'R', 'e', 'l', 'u'], .binary .max, [(3, 0), (4, 0)], [[1, 1, 2, 2]]⟩,
      ⟨['/', 'M', 'a', 'x', 'P', 'o', 'o', 'l'], .maxPool onnxPoolSpec, [(5, 0)], [[1, 1, 1, 1]]⟩,
      ⟨['/', 'F', 'l', 'a', 't', 't', 'e', 'n'], .reshape 1 [1, 1, 1] [1], [(6, 0)], [[1, 1]]⟩,
      ⟨['w'], .const ⟨[1, 2], [5, -7]⟩, [], [[1, 2]]⟩,
      ⟨['/', 'M', 'a', 't', 'M', 'u', 'l'], .einsum 1 true, [(7, 0), (8, 0)], [[1, 2]]⟩,
      ⟨['c'], .const ⟨[1, 2], [1, 2]⟩, [], [[1, 2]]⟩,
      ⟨['/', 'A', 'd', 'd'], .binary .add, [(10, 0), (9, 0)], [[1, 2]]⟩]
    order := [0, 3, 5, 6, 7, 9, 11]
    outputs := [(11, 0)] }

/-- Its input. -/
def onnxNetInput : Tensor ℤ := ⟨[1, 1, 3, 3], [1, 2, 3, 4, 5, 6, 7, 8, 9]⟩

/-- The values of its nodes. -/
def onnxNetVal (i : ℕ) : Tensor ℤ :=
  [onnxNetInput, ⟨[1, 1, 2, 2], [1, -1, 2, 0]⟩, ⟨[1], [3]⟩, ⟨[1, 1, 2, 2], [10, 12, 16, 18]⟩, ⟨[1, 1, 1, 1], [0]⟩, ⟨[1, 1, 2, 2], [10, 12, 16, 18]⟩,
    ⟨[1, 1, 1, 1], [18]⟩, ⟨[1, 1], [18]⟩, ⟨[1, 2], [5, -7]⟩, ⟨[1, 2], [90, -126]⟩, ⟨[1, 2], [1, 2]⟩, ⟨[1, 2], [91, -124]⟩].getD i ⟨[0], []⟩

theorem inRange4 {a b c d i j k l : ℕ} (h : InRange [a, b, c, d] [i, j, k, l]) : i < a ∧ j < b ∧ k < c ∧ l < d := by
  simp only [inRange_cons_cons] at h
  exact ⟨h.1, h.2.1, h.2.2.1, h.2.2.2.1⟩

theorem onnxNet_conv : IsConvolution onnxConvSpec 1 (onnxNetVal 0) (onnxNetVal 1) (onnxNetVal 2) (onnxNetVal 3) := by
  intro p hp
  obtain rfl := Option.some.inj hp
  refine ⟨1, 1, 3, 3, 1, 1, 2, 2, rfl, rfl, rfl, rfl, rfl, rfl, Or.inl rfl, rfl, ?_⟩
  intro m u r t h
  obtain ⟨h1, h2, h3, h4⟩ := inRange4 (a := 1) (b := 1) (c := 2) (d := 2) h
  interval_cases m; interval_cases u; interval_cases r <;> interval_cases t <;> decide +kernel

theorem onnxNet_relu : IsBinary max (onnxNetVal 3) (onnxNetVal 4) (onnxNetVal 5) := by
  refine ⟨rfl, rfl, ?_⟩
  intro c hc
  change InRange [1, 1, 2, 2] c at hc
  obtain ⟨i, cs, rfl, h1, hc⟩ := (inRange_cons _ _ _).1 hc
  obtain ⟨j, cs, rfl, h2, hc⟩ := (inRange_cons _ _ _).1 hc
  obtain ⟨k, cs, rfl, h3, hc⟩ := (inRange_cons _ _ _).1 hc
  obtain ⟨l, cs, rfl, h4, hc⟩ := (inRange_cons _ _ _).1 hc
  rw [inRange_nil] at hc
  subst hc
  interval_cases i; interval_cases j; interval_cases k <;> interval_cases l <;> decide +kernel

theorem onnxNet_pool : IsMaxPool onnxPoolSpec (onnxNetVal 5) (onnxNetVal 6) := by
  intro p hp
  obtain rfl := Option.some.inj hp
  refine ⟨[1, 1], 2, 2, 2, 2, rfl, rfl, rfl, rfl, rfl, ?_⟩
  intro q i j hq h
  match q, hq with
  | [a, b], _ =>
    obtain ⟨h1, h2, h3, h4⟩ := inRange4 (a := 1) (b := 1) (c := 1) (d := 1) h
    interval_cases a; interval_cases b; interval_cases i; interval_cases j
    constructor
    · exact ⟨1, 1, 1, 1, by decide, by decide, rfl, rfl, by decide, by decide, by decide +kernel⟩
    · rintro v ⟨a, b, r, t, ha, hb, hr, ht, h1, h2, rfl⟩
      interval_cases r <;> interval_cases t <;> decide +kernel

theorem onnxNet_product : IsProduct true (onnxNetVal 7) (onnxNetVal 8) (onnxNetVal 9) := by
  refine ⟨2, Or.inr rfl, ⟨[1], rfl, rfl⟩, ?_⟩
  intro j hj
  interval_cases j <;> decide +kernel

theorem onnxNet_add : IsBinary (· + ·) (onnxNetVal 10) (onnxNetVal 9) (onnxNetVal 11) := by
  refine ⟨rfl, rfl, ?_⟩
  intro c hc
  change InRange [1, 2] c at hc
  obtain ⟨i, cs, rfl, h1, hc⟩ := (inRange_cons _ _ _).1 hc
  obtain ⟨j, cs, rfl, h2, hc⟩ := (inRange_cons _ _ _).1 hc
  rw [inRange_nil] at hc
  subst hc
  interval_cases i; interval_cases j <;> decide +kernel

theorem onnxNet_values : OnnxValues onnxNet onnxNetInput onnxNetVal := by
  have hlt : ∀ id n, onnxNet.nodes[id]? = some n → id < 12 := fun id n h => (List.getElem?_eq_some_iff.1 h).1
  constructor
  · rintro src ids h
    have : src = 0 := by injection h with h; exact h.symm
    rw [this]; rfl
  · intro id n shape hn hop
    have := hlt id n hn
    interval_cases id <;> obtain rfl := Option.some.inj hn <;> first | (cases hop; done) | (injection hop with hop)
  · intro id n hn hop
    have := hlt id n hn
    interval_cases id <;> obtain rfl := Option.some.inj hn
    · exact absurd rfl (hop _)
    · rfl
    · rfl
    · exact onnxNet_conv
    · rfl
    · exact onnxNet_relu
    · exact onnxNet_pool
    · exact ⟨[1], [], rfl, rfl, rfl, rfl⟩
    · rfl
    · exact onnxNet_product
    · rfl
    · exact onnxNet_add
  · intro id n hn
    have := hlt id n hn
    interval_cases id <;> obtain rfl := Option.some.inj hn <;> rfl
  · intro id
    rcases lt_or_ge id 12 with h | h
    · interval_cases id <;> rfl
    · have : onnxNetVal id = ⟨[0], []⟩ := by
        unfold onnxNetVal
        rw [List.getD_eq_default _ _ h]
      rw [this]; rfl

theorem onnxNet_granted : ∀ id ∈ onnxNet.order.tail, ∀ n, onnxNet.nodes[id]? = some n → TakenForGranted onnxNet n := by
  intro id hid n hn
  change id ∈ [3, 5, 6, 7, 9, 11] at hid
  simp only [List.mem_cons, List.not_mem_nil, or_false] at hid
  rcases hid with rfl | rfl | rfl | rfl | rfl | rfl <;> obtain rfl := Option.some.inj hn
  · refine ⟨fun h => absurd h (by decide +kernel), fun h => absurd h (by decide +kernel), nofun, nofun, nofun, nofun, ?_⟩
    intro spec groups _ x f b hin t ht
    injection hin with h1 hin
    injection hin with h2 hin
    injection hin with h3 hin
    subst h3
    injection ht with ht
    injection ht with ht
    rw [← ht]
    exact nofun
  · exact ⟨fun _ => ⟨rfl, (3, 0), 0, 4, ⟨[1, 1, 1, 1], [0]⟩, Or.inl rfl, rfl, rfl, by decide, rfl⟩, fun h => absurd h (by decide +kernel), nofun, nofun, nofun, nofun,
      nofun⟩
  · refine ⟨fun h => absurd h (by decide +kernel), fun h => absurd h (by decide +kernel), nofun, ?_, nofun, nofun, nofun⟩
    intro spec hs
    injection hs with hs
    rw [← hs]
    exact ⟨nofun, rfl⟩
  · refine ⟨fun h => absurd h (by decide +kernel), fun _ => ⟨1, [1, 1, 1], [1], rfl, rfl⟩, ?_, nofun, nofun, nofun, nofun⟩
    intro start current new hs i hi
    injection hs with h1 h2 h3
    injection hi with hi
    subst h1 h2 h3 hi
    exact ⟨_, [1], rfl, rfl, rfl, Or.inr rfl⟩
  · refine ⟨fun h => absurd h (by decide +kernel), fun h => absurd h (by decide +kernel), nofun, nofun, ?_, ?_, nofun⟩
    · intro k hk i j hin
      injection hk with hk
      injection hin with h1 hin
      injection hin with h2 hin
      subst hk h1 h2
      exact ⟨_, 1, 2, rfl, rfl, by decide⟩
    · intro k b hk i j hin
      injection hk with hk
      injection hin with h1 hin
      injection hin with h2 hin
      subst hk h1 h2
      exact ⟨by decide, rfl, rfl⟩
  · exact ⟨fun h => absurd h (by decide +kernel), fun h => absurd h (by decide +kernel), nofun, nofun, nofun, nofun, nofun⟩

theorem onnxNet_starts : StartsAtSource onnxNet := by
  intro src first ids h
  injection h with h1 h
  injection h with h2 h
  subst h1 h2
  refine ⟨_, rfl, by decide, ?_⟩
  intro i hi
  change i ∈ [(0, 0), (1, 0), (2, 0)] at hi
  simp only [List.mem_cons, List.not_mem_nil, or_false] at hi
  rcases hi with rfl | rfl | rfl
  · exact Or.inl rfl
  · exact Or.inr rfl
  · exact Or.inr rfl

/-- The network is loaded, the loaded model runs, and all the assumptions of `C101_loaded_partial` hold. -/
example : OnnxValues onnxNet onnxNetInput onnxNetVal ∧ StartsAtSource onnxNet ∧
    (∀ id ∈ onnxNet.order.tail, ∀ n, onnxNet.nodes[id]? = some n → TakenForGranted onnxNet n) ∧ onnxNet.outputs.Nodup ∧
    (loadOnnx onnxKeys onnxNet).map (·.1) = some [1, 3, 3] ∧
    ((loadOnnx onnxKeys onnxNet).bind fun r => (runModel OnnxLayer.eval r.2 [⟨[1, 3, 3], onnxNetInput.data⟩]).map (·.2)) = some [⟨[2], [91, -124]⟩] ∧
    onnxNetVal 11 = ⟨[1, 2], [91, -124]⟩ :=
  ⟨onnxNet_values, onnxNet_starts, onnxNet_granted, by decide, by decide +kernel, by decide +kernel, rfl⟩

/-! ### Graphs that are loaded to something else -/

/-- The graph has one output and the values `val`, it is loaded, the loaded model runs on the same input, and its result has other entries than the output of the graph. -/
def WrongLoad (m : OnnxGraph ℤ) (x : Tensor ℤ) (val : ℕ → Tensor ℤ) : Prop :=
  OnnxValues m x val ∧ StartsAtSource m ∧ ∃ o shape g x' t v, m.outputs = [o] ∧ loadOnnx onnxKeys m = some (shape, g) ∧ x'.data = x.data ∧ x'.shape = shape ∧
    runModel OnnxLayer.eval g [x'] = some (t, [v]) ∧ (val o.1).data ≠ v.data

theorem wrongLoad_of {m : OnnxGraph ℤ} {x : Tensor ℤ} {val : ℕ → Tensor ℤ} (hv : OnnxValues m x val) (hs : StartsAtSource m) (o : ℕ × ℕ) (ho : m.outputs = [o])
    (shape : List ℕ) (v : Tensor ℤ)
    (h : ((loadOnnx onnxKeys m).bind fun r => (runModel OnnxLayer.eval r.2 [⟨shape, x.data⟩]).map fun q => (r.1, q.2)) = some (shape, [v]))
    (hne : (val o.1).data ≠ v.data) : WrongLoad m x val := by
  refine ⟨hv, hs, o, shape, ?_⟩
  obtain ⟨⟨sh, g⟩, hl, h⟩ := Option.bind_eq_some_iff.1 h
  obtain ⟨⟨t, outs⟩, hr, h⟩ := Option.map_eq_some_iff.1 h
  simp only [Prod.mk.injEq] at h
  obtain ⟨rfl, rfl⟩ := h
  exact ⟨g, ⟨sh, x.data⟩, t, v, ho, hl, rfl, rfl, hr, hne⟩

/-- A graph of a source, one constant and one node that takes both. -/
def onnxTwo (name : List Char) (op : OnnxOp ℤ) (source const out : List ℕ) (w : List ℤ) : OnnxGraph ℤ :=
  { nodes := [⟨['x'], .source source, [], [source]⟩, ⟨['w'], .const ⟨const, w⟩, [], [const]⟩, ⟨name, op, [(0, 0), (1, 0)], [out]⟩]
    order := [0, 2]
    outputs := [(2, 0)] }

/-- Its values. -/
def onnxTwoVal (x w y : Tensor ℤ) (i : ℕ) : Tensor ℤ := [x, w, y].getD i ⟨[0], []⟩

theorem onnxTwo_values {name : List Char} {op : OnnxOp ℤ} {source const out : List ℕ} {w x y : List ℤ} (hx : x.length = source.prod) (hw : w.length = const.prod)
    (hy : y.length = out.prod) (hop : Means op [⟨source, x⟩, ⟨const, w⟩] ⟨out, y⟩) :
    OnnxValues (onnxTwo name op source const out w) ⟨source, x⟩ (onnxTwoVal ⟨source, x⟩ ⟨const, w⟩ ⟨out, y⟩) := by
  have hlt : ∀ id n, (onnxTwo name op source const out w).nodes[id]? = some n → id < 3 := fun id n h => (List.getElem?_eq_some_iff.1 h).1
  constructor
  · rintro src ids h
    have : src = 0 := by injection h with h; exact h.symm
    rw [this]; rfl
  · intro id n shape hn hop'
    have := hlt id n hn
    interval_cases id <;> obtain rfl := Option.some.inj hn
    · injection hop' with hop'
    · cases hop'
    · simp only at hop'
      subst hop'
      exact absurd hop (by simp [Means])
  · intro id n hn hop'
    have := hlt id n hn
    interval_cases id <;> obtain rfl := Option.some.inj hn
    · exact absurd rfl (hop' _)
    · rfl
    · exact hop
  · intro id n hn
    have := hlt id n hn
    interval_cases id <;> obtain rfl := Option.some.inj hn <;> rfl
  · intro id
    rcases lt_or_ge id 3 with h | h
    · interval_cases id
      exacts [hx, hw, hy]
    · have : onnxTwoVal ⟨source, x⟩ ⟨const, w⟩ ⟨out, y⟩ id = ⟨[0], []⟩ := by
        unfold onnxTwoVal
        rw [List.getD_eq_default _ _ h]
      rw [this]; rfl

theorem onnxTwo_starts (name : List Char) (op : OnnxOp ℤ) (source const out : List ℕ) (w : List ℤ) : StartsAtSource (onnxTwo name op source const out w) := by
  intro src first ids h
  injection h with h1 h
  injection h with h2 h
  subst h1 h2
  refine ⟨_, rfl, by simp, ?_⟩
  intro i hi
  simp only [List.mem_cons, List.not_mem_nil, or_false] at hi
  rcases hi with rfl | rfl
  · exact Or.inl rfl
  · exact Or.inr rfl

/-- A product of a row vector with a square matrix that has one row per input: the loader keeps the matrix as it is, as its second dimension is the number of inputs, and the
model multiplies with the transposed matrix. -/
theorem C101_square_matrix_false :
    WrongLoad (onnxTwo ['M', 'a', 't', 'M', 'u', 'l'] (.einsum 1 true) [1, 2] [2, 2] [1, 2] [0, 1, 0, 0]) ⟨[1, 2], [1, 0]⟩
      (onnxTwoVal ⟨[1, 2], [1, 0]⟩ ⟨[2, 2], [0, 1, 0, 0]⟩ ⟨[1, 2], [0, 1]⟩) := by
  refine wrongLoad_of (onnxTwo_values rfl rfl rfl ?_) (onnxTwo_starts _ _ _ _ _ _) (2, 0) rfl [2] ⟨[2], [0, 0]⟩ (by decide +kernel) (by decide)
  refine ⟨2, Or.inr rfl, ⟨[2], rfl, rfl⟩, ?_⟩
  intro j hj
  interval_cases j <;> decide +kernel

/-- A node named after ReLU is loaded as ReLU whatever the constant is: here the maximum with 6. -/
theorem C101_relu_constant_false :
    WrongLoad (onnxTwo ['/', 'R', 'e', 'l', 'u'] (.binary .max) [1, 2] [1, 1] [1, 2] [6]) ⟨[1, 2], [1, 9]⟩ (onnxTwoVal ⟨[1, 2], [1, 9]⟩ ⟨[1, 1], [6]⟩ ⟨[1, 2], [6, 9]⟩) := by
  refine wrongLoad_of (onnxTwo_values rfl rfl rfl ?_) (onnxTwo_starts _ _ _ _ _ _) (2, 0) rfl [2] ⟨[2], [1, 9]⟩ (by decide +kernel) (by decide)
  refine ⟨rfl, rfl, ?_⟩
  intro c hc
  change InRange [1, 2] c at hc
  obtain ⟨i, cs, rfl, h1, hc⟩ := (inRange_cons _ _ _).1 hc
  obtain ⟨j, cs, rfl, h2, hc⟩ := (inRange_cons _ _ _).1 hc
  rw [inRange_nil] at hc
  subst hc
  interval_cases i; interval_cases j <;> decide +kernel

/-- A node named after ReLU is loaded as ReLU whatever its operation is: here the product with 3 that a leaky ReLU may end with. -/
theorem C101_relu_operation_false :
    WrongLoad (onnxTwo ['/', 'L', 'e', 'a', 'k', 'y', 'R', 'e', 'l', 'u', '/', 'M', 'u', 'l'] (.binary .mul) [1, 2] [1, 1] [1, 2] [3]) ⟨[1, 2], [1, -9]⟩
      (onnxTwoVal ⟨[1, 2], [1, -9]⟩ ⟨[1, 1], [3]⟩ ⟨[1, 2], [3, -27]⟩) := by
  refine wrongLoad_of (onnxTwo_values rfl rfl rfl ?_) (onnxTwo_starts _ _ _ _ _ _) (2, 0) rfl [2] ⟨[2], [1, 0]⟩ (by decide +kernel) (by decide)
  refine ⟨rfl, rfl, ?_⟩
  intro c hc
  change InRange [1, 2] c at hc
  obtain ⟨i, cs, rfl, h1, hc⟩ := (inRange_cons _ _ _).1 hc
  obtain ⟨j, cs, rfl, h2, hc⟩ := (inRange_cons _ _ _).1 hc
  rw [inRange_nil] at hc
  subst hc
  interval_cases i; interval_cases j <;> decide +kernel

/-- A graph of a source and one node that takes it. -/
def onnxOne (name : List Char) (op : OnnxOp ℤ) (source out : List ℕ) : OnnxGraph ℤ :=
  { nodes := [⟨['x'], .source source, [], [source]⟩, ⟨name, op, [(0, 0)], [out]⟩]
    order := [0, 1]
    outputs := [(1, 0)] }

/-- Its values. -/
def onnxOneVal (x y : Tensor ℤ) (i : ℕ) : Tensor ℤ := [x, y].getD i ⟨[0], []⟩

theorem onnxOne_values {name : List Char} {op : OnnxOp ℤ} {source out : List ℕ} {x y : List ℤ} (hx : x.length = source.prod) (hy : y.length = out.prod)
    (hop : Means op [⟨source, x⟩] ⟨out, y⟩) : OnnxValues (onnxOne name op source out) ⟨source, x⟩ (onnxOneVal ⟨source, x⟩ ⟨out, y⟩) := by
  have hlt : ∀ id n, (onnxOne name op source out).nodes[id]? = some n → id < 2 := fun id n h => (List.getElem?_eq_some_iff.1 h).1
  constructor
  · rintro src ids h
    have : src = 0 := by injection h with h; exact h.symm
    rw [this]; rfl
  · intro id n shape hn hop'
    have := hlt id n hn
    interval_cases id <;> obtain rfl := Option.some.inj hn
    · injection hop' with hop'
    · simp only at hop'
      subst hop'
      exact absurd hop (by simp [Means])
  · intro id n hn hop'
    have := hlt id n hn
    interval_cases id <;> obtain rfl := Option.some.inj hn
    · exact absurd rfl (hop' _)
    · exact hop
  · intro id n hn
    have := hlt id n hn
    interval_cases id <;> obtain rfl := Option.some.inj hn <;> rfl
  · intro id
    rcases lt_or_ge id 2 with h | h
    · interval_cases id
      exacts [hx, hy]
    · have : onnxOneVal ⟨source, x⟩ ⟨out, y⟩ id = ⟨[0], []⟩ := by
        unfold onnxOneVal
        rw [List.getD_eq_default _ _ h]
      rw [this]; rfl

theorem onnxOne_starts (name : List Char) (op : OnnxOp ℤ) (source out : List ℕ) : StartsAtSource (onnxOne name op source out) := by
  intro src first ids h
  injection h with h1 h
  injection h with h2 h
  subst h1 h2
  refine ⟨_, rfl, by simp, ?_⟩
  intro i hi
  simp only [List.mem_cons, List.not_mem_nil, or_false] at hi
  exact Or.inl hi

/-- A max pooling without strides moves its window by one, but is loaded as one that moves it by two. -/
theorem C101_pool_strides_false :
    WrongLoad (onnxOne ['/', 'M', 'a', 'x', 'P', 'o', 'o', 'l'] (.maxPool ⟨[2, 2], .valid, none, none⟩) [1, 1, 2, 3] [1, 1, 1, 2]) ⟨[1, 1, 2, 3], [1, 2, 3, 4, 5, 6]⟩
      (onnxOneVal ⟨[1, 1, 2, 3], [1, 2, 3, 4, 5, 6]⟩ ⟨[1, 1, 1, 2], [5, 6]⟩) := by
  refine wrongLoad_of (onnxOne_values rfl rfl ?_) (onnxOne_starts _ _ _ _) (1, 0) rfl [1, 2, 3] ⟨[1, 1, 1], [5]⟩ (by decide +kernel) (by decide)
  intro p hp
  obtain rfl := Option.some.inj hp
  refine ⟨[1, 1], 2, 3, 2, 2, rfl, rfl, rfl, rfl, rfl, ?_⟩
  intro q i j hq h
  match q, hq with
  | [a, b], _ =>
    obtain ⟨h1, h2, h3, h4⟩ := inRange4 (a := 1) (b := 1) (c := 1) (d := 2) h
    interval_cases a; interval_cases b; interval_cases i; interval_cases j
    · constructor
      · exact ⟨1, 1, 1, 1, by decide, by decide, rfl, rfl, by decide, by decide, by decide +kernel⟩
      · rintro v ⟨a, b, r, t, ha, hb, hr, ht, h1, h2, rfl⟩
        have ht' : t = b := by simpa using ht
        subst ht'
        interval_cases r <;> interval_cases t <;> decide +kernel
    · constructor
      · exact ⟨1, 1, 1, 2, by decide, by decide, rfl, rfl, by decide, by decide, by decide +kernel⟩
      · rintro v ⟨a, b, r, t, ha, hb, hr, ht, h1, h2, rfl⟩
        interval_cases r <;> interval_cases t <;> decide +kernel

/-- A max pooling that rounds the number of windows up is loaded as one that rounds it down. -/
theorem C101_pool_ceil_false :
    WrongLoad (onnxOne ['/', 'M', 'a', 'x', 'P', 'o', 'o', 'l'] (.maxPool ⟨[2, 2], .explicitOnnxPool [0, 0] [0, 0] true, some [2, 2], none⟩) [1, 1, 2, 3] [1, 1, 1, 2])
      ⟨[1, 1, 2, 3], [1, 2, 3, 4, 5, 6]⟩ (onnxOneVal ⟨[1, 1, 2, 3], [1, 2, 3, 4, 5, 6]⟩ ⟨[1, 1, 1, 2], [5, 6]⟩) := by
  refine wrongLoad_of (onnxOne_values rfl rfl ?_) (onnxOne_starts _ _ _ _) (1, 0) rfl [1, 2, 3] ⟨[1, 1, 1], [5]⟩ (by decide +kernel) (by decide)
  intro p hp
  obtain rfl := Option.some.inj hp
  refine ⟨[1, 1], 2, 3, 2, 2, rfl, rfl, rfl, rfl, rfl, ?_⟩
  intro q i j hq h
  match q, hq with
  | [a, b], _ =>
    obtain ⟨h1, h2, h3, h4⟩ := inRange4 (a := 1) (b := 1) (c := 1) (d := 2) h
    interval_cases a; interval_cases b; interval_cases i; interval_cases j
    · constructor
      · exact ⟨1, 1, 1, 1, by decide, by decide, rfl, rfl, by decide, by decide, by decide +kernel⟩
      · rintro v ⟨a, b, r, t, ha, hb, hr, ht, h1, h2, rfl⟩
        have ht' : t = b := by simpa using ht
        subst ht'
        interval_cases r <;> interval_cases t <;> decide +kernel
    · constructor
      · exact ⟨1, 0, 1, 2, by decide, by decide, rfl, rfl, by decide, by decide, by decide +kernel⟩
      · rintro v ⟨a, b, r, t, ha, hb, hr, ht, h1, h2, rfl⟩
        have ht' : t = 2 := by
          have : t + 0 = 1 * 2 + b * 1 := ht
          omega
        subst ht'
        interval_cases r <;> decide +kernel

/-- A node named after flattening is loaded as that whatever its operation is: here one that negates the entries. -/
theorem C101_flatten_operation_false :
    WrongLoad (onnxOne ['/', 'F', 'l', 'a', 't', 't', 'e', 'n'] (.other fun xs => ⟨[1, 2], (xs.headD ⟨[], []⟩).data.map (- ·)⟩) [1, 2] [1, 2]) ⟨[1, 2], [3, 4]⟩
      (onnxOneVal ⟨[1, 2], [3, 4]⟩ ⟨[1, 2], [-3, -4]⟩) :=
  wrongLoad_of (onnxOne_values rfl rfl rfl) (onnxOne_starts _ _ _ _) (1, 0) rfl [2] ⟨[2], [3, 4]⟩ (by decide +kernel) (by decide)

/-- A convolution whose bias is one number for all channels, as tract makes it when all biases are equal. -/
def onnxScalarBias : OnnxGraph ℤ :=
  { nodes := [⟨['x'], .source [1, 1, 2, 2], [], [[1, 1, 2, 2]]⟩, ⟨['f'], .const ⟨[1, 1, 2, 2], [1, 1, 1, 1]⟩, [], [[1, 1, 2, 2]]⟩, ⟨['b'], .const ⟨[], [7]⟩, [], [[]]⟩,
      ⟨['C', 'o', 'n', 'v'], .conv onnxConvSpec 1, [(0, 0), (1, 0), (2, 0)], [[1, 1, 1, 1]]⟩]
    order := [0, 3]
    outputs := [(3, 0)] }

/-- Its values. -/
def onnxScalarBiasVal (i : ℕ) : Tensor ℤ :=
  [⟨[1, 1, 2, 2], [1, 2, 3, 4]⟩, ⟨[1, 1, 2, 2], [1, 1, 1, 1]⟩, ⟨[], [7]⟩, ⟨[1, 1, 1, 1], [17]⟩].getD i ⟨[0], []⟩

/-- The loader takes a bias that is one number for a missing bias, and the model adds nothing. -/
theorem C101_scalar_bias_false : WrongLoad onnxScalarBias ⟨[1, 1, 2, 2], [1, 2, 3, 4]⟩ onnxScalarBiasVal := by
  have hlt : ∀ id n, onnxScalarBias.nodes[id]? = some n → id < 4 := fun id n h => (List.getElem?_eq_some_iff.1 h).1
  refine wrongLoad_of ?_ ?_ (3, 0) rfl [1, 2, 2] ⟨[1, 1, 1, 1], [10]⟩ (by decide +kernel) (by decide)
  · constructor
    · rintro src ids h
      have : src = 0 := by injection h with h; exact h.symm
      rw [this]; rfl
    · intro id n shape hn hop
      have := hlt id n hn
      interval_cases id <;> obtain rfl := Option.some.inj hn <;> first | (cases hop; done) | (injection hop with hop)
    · intro id n hn hop
      have := hlt id n hn
      interval_cases id <;> obtain rfl := Option.some.inj hn
      · exact absurd rfl (hop _)
      · rfl
      · rfl
      · intro p hp
        obtain rfl := Option.some.inj hp
        refine ⟨1, 1, 2, 2, 1, 1, 2, 2, rfl, rfl, rfl, rfl, rfl, rfl, Or.inr rfl, rfl, ?_⟩
        intro m u r t h
        obtain ⟨h1, h2, h3, h4⟩ := inRange4 (a := 1) (b := 1) (c := 1) (d := 1) h
        interval_cases m; interval_cases u; interval_cases r; interval_cases t; decide +kernel
    · intro id n hn
      have := hlt id n hn
      interval_cases id <;> obtain rfl := Option.some.inj hn <;> rfl
    · intro id
      rcases lt_or_ge id 4 with h | h
      · interval_cases id <;> rfl
      · have : onnxScalarBiasVal id = ⟨[0], []⟩ := by
          unfold onnxScalarBiasVal
          rw [List.getD_eq_default _ _ h]
        rw [this]; rfl
  · intro src first ids h
    injection h with h1 h
    injection h with h2 h
    subst h1 h2
    refine ⟨_, rfl, by decide, ?_⟩
    intro i hi
    change i ∈ [(0, 0), (1, 0), (2, 0)] at hi
    simp only [List.mem_cons, List.not_mem_nil, or_false] at hi
    rcases hi with rfl | rfl | rfl
    · exact Or.inl rfl
    · exact Or.inr rfl
    · exact Or.inr rfl

/-! ### C102 -/

/-- No node of the network above has two keys in its name, so it meets the assumption of `C102_unambiguous_partial`. -/
example : ∀ id ∈ onnxNet.order, ∀ n, onnxNet.nodes[id]? = some n → ∀ k ∈ onnxKeys, ∀ k' ∈ onnxKeys, k.1 <:+: n.name → k'.1 <:+: n.name → k.2 = k'.2 := by
  intro id hid n hn
  change id ∈ [0, 3, 5, 6, 7, 9, 11] at hid
  simp only [List.mem_cons, List.not_mem_nil, or_false] at hid
  rcases hid with rfl | rfl | rfl | rfl | rfl | rfl | rfl <;> obtain rfl := Option.some.inj hn <;> decide +kernel

/-- A pooling node whose name has two keys in it, with an image of four entries. -/
def onnxTwoKeys : OnnxGraph ℤ :=
  onnxOne ['/', 'F', 'l', 'a', 't', 't', 'e', 'n', '/', 'P', 'o', 'o', 'l'] (.maxPool ⟨[2, 2], .valid, some [2, 2], none⟩) [1, 1, 2, 2] [1, 1, 1, 1]

/-- C102 is false of the code: for a node whose name has two keys in it, the order of the hash map, which changes from run to run, decides which layer it becomes, and the two
models compute different results. -/
theorem C102_order_false : ∃ keys keys' g g', keys.Perm onnxKeys ∧ keys'.Perm onnxKeys ∧ loadOnnx keys onnxTwoKeys = some g ∧ loadOnnx keys' onnxTwoKeys = some g' ∧
    g.1 = [1, 2, 2] ∧ g'.1 = [1, 2, 2] ∧ (runModel OnnxLayer.eval g.2 [⟨[1, 2, 2], [1, 2, 3, 4]⟩]).map (·.2) = some [⟨[4], [1, 2, 3, 4]⟩] ∧
    (runModel OnnxLayer.eval g'.2 [⟨[1, 2, 2], [1, 2, 3, 4]⟩]).map (·.2) = some [⟨[1, 1, 1], [4]⟩] := by
  have h1 : ((loadOnnx onnxKeys onnxTwoKeys).bind fun g => (runModel OnnxLayer.eval g.2 [⟨[1, 2, 2], [1, 2, 3, 4]⟩]).map fun r => (g.1, r.2)) =
      some ([1, 2, 2], [⟨[4], [1, 2, 3, 4]⟩]) := by decide +kernel
  have h2 : ((loadOnnx onnxKeys.reverse onnxTwoKeys).bind fun g => (runModel OnnxLayer.eval g.2 [⟨[1, 2, 2], [1, 2, 3, 4]⟩]).map fun r => (g.1, r.2)) =
      some ([1, 2, 2], [⟨[1, 1, 1], [4]⟩]) := by decide +kernel
  obtain ⟨g, hg, h1⟩ := Option.bind_eq_some_iff.1 h1
  obtain ⟨g', hg', h2⟩ := Option.bind_eq_some_iff.1 h2
  obtain ⟨r, hr, h1⟩ := Option.map_eq_some_iff.1 h1
  obtain ⟨r', hr', h2⟩ := Option.map_eq_some_iff.1 h2
  simp only [Prod.mk.injEq] at h1 h2
  exact ⟨onnxKeys, onnxKeys.reverse, g, g', List.Perm.refl _, List.reverse_perm _, hg, hg', h1.1, h2.1, by rw [hr, Option.map_some, h1.2],
    by rw [hr', Option.map_some, h2.2]⟩

/-- The order may also decide whether the graph is loaded at all: a ReLU inside a block named after a convolution. -/
theorem C102_refused_false : ∃ keys keys' m, keys.Perm onnxKeys ∧ keys'.Perm onnxKeys ∧ (loadOnnx (R := ℤ) keys m).isSome = true ∧ loadOnnx keys' m = none :=
  ⟨onnxKeys.reverse, onnxKeys, onnxTwo ['C', 'o', 'n', 'v', 'B', 'l', 'o', 'c', 'k', '/', 'R', 'e', 'l', 'u'] (.binary .max) [1, 2] [1, 1] [1, 2] [0],
    List.reverse_perm _, List.Perm.refl _, by decide +kernel, by decide +kernel⟩

end Props
