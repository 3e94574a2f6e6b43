import Verif.Props.PadModel
import Verif.Props.NetworkConv

/-!
C99: an example.
-/

namespace Props

open Model Spec Lemmas

deriving instance DecidableEq for FftFilter
deriving instance DecidableEq for Conv
deriving instance DecidableEq for PadLayer

/-- A convolution, requantisation, ReLU, pooling, flatten and dense layer. -/
def padToy : Graph (PadLayer (Tensor ℤ × Tensor ℤ)) :=
  [(0, ⟨[⟨none, 0⟩], [[⟨some 1, 0⟩]], .conv (⟨[2, 1, 2, 2], [1, 0, -1, 2, 2, 1, 0, 1]⟩, ⟨[2], [2, -5]⟩)⟩),
   (1, ⟨[⟨some 0, 0⟩], [[⟨some 2, 0⟩]], .requant ⟨0, 2 ^ 24, 25, 6⟩⟩), (2, ⟨[⟨some 1, 0⟩], [[⟨some 3, 0⟩]], .relu⟩), (3, ⟨[⟨some 2, 0⟩], [[⟨some 4, 0⟩]], .pooling⟩),
   (4, ⟨[⟨some 3, 0⟩], [[⟨some 5, 0⟩]], .flatten⟩), (5, ⟨[⟨some 4, 0⟩], [[⟨none, 0⟩]], .dense ⟨⟨[3, 2], [1, -1, 2, 0, 3, 1]⟩, ⟨[3], [1, 0, -1]⟩, [3, 2]⟩⟩)]

theorem padToy_built : Spec.Built (fun _ _ => 1) 1 padToy := by
  have h₁ := Spec.Built.consecutive (numOutputs := fun (_ : PadLayer (Tensor ℤ × Tensor ℤ)) _ => 1) (numInputs := 1) .empty (prev := none)
    (op := .conv (⟨[2, 1, 2, 2], [1, 0, -1, 2, 2, 1, 0, 1]⟩, ⟨[2], [2, -5]⟩)) (id := 0) rfl
  have h₂ := Spec.Built.consecutive h₁ (prev := some 0) (op := .requant ⟨0, 2 ^ 24, 25, 6⟩) (id := 1) rfl
  have h₃ := Spec.Built.consecutive h₂ (prev := some 1) (op := .relu) (id := 2) rfl
  have h₄ := Spec.Built.consecutive h₃ (prev := some 2) (op := .pooling) (id := 3) rfl
  have h₅ := Spec.Built.consecutive h₄ (prev := some 3) (op := .flatten) (id := 4) rfl
  have h₆ := Spec.Built.consecutive h₅ (prev := some 4) (op := .dense ⟨⟨[3, 2], [1, -1, 2, 0, 3, 1]⟩, ⟨[3], [1, 0, -1]⟩, [3, 2]⟩) (id := 5) rfl
  exact Spec.Built.route h₆ (edges := none) rfl

/-- The padded model. -/
def padToyPadded : Graph (PadLayer Conv) :=
  [(0, ⟨[⟨none, 0⟩], [[⟨some 1, 0⟩]], .conv ⟨⟨[2, 1, 4, 4], [2, 1, 2, 2], [1, 0, -1, 2, 2, 1, 0, 1]⟩, [2, -5], [2, 1, 2, 2]⟩⟩),
   (1, ⟨[⟨some 0, 0⟩], [[⟨some 2, 0⟩]], .requant ⟨0, 2 ^ 24, 25, 6⟩⟩), (2, ⟨[⟨some 1, 0⟩], [[⟨some 3, 0⟩]], .relu⟩), (3, ⟨[⟨some 2, 0⟩], [[⟨some 4, 0⟩]], .pooling⟩),
   (4, ⟨[⟨some 3, 0⟩], [[⟨some 5, 0⟩]], .flatten⟩),
   (5, ⟨[⟨some 4, 0⟩], [[⟨none, 0⟩]], .dense ⟨⟨[4, 8], [1, 0, 0, 0, -1, 0, 0, 0, 2, 0, 0, 0, 0, 0, 0, 0, 3, 0, 0, 0, 1, 0, 0, 0, 0, 0, 0, 0, 0, 0, 0, 0]⟩, ⟨[4], [1, 0, -1, 0]⟩, [3, 2]⟩⟩)]

/-- The recorded shapes. -/
def padToyInfos : List (ℕ × List PadShape) :=
  [(0, [⟨[2, 3, 3], [2, 4, 4], none⟩]), (1, [⟨[2, 3, 3], [2, 4, 4], none⟩]), (2, [⟨[2, 3, 3], [2, 4, 4], none⟩]), (3, [⟨[2, 1, 1], [2, 2, 2], none⟩]),
   (4, [⟨[2, 1, 1], [2, 2, 2], some (.conv [2, 1, 1] [2, 2, 2])⟩]), (5, [⟨[3], [4], none⟩])]

theorem padToy_pads : padModel padToy [[1, 4, 4]] = some (padToyPadded, padToyInfos) := by decide +kernel

/-- The inference without padding. -/
def padToyTrace : List (ℕ × List (Tensor ℤ)) :=
  [(0, [⟨[2, 3, 3], [5, 2, -1, 3, 5, 4, 0, 2, 1, -3, -6, -5, -4, -1, -3, -7, -4, -3]⟩]), (1, [⟨[2, 3, 3], [3, 1, 0, 2, 3, 2, 0, 1, 1, -1, -3, -2, -2, 0, -1, -3, -2, -1]⟩]),
   (2, [⟨[2, 3, 3], [3, 1, 0, 2, 3, 2, 0, 1, 1, 0, 0, 0, 0, 0, 0, 0, 0, 0]⟩]), (3, [⟨[2, 1, 1], [3, 0]⟩]), (4, [⟨[2], [3, 0]⟩]), (5, [⟨[3], [4, 6, 8]⟩])]

theorem padToy_runs : runTrace (unpaddedEval 4) padToy [cnnInput] = some padToyTrace := by decide +kernel

theorem root_786433 : IsPrimitiveRoot (462518 : ZMod 786433) (2 ^ 5) := by
  rw [IsPrimitiveRoot.iff (by decide)]
  refine ⟨by decide +kernel, fun l h₀ h₁ => ?_⟩
  have h₂ : l < 32 := h₁
  interval_cases l <;> decide +kernel

theorem padToy_layers : ∀ b m, (b, m) ∈ padToy → LayerOk m.op := by
  intro b m hm
  simp only [padToy, List.mem_cons, Prod.mk.injEq, List.not_mem_nil, or_false] at hm
  rcases hm with ⟨rfl, rfl⟩ | ⟨rfl, rfl⟩ | ⟨rfl, rfl⟩ | ⟨rfl, rfl⟩ | ⟨rfl, rfl⟩ | ⟨rfl, rfl⟩
  · exact ⟨rfl, rfl, by decide⟩
  · trivial
  · trivial
  · trivial
  · trivial
  · exact ⟨3, 2, _, _, rfl, rfl, rfl⟩

theorem padToy_requant : ∀ b m q, (b, m) ∈ padToy → m.op = .requant q → ∀ e ∈ m.inputs, ∃ a n, e.node = some a ∧ (a, n) ∈ padToy ∧ Clears n.op := by
  intro b m q hm hq e he
  simp only [padToy, List.mem_cons, Prod.mk.injEq, List.not_mem_nil, or_false] at hm
  rcases hm with ⟨rfl, rfl⟩ | ⟨rfl, rfl⟩ | ⟨rfl, rfl⟩ | ⟨rfl, rfl⟩ | ⟨rfl, rfl⟩ | ⟨rfl, rfl⟩ <;> try cases hq
  simp only [List.mem_singleton] at he
  subst he
  exact ⟨0, _, rfl, List.mem_cons_self, trivial⟩

theorem padToy_input : ∀ (k : ℕ) (s : List ℕ), [[1, 4, 4]][k]? = some s → ∃ x x', [cnnInput][k]? = some x ∧ [cnnInput][k]? = some x' ∧ Padded ⟨s, s.map nextPow2, none⟩ x x' := by
  intro k s hs
  obtain rfl : k = 0 := by
    by_contra h
    rw [List.getElem?_eq_none (by simp; omega)] at hs
    cases hs
  obtain rfl : [1, 4, 4] = s := by simpa using hs
  refine ⟨cnnInput, cnnInput, rfl, rfl, ?_⟩
  have h4 : [1, 4, 4].map nextPow2 = [1, 4, 4] := by decide +kernel
  rw [h4]
  exact ⟨.cons le_rfl (.cons le_rfl (.cons le_rfl .nil)), rfl, rfl, .inl ⟨rfl, rfl, rfl⟩, fun _ _ => rfl⟩

theorem padToy_fits : ∀ b m, (b, m) ∈ padToy → ∀ e ∈ m.inputs, ∀ sd x, Carries ([[1, 4, 4]].map fun s => (⟨s, s.map nextPow2, none⟩ : PadShape)) (fun a => (mapGet a padToyInfos).getD []) e sd →
    Carries [cnnInput] (fun a => (mapGet a padToyTrace).getD []) e x → LayerFits 786433 5 m.op sd x := by
  intro b m hm e he sd x hsd hx
  simp only [padToy, List.mem_cons, Prod.mk.injEq, List.not_mem_nil, or_false] at hm
  rcases hm with ⟨rfl, rfl⟩ | ⟨rfl, rfl⟩ | ⟨rfl, rfl⟩ | ⟨rfl, rfl⟩ | ⟨rfl, rfl⟩ | ⟨rfl, rfl⟩
  · simp only [List.mem_singleton] at he
    subst he
    simp only [Carries, List.map_cons, List.map_nil, List.getElem?_cons_zero, Option.some.injEq] at hsd hx
    subst hsd hx
    refine ⟨rfl, rfl, ?_⟩
    intro o ch k h hs hog
    simp only [List.cons.injEq, and_true] at hs hog
    obtain ⟨rfl, rfl, rfl, -⟩ := hs
    obtain ⟨-, rfl, -⟩ := hog
    refine ⟨by decide +kernel, .inr (by decide +kernel), by decide +kernel, by decide +kernel, by decide +kernel, ?_⟩
    intro i r s hi hr hs
    have : ∀ i < 2, ∀ r < 3, ∀ s < 3, 2 * (convSum 1 2 2 1 (fun o' j a b => ([1, 0, -1, 2, 2, 1, 0, 1] : List ℤ).getD (flat [2, 1, 2, 2] [o', j, a, b]) 0)
      (fun j a b => cnnInput.data.getD (flat [1, 4, 4] [j, a, b]) 0) i r s).natAbs < 786433 := by decide +kernel
    exact this i hi r (by omega) s (by omega)
  · trivial
  · trivial
  · trivial
  · trivial
  · simp only [List.mem_singleton] at he
    subst he
    have : mapGet 4 padToyInfos = some [⟨[2, 1, 1], [2, 2, 2], some (.conv [2, 1, 1] [2, 2, 2])⟩] := by decide +kernel
    simp only [Carries, this, Option.getD_some, List.getElem?_cons_zero, Option.some.injEq] at hsd
    subst hsd
    exact ⟨(fun h => nomatch h), (by decide : 4 ≤ [2, 2, 2].prod)⟩

/-- `C99_padded_partial` applies to this model: the result [4, 6, 8] is that of the padded model, zero added. -/
theorem padToy_padded : ∃ t', runTrace (padEval (fun c => c.op 5 (462518 : ZMod 786433) (toField 786433) toElement) 4) padToyPadded [(cnnInput, [1, 4, 4])] = some t' ∧
    ∃ y', mapGet 5 t' = some [(y', [3])] ∧ Padded ⟨[3], [4], none⟩ ⟨[3], [4, 6, 8]⟩ y' := by
  obtain ⟨-, t', h1, h2⟩ := C99_padded_partial 786433 5 462518 root_786433 4 (fun _ _ => 1) 1 padToy padToy_built [[1, 4, 4]] padToyPadded padToyInfos padToy_pads padToy_layers padToy_requant
    [cnnInput] [cnnInput] padToy_input padToyTrace padToy_runs padToy_fits
  obtain ⟨sd, y, y', g1, g2, g3, g4⟩ := h2 5 _ (by simp [padToy]; rfl)
  obtain rfl : sd = ⟨[3], [4], none⟩ := by
    have : mapGet 5 padToyInfos = some [⟨[3], [4], none⟩] := by decide +kernel
    rw [this] at g1
    simpa using g1.symm
  obtain rfl : y = ⟨[3], [4, 6, 8]⟩ := by
    have : mapGet 5 padToyTrace = some [⟨[3], [4, 6, 8]⟩] := by decide +kernel
    rw [this] at g2
    simpa using g2.symm
  exact ⟨t', h1, y', g3, g4⟩

/-- A convolution with a kernel of side two. -/
def padSmall : Graph (PadLayer (Tensor ℤ × Tensor ℤ)) :=
  [(0, ⟨[⟨none, 0⟩], [[⟨none, 0⟩]], .conv (⟨[1, 1, 2, 2], [1, 0, -1, 2]⟩, ⟨[1], [2]⟩)⟩)]

/-- The padded model. -/
def padSmallPadded : Graph (PadLayer Conv) :=
  [(0, ⟨[⟨none, 0⟩], [[⟨none, 0⟩]], .conv ⟨⟨[1, 1, 4, 4], [1, 1, 2, 2], [1, 0, -1, 2]⟩, [2], [1, 1, 2, 2]⟩⟩)]

/-- C99 is false in general. A convolution with a kernel of side two, on images of side five, is padded without an error and its inference without padding succeeds, but the inference of the padded model panics on every input of the
padded shape, whatever the field, the root of unity and the conversions are. -/
theorem C99_panics_false : padModel padSmall [[1, 5, 5]] = some (padSmallPadded, [(0, [⟨[1, 4, 4], [1, 8, 8], none⟩])]) ∧
    (∃ y, runTrace (unpaddedEval 4) padSmall [⟨[1, 5, 5], List.replicate 25 1⟩] = some [(0, [⟨[1, 4, 4], y⟩])]) ∧
    ∀ (p : ℕ) [Fact p.Prime] (A : ℕ) (r : ZMod p) (toF : ℤ → ZMod p) (toE : ZMod p → ℤ) (bl : ℕ) (x' : Tensor ℤ), x'.shape = [1, 8, 8] →
      runTrace (padEval (fun c => c.op A r toF toE) bl) padSmallPadded [(x', [1, 5, 5])] = none := by
  refine ⟨by decide +kernel, ⟨List.replicate 16 4, by decide +kernel⟩, ?_⟩
  intro p _ A r toF toE bl x' hx
  have hop : (⟨⟨[1, 1, 4, 4], [1, 1, 2, 2], [1, 0, -1, 2]⟩, [2], [1, 1, 2, 2]⟩ : Conv).op A r toF toE x' [1, 5, 5] = none := by
    have h5 : nextPow2 5 = 8 := by decide +kernel
    refine C65_small_frame_panics p A r toF toE ⟨[1, 1, 2, 2], [1, 0, -1, 2]⟩ ⟨[1], [2]⟩ x' 1 5 1 2 1 rfl (by decide) (by decide +kernel) ?_ _ [1, 4, 4] [1, 8, 8] ?_
    · rw [hx, h5]; rfl
    · rw [h5]; decide +kernel
  have ho : forwardOrder padSmallPadded = [0] := by decide +kernel
  unfold runTrace
  rw [ho]
  simp [List.foldlM, runStep, padSmallPadded, mapGet, edgeValue, padEval, hop]

end Props
