import Verif.Props.Network

/-!
C96: an example with a convolution.
-/

namespace Props

open Model Spec Lemmas

instance fact_prime_786433 : Fact (Nat.Prime 786433) := ⟨by norm_num⟩

/-- A transcript that counts the challenges. -/
def countTranscript' : Transcript (ZMod 786433) where
  State := ℕ
  appendUsize := fun s _ => s
  appendExt := fun s _ => s
  challenge := fun s => ((s : ZMod 786433), s + 1)
  appendMsg := fun s _ => s
  sample := fun s => ((s : ZMod 786433), s + 1)

/-- Two filters of 2×2 entries on inputs of 4×4 entries. -/
def cnnLayer : Conv := ⟨⟨[2, 1, 4, 4], [2, 1, 2, 2], [1, 0, -1, 2, 2, 1, 0, 1]⟩, [2, -5], [2, 1, 2, 2]⟩

/-- Convolution, pooling and ReLU. -/
def cnnGraph : Graph NetLayer :=
  [(0, ⟨[⟨none, 0⟩], [[⟨some 1, 0⟩]], .conv 0 cnnLayer [1, 4, 4]⟩), (1, ⟨[⟨some 0, 0⟩], [[⟨some 2, 0⟩]], .pooling 3⟩), (2, ⟨[⟨some 1, 0⟩], [[⟨none, 0⟩]], .relu 3⟩)]

def cnnClaimTrue (f : List (ZMod 786433)) (c : Claim (ZMod 786433)) : Bool := decide (f.length = 2 ^ c.point.length) && decide (mle f c.point = c.eval)

/-- Quantised values of four bits; a polynomial is its own commitment, and an opening is checked by evaluating the polynomial. -/
def cnnEnv : NetEnv (ZMod 786433) (List (ZMod 786433)) Unit countTranscript' where
  threads := 1
  p := 786433
  bl := 4
  contents := fun _ x => x
  order := [.relu, .range]
  absorb := fun s => s
  adicity := 5
  root := 462518
  toE := toElement
  commit := fun f => f
  openAll := fun _ _ _ => some ()
  verifyAll := fun ms ws _ _ =>
    (ms.all fun x => x.1 == 0 && ((x.2.1 == "ConvFilter" && cnnClaimTrue ([1, 0, -1, 2, 2, 1, 0, 1].map (toField 786433)) x.2.2) ||
      (x.2.1 == "ConvBias" && cnnClaimTrue ([2, -5].map (toField 786433)) x.2.2))) && ws.all fun x => cnnClaimTrue x.1 x.2

theorem cnnGraph_built : Spec.Built (fun _ _ => 1) 1 cnnGraph := by
  have h₁ := Spec.Built.consecutive (numOutputs := fun (_ : NetLayer) _ => 1) (numInputs := 1) .empty (prev := none) (op := .conv 0 cnnLayer [1, 4, 4]) (id := 0) rfl
  have h₂ := Spec.Built.consecutive h₁ (prev := some 0) (op := .pooling 3) (id := 1) rfl
  have h₃ := Spec.Built.consecutive h₂ (prev := some 1) (op := .relu 3) (id := 2) rfl
  exact Spec.Built.route h₃ (edges := none) rfl

def cnnInput : Tensor ℤ := ⟨[1, 4, 4], [1, -1, 0, 1, 0, 1, 1, -1, -1, 0, 1, 1, 1, 0, 0, -1]⟩

/-- Inputs and outputs of the nodes. -/
def cnnTrace : ℕ → List (Tensor ℤ) × List (Tensor ℤ)
  | 0 => ([cnnInput], [⟨[2, 4, 4], [5, 2, -1, 0, 3, 5, 4, 0, 0, 2, 1, 0, 0, 0, 0, 0, -3, -6, -5, 0, -4, -1, -3, 0, -7, -4, -3, 0, 0, 0, 0, 0]⟩])
  | 1 => ([⟨[2, 4, 4], [5, 2, -1, 0, 3, 5, 4, 0, 0, 2, 1, 0, 0, 0, 0, 0, -3, -6, -5, 0, -4, -1, -3, 0, -7, -4, -3, 0, 0, 0, 0, 0]⟩], [⟨[2, 2, 2], [5, 4, 2, 1, -1, 0, 0, 0]⟩])
  | 2 => ([⟨[2, 2, 2], [5, 4, 2, 1, -1, 0, 0, 0]⟩], [⟨[2, 2, 2], [5, 4, 2, 1, 0, 0, 0, 0]⟩])
  | _ => ([], [])

def cnnState : NetState ℕ (ZMod 786433) (List (ZMod 786433)) := ⟨1000, 0, [], [], []⟩

instance cnnEnv_char : CharP (ZMod 786433) cnnEnv.p := inferInstanceAs (CharP (ZMod 786433) 786433)

theorem cnnGraph_cases {P : ℕ → Node NetLayer → Prop} (h₀ : P 0 ⟨[⟨none, 0⟩], [[⟨some 1, 0⟩]], .conv 0 cnnLayer [1, 4, 4]⟩) (h₁ : P 1 ⟨[⟨some 0, 0⟩], [[⟨some 2, 0⟩]], .pooling 3⟩)
    (h₂ : P 2 ⟨[⟨some 1, 0⟩], [[⟨none, 0⟩]], .relu 3⟩) (a : ℕ) (n : Node NetLayer) (hn : (a, n) ∈ cnnGraph) : P a n := by
  simp only [cnnGraph, List.mem_cons, Prod.mk.injEq, List.not_mem_nil, or_false] at hn
  rcases hn with ⟨rfl, rfl⟩ | ⟨rfl, rfl⟩ | ⟨rfl, rfl⟩ <;> assumption

theorem cnnEnv_field : ConvField cnnEnv :=
  convField_zmod 786433 cnnEnv rfl rfl (by
    rw [IsPrimitiveRoot.iff (by decide)]
    refine ⟨by decide +kernel, fun l h₀ h₁ => ?_⟩
    have h₂ : l < 32 := h₁
    interval_cases l <;> decide +kernel)

theorem cnnEnv_opens (ms : List (ℕ × String × Claim (ZMod 786433))) (ws : List (List (ZMod 786433) × Claim (ZMod 786433))) (ts : ℕ)
    (hm : ∀ x ∈ ms, ∃ f, ModelPoly cnnEnv.p cnnGraph x.1 x.2.1 f ∧ PolyClaim f x.2.2) (hw : ∀ x ∈ ws, ∃ f, x.1 = cnnEnv.commit f ∧ PolyClaim f x.2) :
    ∃ cp, cnnEnv.openAll ms ws ts = some cp ∧ cnnEnv.verifyAll ms ws cp ts = true := by
  refine ⟨(), rfl, ?_⟩
  simp only [cnnEnv, Bool.and_eq_true, List.all_eq_true]
  refine ⟨fun x hx => ?_, fun x hx => ?_⟩
  · obtain ⟨f, hf, h₁, h₂⟩ := hm x hx
    rcases hf with ⟨n, i, layer, u, hn, hop, h⟩ | ⟨n, i, k, l, W, b, hn, hop, h⟩
    · revert hop
      refine cnnGraph_cases (P := fun a n => a = x.1 → n.op = .conv i layer u → _) ?_ ?_ ?_ x.1 n hn rfl
      · intro h₃ hop
        simp only [NetLayer.conv.injEq] at hop
        obtain ⟨-, rfl, -⟩ := hop
        rw [← h₃]
        rcases h with ⟨h, rfl⟩ | ⟨h, rfl⟩
        · simp only [h, cnnClaimTrue]
          rw [Bool.or_eq_true]
          exact ⟨rfl, Or.inl (Bool.and_eq_true_iff.2 ⟨by decide, Bool.and_eq_true_iff.2 ⟨decide_eq_true h₁, decide_eq_true h₂⟩⟩)⟩
        · simp only [h, cnnClaimTrue]
          rw [Bool.or_eq_true]
          exact ⟨rfl, Or.inr (Bool.and_eq_true_iff.2 ⟨by decide, Bool.and_eq_true_iff.2 ⟨decide_eq_true h₁, decide_eq_true h₂⟩⟩)⟩
      · intro _ h; cases h
      · intro _ h; cases h
    · revert hop
      exact cnnGraph_cases (P := fun _ n => n.op = .dense i k l W b → _) (fun h => by cases h) (fun h => by cases h) (fun h => by cases h) x.1 n hn
  · obtain ⟨f, h, h₁, h₂⟩ := hw x hx
    rw [show x.1 = f from h]
    simp [cnnClaimTrue, h₁, h₂]

/-- The proof of the inference. -/
def cnnMade : Option (WholeProof (NetProof (ZMod 786433) (List (ZMod 786433))) (NetTableProof (ZMod 786433) (List (ZMod 786433))) Unit) :=
  proveWhole (netProver cnnEnv cnnGraph fun a => ((cnnTrace a).1, (cnnTrace a).2)) cnnGraph
    (fun a => ((cnnTrace a).1.map (Tensor.toFields cnnEnv.p), (cnnTrace a).2.map (Tensor.toFields cnnEnv.p))) ([⟨[2, 2, 2], [5, 4, 2, 1, 0, 0, 0, 0]⟩].map (Tensor.toFields cnnEnv.p)) cnnState

/-- The last challenge of the sumcheck for the transform of the input, on the prover's way back. -/
def cnnLast (outC : List (Claim (ZMod 786433))) (s : NetState ℕ (ZMod 786433) (List (ZMod 786433))) : Option (Option (ZMod 786433)) := do
  let st ← [2, 1].foldlM (backwardStep (proveNode (netProver cnnEnv cnnGraph fun a => ((cnnTrace a).1, (cnnTrace a).2))
    (fun a => ((cnnTrace a).1.map (Tensor.toFields cnnEnv.p), (cnnTrace a).2.map (Tensor.toFields cnnEnv.p)))) cnnGraph outC) ((s, []), [])
  match ← claimsForNode (⟨[⟨none, 0⟩], [[⟨some 1, 0⟩]], .conv 0 cnnLayer [1, 4, 4]⟩ : Node NetLayer) st.2 outC, cnnTrace 0 with
  | [last], ([x], [y]) => (netConvProof cnnEnv cnnLayer [1, 4, 4] x y last st.1.1.ts).map fun r => r.1.fftProof.point.getLast?
  | _, _ => none

theorem small_cast_ne (y : ZMod 786433) (h : 6 ≤ y.val) (k : ℕ) (hk : k ≤ 5) : y ≠ ((k : ℕ) : ZMod 786433) := by
  rintro rfl
  rw [ZMod.val_natCast_of_lt (by omega)] at h
  omega

theorem cnn_shapes (a : ℕ) (n : Node NetLayer) (i : ℕ) (layer : Conv) (u : List ℕ) (sh : List (List ℕ × List ℕ) × List (List ℕ × List ℕ)) (hn : (a, n) ∈ cnnGraph) (hop : n.op = .conv i layer u)
    (hsh : mapGet a [(0, [([1, 4, 4], [1, 4, 4])], [([1, 4, 4], [1, 4, 4])]), (1, [([1, 4, 4], [1, 4, 4])], [([1, 4, 4], [1, 4, 4])]), (2, [([1, 4, 4], [1, 4, 4])], [([1, 4, 4], [1, 4, 4])])] = some sh) :
    sh.1 = ((cnnTrace a).1).map fun x => (u, x.shape) := by
  revert hop hsh
  refine cnnGraph_cases (P := fun a n => n.op = .conv i layer u → mapGet a _ = some sh → sh.1 = ((cnnTrace a).1).map fun x => (u, x.shape)) ?_ ?_ ?_ a n hn
  · intro hop hsh
    simp only [NetLayer.conv.injEq] at hop
    obtain ⟨-, -, rfl⟩ := hop
    rw [← Option.some.inj hsh]
    decide
  · intro h; cases h
  · intro h; cases h

set_option maxRecDepth 100000 in
theorem cnn_safe (out : List (Claim (ZMod 786433)) × NetState ℕ (ZMod 786433) (List (ZMod 786433)))
    (hout : tensorClaims (fun (s : NetState ℕ (ZMod 786433) (List (ZMod 786433))) n => ((countTranscript'.sampleN n s.ts).1, { s with ts := (countTranscript'.sampleN n s.ts).2 }))
      ([⟨[2, 2, 2], [5, 4, 2, 1, 0, 0, 0, 0]⟩].map (Tensor.toFields cnnEnv.p)) (netStart cnnEnv (ctxTables cnnEnv.order cnnGraph).isEmpty (ctxTables cnnEnv.order cnnGraph) cnnState) = some out) :
    NeverBad (netProver cnnEnv cnnGraph fun a => ((cnnTrace a).1, (cnnTrace a).2)) cnnGraph
      (fun a => ((cnnTrace a).1.map (Tensor.toFields cnnEnv.p), (cnnTrace a).2.map (Tensor.toFields cnnEnv.p)))
      (fun a claims s => ∃ n, (a, n) ∈ cnnGraph ∧ ConvDivides cnnEnv (fun b => ((cnnTrace b).1, (cnnTrace b).2)) n.op a claims s) out.1 out.2 := by
  have hlast : cnnLast out.1 out.2 = some (some 1068) := by
    have : (tensorClaims (fun (s : NetState ℕ (ZMod 786433) (List (ZMod 786433))) n => ((countTranscript'.sampleN n s.ts).1, { s with ts := (countTranscript'.sampleN n s.ts).2 }))
        ([⟨[2, 2, 2], [5, 4, 2, 1, 0, 0, 0, 0]⟩].map (Tensor.toFields cnnEnv.p)) (netStart cnnEnv (ctxTables cnnEnv.order cnnGraph).isEmpty (ctxTables cnnEnv.order cnnGraph) cnnState)).bind
          (fun out => cnnLast out.1 out.2) = some (some 1068) := by decide +kernel
    obtain ⟨out', h₁, h₂⟩ := Option.bind_eq_some_iff.1 this
    have := h₁.symm.trans hout
    rw [Option.some.injEq] at this
    rw [← this]
    exact h₂
  rintro done a todo hd n st claims hn hst hcl ⟨m, hm, i, layer, u, x, y, last, r, hop, htr, rfl, hpr, h1⟩
  obtain ⟨rfl, rfl, rfl⟩ : a = 0 ∧ layer = cnnLayer ∧ u = [1, 4, 4] := by
    revert hop
    refine cnnGraph_cases (P := fun a n => n.op = .conv i layer u → a = 0 ∧ layer = cnnLayer ∧ u = [1, 4, 4]) ?_ ?_ ?_ a m hm
    · intro hop
      simp only [NetLayer.conv.injEq] at hop
      exact ⟨rfl, hop.2.1.symm, hop.2.2.symm⟩
    · intro h; cases h
    · intro h; cases h
  obtain rfl : n = ⟨[⟨none, 0⟩], [[⟨some 1, 0⟩]], .conv 0 cnnLayer [1, 4, 4]⟩ :=
    cnnGraph_cases (P := fun a n => a = 0 → n = ⟨[⟨none, 0⟩], [[⟨some 1, 0⟩]], .conv 0 cnnLayer [1, 4, 4]⟩) (fun _ => rfl) (fun h => by cases h) (fun h => by cases h) 0 n hn rfl
  have hdone : done = [2, 1] := by
    have : [2, 1, 0] = done ++ 0 :: todo := hd
    match done, this with
    | [], h => simp at h
    | [_], h => simp at h
    | [_, _], h => simp at h; simp [h.1, h.2.1]
    | _ :: _ :: _ :: _, h => simp at h
  rw [hdone] at hst
  unfold cnnLast at hlast
  rw [hst] at hlast
  simp only [Option.bind_eq_bind, Option.bind_some, hcl] at hlast
  dsimp only at htr
  rw [show cnnTrace 0 = ([x], [y]) from htr] at hlast
  simp only [hpr, Option.map_some, h1, Option.some.injEq] at hlast
  exact absurd hlast (by decide +kernel)

set_option maxRecDepth 100000 in
/-- The conditions of `C96_complete` hold for this network, those on the challenges included: the proof is made and accepted. -/
theorem cnn_accepted : ∃ proof, cnnMade = some proof ∧ proof.steps.map (·.1) = [2, 1, 0] ∧
      verifyWhole (netVerifier cnnEnv cnnGraph fun _ l => l) id cnnGraph [[1, 4, 4]] proof ([cnnInput].map (Tensor.toFields cnnEnv.p))
        ([⟨[2, 2, 2], [5, 4, 2, 1, 0, 0, 0, 0]⟩].map (Tensor.toFields cnnEnv.p)) cnnState = some () := by
  obtain ⟨proof, h₁, h₂⟩ := C96_complete cnnEnv (by decide) (fun k h h' => by interval_cases k <;> decide +kernel) (by decide) (by decide) (by decide) cnnEnv_field (by decide) id (fun l => .refl l) (fun _ _ => 1) 1 cnnGraph cnnGraph_built
    (cnnGraph_cases (by decide) (by decide) (by decide))
    ⟨1, by decide, fun k => by
      constructor
      · rintro ⟨a, n, hn, hk⟩
        revert hk
        exact cnnGraph_cases (P := fun _ n => (⟨none, k⟩ : Edge) ∈ n.inputs → k < 1) (by simp) (by simp) (by simp) a n hn
      · intro hk
        obtain rfl : k = 0 := by omega
        exact ⟨0, _, List.mem_cons_self, by decide⟩⟩
    (cnnGraph_cases (by decide) (by decide) (by decide))
    [cnnInput] [⟨[2, 2, 2], [5, 4, 2, 1, 0, 0, 0, 0]⟩] (fun a => (cnnTrace a).1) (fun a => (cnnTrace a).2)
    (cnnGraph_cases ⟨.cons rfl .nil, by decide +kernel, rfl⟩ ⟨.cons rfl .nil, by decide +kernel, rfl⟩ ⟨.cons rfl .nil, by decide +kernel, rfl⟩)
    (by
      intro a n i k w hn hw hk
      revert hw hk
      refine cnnGraph_cases (P := fun a n => n.outputs[i]? = some w → (⟨none, k⟩ : Edge) ∈ w → ∃ t, ((cnnTrace a).2)[i]? = some t ∧
          ([⟨[2, 2, 2], [5, 4, 2, 1, 0, 0, 0, 0]⟩] : List (Tensor ℤ))[k]? = some t) ?_ ?_ ?_ a n hn <;>
      · intro hw hk
        rcases i with _ | i
        · simp only [List.getElem?_cons_zero, Option.some.injEq] at hw
          subst hw
          simp at hk
          try subst hk
          try exact ⟨_, rfl, rfl⟩
        · simp at hw)
    (cnnGraph_cases ⟨rfl, 1, 0, 1, 2, by decide, by decide, by decide, rfl, rfl, rfl, rfl, rfl, rfl, by decide⟩ ⟨by decide, ⟨1, 1, 1, rfl, rfl⟩, by decide, by decide⟩ ⟨by decide, by decide, by decide⟩)
    (cnnGraph_cases (by decide) (by decide) (by decide)) (by simpa using ⟨3, rfl⟩) _ _ rfl rfl rfl [[1, 4, 4]] (fun _ l => l) _ rfl
    cnn_shapes cnnEnv_opens cnnState rfl rfl _ rfl cnn_safe
  have g₁ : (cnnMade).map (fun proof => proof.steps.map (·.1)) = some [2, 1, 0] := by decide +kernel
  have g₂ : (cnnMade).map (fun proof => (proof.steps.all fun x => (layerSumchecks x.2).all fun sp => sp.point.all fun y => decide (6 ≤ y.val)) &&
      proof.tableProofs.all fun x => x.lookup.sumcheckProofs.all fun sp => sp.point.all fun y => decide (6 ≤ y.val)) = some true := by decide +kernel
  change cnnMade = _ at h₁
  rw [h₁, Option.map_some, Option.some.injEq] at g₁ g₂
  simp only [Bool.and_eq_true, List.all_eq_true, decide_eq_true_eq] at g₂
  refine ⟨proof, h₁, g₁, h₂ (fun x hx sp hsp y hy k hk => small_cast_ne y (g₂.1 x hx sp hsp y hy) k hk) (fun x hx sp hsp y hy k hk => small_cast_ne y (g₂.2 x hx sp hsp y hy) k hk) ?_⟩
  have : ∀ x ∈ (netStart cnnEnv (ctxTables cnnEnv.order cnnGraph).isEmpty (ctxTables cnnEnv.order cnnGraph) cnnState).challenges,
      ∀ r ∈ tableRows cnnEnv.contents cnnEnv.bl x.1, (netStart cnnEnv (ctxTables cnnEnv.order cnnGraph).isEmpty (ctxTables cnnEnv.order cnnGraph) cnnState).constant
        + fingerprint x.2 (r.map (toField cnnEnv.p)) ≠ 0 := by decide +kernel
  exact fun t csc h => this (t, csc) h

end Props
