import Verif.Lemmas.NetWhole
import Verif.Props.ConvProver
import Verif.Props.SoftmaxProof

/-!
C96: an honest proof of a feed-forward network is accepted.
-/

namespace Props

open Model Spec Lemmas

variable {F C CP : Type} [Field F] [DecidableEq F] {T : Transcript F}

/-- C96: networks of convolution, dense, ReLU, requantisation, 2×2 max pooling and flatten layers. `ins` and `val` are the inputs and outputs of the nodes in an inference, every layer fits its
inputs, the verifier computes the shapes of the inputs of the convolutions, and the commitment scheme opens true claims. Then the prover makes a proof, unless a convolution makes it divide by zero;
and if no challenge of a sumcheck is one of the points 0, ..., 5 its prover evaluates at, and no row of a table has a fingerprint that makes a denominator zero, the verifier accepts it. -/
theorem C96_complete (e : NetEnv F C CP T) [CharP F e.p] (hthreads : 0 < e.threads) (hchar : ∀ k : ℕ, 0 < k → k ≤ 5 → (k : F) ≠ 0) (hbl : 1 ≤ e.bl) (hbl' : e.bl ≤ 16)
    (hp : 2 ^ e.bl ≤ e.p) (hF : ConvField e) (hnd : e.order.Nodup)
    (hashOrder : List (ℕ × List ℕ) → List (ℕ × List ℕ)) (hhash : ∀ l, (hashOrder l).Perm l) (numOutputs : NetLayer → ℕ → ℕ) (numInputs : ℕ) (g : Graph NetLayer)
    (hg : Spec.Built numOutputs numInputs g) (hone : ∀ a n, (a, n) ∈ g → ∀ w ∈ n.outputs, w.length = 1)
    (hidx : ∃ N, 0 < N ∧ ∀ k, (∃ (a : ℕ) (n : Node NetLayer), (a, n) ∈ g ∧ (⟨none, k⟩ : Edge) ∈ n.inputs) ↔ k < N)
    (htab : ∀ a n, (a, n) ∈ g → ∀ t ∈ n.op.tables, t ∈ e.order)
    (input outputs : List (Tensor ℤ)) (ins val : ℕ → List (Tensor ℤ))
    (hval : ∀ b m, (b, m) ∈ g → List.Forall₂ (Carries input val) m.inputs (ins b) ∧ netEval e.convOp e.bl m.op (ins b) = some (val b) ∧ (val b).length = m.outputs.length)
    (hres : ∀ (a : ℕ) (n : Node NetLayer) (i k : ℕ) (w : List Edge), (a, n) ∈ g → n.outputs[i]? = some w → (⟨none, k⟩ : Edge) ∈ w → ∃ t, (val a)[i]? = some t ∧ outputs[k]? = some t)
    (hfit : ∀ a n, (a, n) ∈ g → NetFits e.adicity e.p e.bl a n.op (ins a)) (hsmall : ∀ a n, (a, n) ∈ g → ∀ t ∈ ins a ++ val a, ∀ v ∈ t.data, v.natAbs ≤ e.p)
    (hpow : ∀ t ∈ outputs, ∃ k, t.data.length = 2 ^ k)
    (bnodes : Graph NetLayer) (bound : List (ℕ × List ℕ)) (hbn : nodesOf g (backwardOrder g) = some bnodes) (hb : bindOutputs outputs.length bnodes = some bound)
    (horder : (hashOrder bound).flatMap (·.2) = List.range outputs.length)
    (unpadded : List (List ℕ)) (shapes : NetLayer → List (List ℕ × List ℕ) → List (List ℕ × List ℕ))
    (shs : List (ℕ × List (List ℕ × List ℕ) × List (List ℕ × List ℕ))) (hsh : shapeSteps (netVerifier e g shapes) g unpadded (input.map Tensor.shape) = some shs)
    (hconv : ∀ a n i layer u sh, (a, n) ∈ g → n.op = .conv i layer u → mapGet a shs = some sh → sh.1 = (ins a).map fun x => (u, x.shape))
    (hopen : ∀ (ms : List (ℕ × String × Claim F)) (ws : List (C × Claim F)) (ts : T.State),
      (∀ x ∈ ms, ∃ f, ModelPoly e.p g x.1 x.2.1 f ∧ PolyClaim f x.2.2) → (∀ x ∈ ws, ∃ f, x.1 = e.commit f ∧ PolyClaim f x.2) →
      ∃ cp, e.openAll ms ws ts = some cp ∧ e.verifyAll ms ws cp ts = true)
    (s : NetState T.State F C) (hs₁ : s.modelClaims = []) (hs₂ : s.witnessClaims = []) (s₁ : NetState T.State F C)
    (hstart : s₁ = netStart e (ctxTables e.order g).isEmpty (ctxTables e.order g) s)
    (hsafe : ∀ out, tensorClaims (fun (s : NetState T.State F C) n => ((T.sampleN n s.ts).1, { s with ts := (T.sampleN n s.ts).2 })) (outputs.map (Tensor.toFields e.p)) s₁ = some out →
      NeverBad (netProver e g fun a => (ins a, val a)) g (fun a => ((ins a).map (Tensor.toFields e.p), (val a).map (Tensor.toFields e.p)))
        (fun a claims s => ∃ n, (a, n) ∈ g ∧ ConvDivides e (fun b => (ins b, val b)) n.op a claims s) out.1 out.2) :
    ∃ proof, proveWhole (netProver e g fun a => (ins a, val a)) g (fun a => ((ins a).map (Tensor.toFields e.p), (val a).map (Tensor.toFields e.p))) (outputs.map (Tensor.toFields e.p)) s
        = some proof ∧
      ((∀ x ∈ proof.steps, ∀ sp ∈ layerSumchecks x.2, GoodPoint sp) → (∀ tp ∈ proof.tableProofs, ∀ sp ∈ tp.lookup.sumcheckProofs, GoodPoint sp) →
        (∀ t csc, (t, csc) ∈ s₁.challenges → NoPole e.p e.bl e.contents s₁.constant csc t) →
        verifyWhole (netVerifier e g shapes) hashOrder g unpadded proof (input.map (Tensor.toFields e.p)) (outputs.map (Tensor.toFields e.p)) s = some ()) := by
  refine net_whole e hthreads hchar hbl hbl' hp hnd hashOrder hhash numOutputs numInputs g hg hone hidx htab input outputs ins val ins val (fun b m hm => ⟨(hval b m hm).1, (hval b m hm).2.2⟩)
    (fun b m hm => ⟨hfit b m hm, (hval b m hm).2.1⟩) (fun a n hn hkind => ?_) hres hpow bnodes bound hbn hb horder unpadded shapes shs hsh hopen
    (netProver e g fun a => (ins a, val a)).prove (fun _ => NetGood) _ (fun c ch a n sh hn hshn hkind hg2 lk h1 h3 => ?_) s hs₁ hs₂ s₁ hstart hsafe
  · cases hop : n.op with
    | flatten =>
      have hev := (hval a n hn).2.1
      rw [hop, netEval] at hev
      match hins : ins a, hev with
      | [x], hev =>
        simp only [flattenEvaluate, Option.some.injEq] at hev
        rw [← hev]
        exact .cons rfl .nil
    | dense | relu | requant | pooling | conv => rw [hop] at hkind; simp [NetLayer.kind] at hkind
  · intro claims s hb hi hc
    exact net_honest_layer e hthreads hchar hbl hp hF g (fun a => (ins a, val a)) c ch a n hn hkind (hval a n hn).2.1 (hfit a n hn) (hsmall a n hn) hg2 sh.1
      (fun i layer u hop => hconv a n i layer u sh hn hop hshn) lk h1 h3 claims s (fun h => hb ⟨n, hn, h⟩) hi hc

/-- Without convolutions the prover never divides by zero. -/
theorem neverBad_of_no_conv (e : NetEnv F C CP T) (papi : ProverApi NetLayer (NetProof F C) (NetTableProof F C) CP (NetState T.State F C) F) (g : Graph NetLayer)
    (h : ∀ a n, (a, n) ∈ g → ∀ i layer u, n.op ≠ .conv i layer u) (tr : ℕ → List (Tensor F) × List (Tensor F)) (trace : ℕ → List (Tensor ℤ) × List (Tensor ℤ)) (outC : List (Claim F))
    (s : NetState T.State F C) : NeverBad papi g tr (fun a claims s => ∃ n, (a, n) ∈ g ∧ ConvDivides e trace n.op a claims s) outC s := by
  rintro done a todo - n st claims - - - ⟨m, hm, i, layer, u, x, y, last, r, hop, -⟩
  exact h a m hm i layer u hop

/-- The conversion of the code meets the conditions on the field in every prime field. -/
theorem convField_zmod (p : ℕ) [Fact p.Prime] {T : Transcript (ZMod p)} (e : NetEnv (ZMod p) C CP T) (hp : e.p = p) (hE : e.toE = toElement)
    (hroot : IsPrimitiveRoot e.root (2 ^ e.adicity)) : ConvField e := by
  refine ⟨hroot, fun z => by rw [hE]; exact C98_conversion p z, fun f => ?_⟩
  have hlt := ZMod.val_lt f
  rw [hE, hp]
  unfold toElement
  dsimp only
  split
  · simp
  · split <;> omega

/-! ### Examples -/

/-- A transcript that counts the challenges. -/
def countTranscript : Transcript (ZMod 524287) where
  State := ℕ
  appendUsize := fun s _ => s
  appendExt := fun s _ => s
  challenge := fun s => ((s : ZMod 524287), s + 1)
  appendMsg := fun s _ => s
  sample := fun s => ((s : ZMod 524287), s + 1)

/-- Pooling, flatten, dense, requantisation and ReLU in a row. -/
def netGraph : Graph NetLayer :=
  [(0, ⟨[⟨none, 0⟩], [[⟨some 1, 0⟩]], .pooling 2⟩), (1, ⟨[⟨some 0, 0⟩], [[⟨some 2, 0⟩]], .flatten⟩),
   (2, ⟨[⟨some 1, 0⟩], [[⟨some 3, 0⟩]], .dense 2 2 2 [1, 2, -1, 0, 3, -2, 1, 1, 0, 0, 1, -3, 2, 2, 2, 1] [1, -1, 0, 5]⟩),
   (3, ⟨[⟨some 2, 0⟩], [[⟨some 4, 0⟩]], .requant ⟨0, 3, 3, 5⟩⟩), (4, ⟨[⟨some 3, 0⟩], [[⟨none, 0⟩]], .relu 2⟩)]

/-- The claim is true of the polynomial. -/
def claimTrue (f : List (ZMod 524287)) (c : Claim (ZMod 524287)) : Bool := decide (f.length = 2 ^ c.point.length) && decide (mle f c.point = c.eval)

/-- Quantised values of three bits; a polynomial is its own commitment, and an opening is checked by evaluating the polynomial. -/
def netEnv : NetEnv (ZMod 524287) (List (ZMod 524287)) Unit countTranscript where
  threads := 1
  p := 524287
  bl := 3
  contents := fun _ x => x
  order := [.relu, .range, .clamping 4]
  absorb := fun s => s
  adicity := 1
  root := -1
  toE := toElement
  commit := fun f => f
  openAll := fun _ _ _ => some ()
  verifyAll := fun ms ws _ _ =>
    (ms.all fun x => x.1 == 2 && ((x.2.1 == "DenseWeight" && claimTrue ([1, 2, -1, 0, 3, -2, 1, 1, 0, 0, 1, -3, 2, 2, 2, 1].map (toField 524287)) x.2.2) ||
      (x.2.1 == "DenseBias" && claimTrue ([1, -1, 0, 5].map (toField 524287)) x.2.2))) && ws.all fun x => claimTrue x.1 x.2

theorem netGraph_built : Spec.Built (fun _ _ => 1) 1 netGraph := by
  have h₁ := Spec.Built.consecutive (numOutputs := fun (_ : NetLayer) _ => 1) (numInputs := 1) .empty (prev := none) (op := .pooling 2) (id := 0) rfl
  have h₂ := Spec.Built.consecutive h₁ (prev := some 0) (op := .flatten) (id := 1) rfl
  have h₃ := Spec.Built.consecutive h₂ (prev := some 1) (op := .dense 2 2 2 [1, 2, -1, 0, 3, -2, 1, 1, 0, 0, 1, -3, 2, 2, 2, 1] [1, -1, 0, 5]) (id := 2) rfl
  have h₄ := Spec.Built.consecutive h₃ (prev := some 2) (op := .requant ⟨0, 3, 3, 5⟩) (id := 3) rfl
  have h₅ := Spec.Built.consecutive h₄ (prev := some 3) (op := .relu 2) (id := 4) rfl
  exact Spec.Built.route h₅ (edges := none) rfl

def netInput : Tensor ℤ := ⟨[4, 2, 2], [1, 2, -1, 0, -4, -3, -2, -4, 3, 3, 0, 1, 0, -1, -2, -1]⟩

/-- Inputs and outputs of the nodes. -/
def netTrace : ℕ → List (Tensor ℤ) × List (Tensor ℤ)
  | 0 => ([netInput], [⟨[4, 1, 1], [2, -2, 3, 0]⟩])
  | 1 => ([⟨[4, 1, 1], [2, -2, 3, 0]⟩], [⟨[4], [2, -2, 3, 0]⟩])
  | 2 => ([⟨[4], [2, -2, 3, 0]⟩], [⟨[4], [-4, 12, 3, 11]⟩])
  | 3 => ([⟨[4], [-4, 12, 3, 11]⟩], [⟨[4], [-1, 3, 1, 3]⟩])
  | 4 => ([⟨[4], [-1, 3, 1, 3]⟩], [⟨[4], [0, 3, 1, 3]⟩])
  | _ => ([], [])

def netState : NetState ℕ (ZMod 524287) (List (ZMod 524287)) := ⟨1000, 0, [], [], []⟩

instance netEnv_char : CharP (ZMod 524287) netEnv.p := inferInstanceAs (CharP (ZMod 524287) 524287)

theorem netGraph_cases {P : ℕ → Node NetLayer → Prop} (h₀ : P 0 ⟨[⟨none, 0⟩], [[⟨some 1, 0⟩]], .pooling 2⟩) (h₁ : P 1 ⟨[⟨some 0, 0⟩], [[⟨some 2, 0⟩]], .flatten⟩)
    (h₂ : P 2 ⟨[⟨some 1, 0⟩], [[⟨some 3, 0⟩]], .dense 2 2 2 [1, 2, -1, 0, 3, -2, 1, 1, 0, 0, 1, -3, 2, 2, 2, 1] [1, -1, 0, 5]⟩)
    (h₃ : P 3 ⟨[⟨some 2, 0⟩], [[⟨some 4, 0⟩]], .requant ⟨0, 3, 3, 5⟩⟩) (h₄ : P 4 ⟨[⟨some 3, 0⟩], [[⟨none, 0⟩]], .relu 2⟩) (a : ℕ) (n : Node NetLayer) (hn : (a, n) ∈ netGraph) : P a n := by
  simp only [netGraph, List.mem_cons, Prod.mk.injEq, List.not_mem_nil, or_false] at hn
  rcases hn with ⟨rfl, rfl⟩ | ⟨rfl, rfl⟩ | ⟨rfl, rfl⟩ | ⟨rfl, rfl⟩ | ⟨rfl, rfl⟩ <;> assumption

theorem netGraph_no_conv : ∀ a n, (a, n) ∈ netGraph → ∀ i layer u, n.op ≠ .conv i layer u :=
  netGraph_cases (fun _ _ _ h => by cases h) (fun _ _ _ h => by cases h) (fun _ _ _ h => by cases h) (fun _ _ _ h => by cases h) (fun _ _ _ h => by cases h)

theorem netEnv_field : ConvField netEnv :=
  convField_zmod 524287 netEnv rfl rfl (by
    rw [IsPrimitiveRoot.iff (by decide)]
    exact ⟨by decide, fun l h₀ h₁ => by
      have : l < 2 := h₁
      obtain rfl : l = 1 := by omega
      decide⟩)

theorem netEnv_opens (ms : List (ℕ × String × Claim (ZMod 524287))) (ws : List (List (ZMod 524287) × Claim (ZMod 524287))) (ts : ℕ)
    (hm : ∀ x ∈ ms, ∃ f, ModelPoly netEnv.p netGraph x.1 x.2.1 f ∧ PolyClaim f x.2.2) (hw : ∀ x ∈ ws, ∃ f, x.1 = netEnv.commit f ∧ PolyClaim f x.2) :
    ∃ cp, netEnv.openAll ms ws ts = some cp ∧ netEnv.verifyAll ms ws cp ts = true := by
  refine ⟨(), rfl, ?_⟩
  simp only [netEnv, Bool.and_eq_true, List.all_eq_true]
  refine ⟨fun x hx => ?_, fun x hx => ?_⟩
  · obtain ⟨f, hf, h₁, h₂⟩ := hm x hx
    rcases hf with ⟨n, i, layer, u, hn, hop, -⟩ | ⟨n, i, k, l, W, b, hn, hop, h⟩
    · exact absurd hop (netGraph_no_conv x.1 n hn i layer u)
    revert hop
    refine netGraph_cases (P := fun a n => a = x.1 → n.op = .dense i k l W b → _) ?_ ?_ ?_ ?_ ?_ x.1 n hn rfl
    · intro _ h; cases h
    · intro _ h; cases h
    · intro h₃ hop
      simp only [NetLayer.dense.injEq] at hop
      obtain ⟨-, -, -, rfl, rfl⟩ := hop
      rw [← h₃]
      rcases h with ⟨h, rfl⟩ | ⟨h, rfl⟩
      · simp only [h, claimTrue]
        rw [Bool.or_eq_true]
        exact ⟨rfl, Or.inl (Bool.and_eq_true_iff.2 ⟨by decide, Bool.and_eq_true_iff.2 ⟨decide_eq_true h₁, decide_eq_true h₂⟩⟩)⟩
      · simp only [h, claimTrue]
        rw [Bool.or_eq_true]
        exact ⟨rfl, Or.inr (Bool.and_eq_true_iff.2 ⟨by decide, Bool.and_eq_true_iff.2 ⟨decide_eq_true h₁, decide_eq_true h₂⟩⟩)⟩
    · intro _ h; cases h
    · intro _ h; cases h
  · obtain ⟨f, h, h₁, h₂⟩ := hw x hx
    rw [show x.1 = f from h]
    simp [claimTrue, h₁, h₂]

/-- The proof of the inference. -/
def netMade : Option (WholeProof (NetProof (ZMod 524287) (List (ZMod 524287))) (NetTableProof (ZMod 524287) (List (ZMod 524287))) Unit) :=
  proveWhole (netProver netEnv netGraph fun a => ((netTrace a).1, (netTrace a).2)) netGraph
    (fun a => ((netTrace a).1.map (Tensor.toFields netEnv.p), (netTrace a).2.map (Tensor.toFields netEnv.p))) ([⟨[4], [0, 3, 1, 3]⟩].map (Tensor.toFields netEnv.p)) netState

set_option maxRecDepth 100000 in
/-- The conditions of `C96_complete` hold for this network, those on the challenges included: the proof is made and accepted. -/
theorem net_accepted : ∃ proof, netMade = some proof ∧ proof.steps.map (·.1) = [4, 3, 2, 0] ∧ proof.tableProofs.length = 3 ∧
      verifyWhole (netVerifier netEnv netGraph fun _ l => l) id netGraph [[4, 2, 2]] proof ([netInput].map (Tensor.toFields netEnv.p))
        ([⟨[4], [0, 3, 1, 3]⟩].map (Tensor.toFields netEnv.p)) netState = some () := by
  obtain ⟨proof, h₁, h₂⟩ := C96_complete netEnv (by decide) (fun k h h' => by interval_cases k <;> decide +kernel) (by decide) (by decide) (by decide) netEnv_field (by decide) id (fun l => .refl l) (fun _ _ => 1) 1 netGraph netGraph_built
    (netGraph_cases (by decide) (by decide) (by decide) (by decide) (by decide))
    ⟨1, by decide, fun k => by
      constructor
      · rintro ⟨a, n, hn, hk⟩
        revert hk
        exact netGraph_cases (P := fun _ n => (⟨none, k⟩ : Edge) ∈ n.inputs → k < 1) (by simp) (by simp) (by simp) (by simp) (by simp) a n hn
      · intro hk
        obtain rfl : k = 0 := by omega
        exact ⟨0, _, List.mem_cons_self, by decide⟩⟩
    (netGraph_cases (by decide) (by decide) (by decide) (by decide) (by decide))
    [netInput] [⟨[4], [0, 3, 1, 3]⟩] (fun a => (netTrace a).1) (fun a => (netTrace a).2)
    (netGraph_cases ⟨.cons rfl .nil, by decide, rfl⟩ ⟨.cons rfl .nil, by decide, rfl⟩ ⟨.cons rfl .nil, by decide, rfl⟩ ⟨.cons rfl .nil, by decide, rfl⟩ ⟨.cons rfl .nil, by decide, rfl⟩)
    (by
      intro a n i k w hn hw hk
      revert hw hk
      refine netGraph_cases (P := fun a n => n.outputs[i]? = some w → (⟨none, k⟩ : Edge) ∈ w → ∃ t, ((netTrace a).2)[i]? = some t ∧ ([⟨[4], [0, 3, 1, 3]⟩] : List (Tensor ℤ))[k]? = some t)
        ?_ ?_ ?_ ?_ ?_ a n hn <;>
      · intro hw hk
        rcases i with _ | i
        · simp only [List.getElem?_cons_zero, Option.some.injEq] at hw
          subst hw
          simp at hk
          try subst hk
          try exact ⟨_, rfl, rfl⟩
        · simp at hw)
    (netGraph_cases ⟨by decide, ⟨2, 0, 0, rfl, rfl⟩, by decide, by decide⟩ trivial ⟨rfl, by decide, by decide, by decide, by decide, by decide, by decide⟩
      ⟨⟨2, by decide, by decide⟩, by decide, by decide, by decide, by decide, 4, by decide, by decide, by decide, by decide, by decide⟩ ⟨by decide, by decide, by decide⟩)
    (netGraph_cases (by decide) (by decide) (by decide) (by decide) (by decide)) (by simpa using ⟨2, rfl⟩) _ _ rfl rfl rfl [[4, 2, 2]] (fun _ l => l) _ rfl
    (fun a n i layer u _ hn hop => absurd hop (netGraph_no_conv a n hn i layer u)) netEnv_opens netState rfl rfl _ rfl (fun _ _ => neverBad_of_no_conv _ _ _ netGraph_no_conv _ _ _ _)
  have g₁ : (netMade).map (fun proof => proof.steps.map (·.1)) = some [4, 3, 2, 0] := by decide +kernel
  have g₂ : (netMade).map (fun proof => proof.tableProofs.length) = some 3 := by decide +kernel
  have g₃ : (netMade).map (fun proof => proof.steps.flatMap fun x => (layerSumchecks x.2).flatMap (·.point)) =
      some ([1014, 1015, 1008, 1031, 1032, 1019, 1026, 1033, 1034, 1043, 1044, 1038].map fun n : ℕ => (n : ZMod 524287)) := by decide +kernel
  have g₄ : (netMade).map (fun proof => proof.tableProofs.flatMap fun x => x.lookup.sumcheckProofs.flatMap (·.point)) =
      some ([1049, 1053, 1054, 1061, 1065, 1066, 1073, 1077, 1078, 1082, 1083, 1084].map fun n : ℕ => (n : ZMod 524287)) := by decide +kernel
  change netMade = _ at h₁
  rw [h₁, Option.map_some, Option.some.injEq] at g₁ g₂ g₃ g₄
  have hnat : ∀ n ∈ ([1014, 1015, 1008, 1031, 1032, 1019, 1026, 1033, 1034, 1043, 1044, 1038] ++ [1049, 1053, 1054, 1061, 1065, 1066, 1073, 1077, 1078, 1082, 1083, 1084] : List ℕ), 6 ≤ n ∧ n < 524287 := by decide
  have hgood : ∀ y ∈ ([1014, 1015, 1008, 1031, 1032, 1019, 1026, 1033, 1034, 1043, 1044, 1038] ++ [1049, 1053, 1054, 1061, 1065, 1066, 1073, 1077, 1078, 1082, 1083, 1084] : List ℕ).map (fun n : ℕ => (n : ZMod 524287)), ∀ k ≤ 5, y ≠ ((k : ℕ) : ZMod 524287) := by
    intro y hy k hk h
    obtain ⟨n, hn, rfl⟩ := List.mem_map.1 hy
    obtain ⟨h₆, h₇⟩ := hnat n hn
    have := congrArg ZMod.val h
    rw [ZMod.val_natCast_of_lt h₇, ZMod.val_natCast_of_lt (by omega)] at this
    omega
  rw [List.map_append, ← g₃, ← g₄] at hgood
  refine ⟨proof, h₁, g₁, g₂, h₂ (fun x hx sp hsp y hy k hk => hgood y ?_ k hk) (fun x hx sp hsp y hy k hk => hgood y ?_ k hk) ?_⟩
  · exact List.mem_append_left _ (List.mem_flatMap.2 ⟨x, hx, List.mem_flatMap.2 ⟨sp, hsp, hy⟩⟩)
  · exact List.mem_append_right _ (List.mem_flatMap.2 ⟨x, hx, List.mem_flatMap.2 ⟨sp, hsp, hy⟩⟩)
  have : ∀ x ∈ (netStart netEnv (ctxTables netEnv.order netGraph).isEmpty (ctxTables netEnv.order netGraph) netState).challenges,
      ∀ r ∈ tableRows netEnv.contents netEnv.bl x.1, (netStart netEnv (ctxTables netEnv.order netGraph).isEmpty (ctxTables netEnv.order netGraph) netState).constant
        + fingerprint x.2 (r.map (toField netEnv.p)) ≠ 0 := by decide +kernel
  exact fun t csc h => this (t, csc) h

end Props
