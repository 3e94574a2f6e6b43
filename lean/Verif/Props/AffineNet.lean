import Verif.Props.Network
import Verif.Props.WholeProof

/-!
C97 for networks of dense and flatten layers: what an accepted proof means.
-/

namespace Props

open Model Spec Lemmas

variable {F C CP : Type} [Field F] [DecidableEq F] {T : Transcript F}

/-- A call of the verifier of a layer only adds claims about the model. -/
theorem netVerify_claims (e : NetEnv F C CP T) (l : NetLayer) (p : NetProof F C) (claims ic : List (Claim F)) (sh : List (List ℕ × List ℕ)) (s s' : NetState T.State F C)
    (h : netVerify e l p claims sh s = some (ic, s')) :
    ∀ x ∈ s.modelClaims, x ∈ s'.modelClaims := by
  intro x hx
  unfold netVerify at h
  split at h <;> simp only [Option.bind_eq_bind, Option.bind_eq_some_iff, Option.some.injEq, Prod.mk.injEq, reduceCtorEq] at h
  · obtain ⟨⟨claim, common, ts⟩, -, -, rfl⟩ := h
    exact List.mem_append_left _ hx
  · obtain ⟨-, -, ⟨claim, common, ts⟩, -, -, rfl⟩ := h
    exact hx
  · obtain ⟨-, -, -, -, ⟨claim, common, ts⟩, -, -, rfl⟩ := h
    exact hx
  · obtain ⟨-, -, ⟨claim, common, ts⟩, -, -, rfl⟩ := h
    exact hx
  · split at h
    · simp only [Option.bind_eq_some_iff, Option.some.injEq, Prod.mk.injEq] at h
      obtain ⟨-, -, ⟨claim, fc, bc, ts⟩, -, -, rfl⟩ := h
      exact List.mem_append_left _ hx
    · cases h

theorem netTables_claims (e : NetEnv F C CP T) (l : List (NetTableProof F C × TableType)) : ∀ (s s' : NetState T.State F C),
    l.foldlM (fun s x => netVerifyTable e x.2 x.1 s) s = some s' → s'.modelClaims = s.modelClaims := by
  induction l with
  | nil => intro s s' h; simp at h; rw [h]
  | cons x l ih =>
    intro s s' h
    simp only [List.foldlM_cons, Option.bind_eq_bind, Option.bind_eq_some_iff] at h
    obtain ⟨s₁, h₁, h₂⟩ := h
    rw [ih s₁ s' h₂]
    unfold netVerifyTable at h₁
    split at h₁
    · cases h₁
    · simp only [Option.bind_eq_bind, Option.bind_eq_some_iff, Option.some.injEq] at h₁
      obtain ⟨-, -, -, -, -, -, -, -, rfl⟩ := h₁
      rfl

/-- Claims added at a call are still there at the end. -/
theorem follows_claims (log : List (LayerCall (NetState T.State F C) F)) (hstep : ∀ c ∈ log, ∀ x ∈ c.before.modelClaims, x ∈ c.after.modelClaims) :
    ∀ (s s' : NetState T.State F C), Follows s log s' → (∀ x ∈ s.modelClaims, x ∈ s'.modelClaims) ∧ ∀ c ∈ log, ∀ x ∈ c.after.modelClaims, x ∈ s'.modelClaims := by
  induction log with
  | nil =>
    intro s s' h
    rw [Follows] at h
    subst h
    exact ⟨fun _ hx => hx, by simp⟩
  | cons c log ih =>
    intro s s' h
    rw [Follows] at h
    obtain ⟨rfl, h⟩ := h
    obtain ⟨i₁, i₂⟩ := ih (fun c' hc' => hstep c' (List.mem_cons_of_mem _ hc')) _ _ h
    refine ⟨fun x hx => i₁ x (hstep c List.mem_cons_self x hx), ?_⟩
    intro c' hc' x hx
    rcases List.mem_cons.1 hc' with rfl | hc'
    · exact i₁ x hx
    · exact i₂ c' hc' x hx

/-- C97 for networks of dense and flatten layers with one output. If the verifier accepts, whatever the proof, and the openings are sound (an accepted opening means that the claims about weights and
biases are true of the model's), then the given output agrees with the network's at the random point the verifier draws for it, or in one of the calls of the verifier of a dense layer
the prover was lucky in the sumcheck. How many points allow different outputs to agree is `C87_wrong_output_count`, how likely luck is `C11_soundness_error`. Missing: proofs of dense layers with a number
of individual claims other than two, which the verifier does not reject (`C35_extra_factor_false`), and layers with lookups: requantisation is not sound (`C97_forgery_false`). -/
theorem C97_affine_partial (e : NetEnv F C CP T) [CharP F e.p] (hchar : ∀ k : ℕ, 0 < k → k ≤ 2 → (k : F) ≠ 0)
    (hashOrder : List (ℕ × List ℕ) → List (ℕ × List ℕ)) (hhash : ∀ l, (hashOrder l).Perm l) (numOutputs : NetLayer → ℕ → ℕ) (numInputs : ℕ) (g : Graph NetLayer)
    (hg : Spec.Built numOutputs numInputs g) (hops : ∀ a n, (a, n) ∈ g → n.op = .flatten ∨ ∃ m k W b, n.op = .dense a m k W b)
    (hone : ∀ x ∈ g, (x.2.outputs.filter fun w => w.any (·.node.isNone)).length ≤ 1)
    (input : List (Tensor ℤ)) (val : ℕ → List (Tensor ℤ)) (hval : Dataflow (netEval e.convOp e.bl) g input val)
    (hfit : ∀ a n ins, (a, n) ∈ g → List.Forall₂ (Carries input val) n.inputs ins → NetFits e.adicity e.p e.bl a n.op ins ∧ ∀ t ∈ ins ++ val a, ∀ v ∈ t.data, v.natAbs ≤ e.p)
    (hbind : ∀ ms ws cp ts, e.verifyAll ms ws cp ts = true → ∀ x ∈ ms, ∀ f, ModelPoly e.p g x.1 x.2.1 f → PolyClaim f x.2.2)
    (unpadded : List (List ℕ)) (shapes : NetLayer → List (List ℕ × List ℕ) → List (List ℕ × List ℕ))
    (proof : WholeProof (NetProof F C) (NetTableProof F C) CP) (t : Tensor F) (s s₁ : NetState T.State F C)
    (hstart : s₁ = netStart e (ctxTables e.order g).isEmpty (ctxTables e.order g) s)
    (hproof : ∀ x ∈ proof.steps, ∀ q, x.2 = .dense q → q.individualClaims.length = 2)
    (h : verifyWhole (netVerifier e g shapes) hashOrder g unpadded proof (input.map (Tensor.toFields e.p)) [t] s = some ()) :
    ∃ s₃ shapeList, ∃ log : List (LayerCall (NetState T.State F C) F), log.map (·.id) = backwardOrder g ∧
      Follows { s₁ with ts := (T.sampleN (Nat.log2 t.data.length) s₁.ts).2 } log s₃ ∧
      (∀ c ∈ log, ∃ n, (c.id, n) ∈ g ∧ verifyNode (netVerifier e g shapes) shapeList proof.steps c.before c.id n c.outputs = some (c.after, c.inputs)) ∧
      ((∃ c ∈ log, ∃ n m k W b x q last claim, (c.id, n) ∈ g ∧ n.op = .dense c.id m k W b ∧ List.Forall₂ (Carries input val) n.inputs [x] ∧ mapGet c.id proof.steps = some (.dense q) ∧
          c.outputs = [last] ∧ c.inputs = [claim] ∧
          LuckyRound 2 k (fun pt => mle (W.map (toField e.p)) (pt ++ last.point) * mle (x.data.map (toField e.p)) pt) q.sumcheck.proofs claim.point) ∨
        ∀ (j a : ℕ) (n : Node NetLayer) (i : ℕ) (w : List Edge) (v : Tensor ℤ), (a, n) ∈ g → n.outputs[i]? = some w → (⟨none, j⟩ : Edge) ∈ w → (val a)[i]? = some v →
          t.data.length = 2 ^ (T.sampleN (Nat.log2 t.data.length) s₁.ts).1.length ∧ v.data.length = t.data.length ∧
          mle t.data (T.sampleN (Nat.log2 t.data.length) s₁.ts).1 = mle (v.data.map (toField e.p)) (T.sampleN (Nat.log2 t.data.length) s₁.ts).1) := by
  obtain ⟨hs, hk⟩ := C49_symmetric _ _ g hg
  have hac := (C48_complete g hk).1.mp fun a n hn => (C49_built_complete _ _ g hg a n hn).1
  have hac' := (C48_complete g hk).2.mp fun a n hn => (C49_built_complete _ _ g hg a n hn).2
  obtain ⟨s₁', shl, s₃, s₄, log, h₁, h₂, h₃, h₄, h₅, h₆, h₇⟩ := C87_single_sound_partial (netVerifier e g shapes) hashOrder hhash g hk hs hac hac'
    (fun a n hn => by rcases hops a n hn with h | ⟨m, k, W, b, h⟩ <;> rw [h] <;> simp [netVerifier, NetLayer.kind])
    (fun a n hn _ => by rcases hops a n hn with h | ⟨m, k, W, b, h⟩ <;> rw [h] <;> simp [netVerifier, NetLayer.kind])
    hone (netEval e.convOp e.bl) (Tensor.toFields e.p) input val hval unpadded proof t s h
  have e₁ : s₁' = s₁ := by
    simp only [netVerifier, Option.some.injEq] at h₁
    rw [hstart, ← h₁]
  subst e₁
  refine ⟨s₃, shl, log, h₂, h₃, h₄, ?_⟩
  by_cases hl : ∃ c ∈ log, ∃ n m k W b x q last claim, (c.id, n) ∈ g ∧ n.op = .dense c.id m k W b ∧ List.Forall₂ (Carries input val) n.inputs [x] ∧ mapGet c.id proof.steps = some (.dense q) ∧
      c.outputs = [last] ∧ c.inputs = [claim] ∧
      LuckyRound 2 k (fun pt => mle (W.map (toField e.p)) (pt ++ last.point) * mle (x.data.map (toField e.p)) pt) q.sumcheck.proofs claim.point
  · exact Or.inl hl
  refine Or.inr ?_
  -- what the calls do
  have hcall : ∀ c ∈ log, ∀ n, (c.id, n) ∈ g → (n.op = .flatten → c.inputs = c.outputs ∧ c.after = c.before) ∧
      ∀ m k W b, n.op = .dense c.id m k W b → ∃ q sh, mapGet c.id proof.steps = some (.dense q) ∧ netVerify e (.dense c.id m k W b) (.dense q) c.outputs sh c.before = some (c.inputs, c.after) := by
    intro c hc n hn
    obtain ⟨n', hn', hv⟩ := h₄ c hc
    obtain rfl : n' = n := by
      have h1 := (mapGet_iff_mem g hk _ _).2 hn
      rw [(mapGet_iff_mem g hk _ _).2 hn'] at h1
      exact Option.some.inj h1
    refine ⟨fun hop => ?_, fun m k W b hop => ?_⟩
    · unfold verifyNode at hv
      rw [hop] at hv
      simp only [netVerifier, NetLayer.kind, LayerKind.hasProof, LayerKind.ctxProvable, Bool.false_eq_true, if_false, if_true, Option.bind_eq_bind, Option.bind_some, Option.bind_eq_some_iff] at hv
      obtain ⟨sh, -, hv⟩ := hv
      simp only [Option.some.injEq, Prod.mk.injEq] at hv
      exact ⟨hv.2.symm, hv.1.symm⟩
    · unfold verifyNode at hv
      rw [hop] at hv
      simp only [netVerifier, NetLayer.kind, LayerKind.hasProof, LayerKind.ctxProvable, if_true, Option.bind_eq_bind, Option.bind_some, Option.bind_eq_some_iff, Option.map_eq_some_iff] at hv
      obtain ⟨q', ⟨q, hq, rfl⟩, sh, -, p, hp, r, hr, hrr⟩ := hv
      simp only [Option.some.injEq, Prod.mk.injEq] at hp hrr
      subst hp
      obtain ⟨hr₁, hr₂⟩ := hrr
      have hr' : netVerify e (.dense c.id m k W b) q c.outputs sh.1 c.before = some (c.inputs, c.after) := by rw [hr, ← hr₁, ← hr₂]
      cases q with
      | dense q => exact ⟨q, _, hq, hr'⟩
      | _ => simp [netVerify] at hr'
  have hmono := follows_claims log (by
    intro c hc x hx
    obtain ⟨n, hn, -⟩ := h₄ c hc
    rcases hops _ n hn with hop | ⟨m, k, W, b, hop⟩
    · rw [((hcall c hc n hn).1 hop).2]; exact hx
    · obtain ⟨q, _, -, hv⟩ := (hcall c hc n hn).2 m k W b hop
      exact netVerify_claims e _ _ _ _ _ _ _ hv x hx) _ _ h₃
  have hmc : s₄.modelClaims = s₃.modelClaims := netTables_claims e _ _ _ h₅
  have hbound := hbind _ _ _ _ h₆
  rw [hmc] at hbound
  have hlen : ∀ v : Tensor ℤ, (v.toFields e.p : Tensor F).data.length = v.data.length := fun v => by simp [Tensor.toFields]
  intro j a n i w v hn hw he hv
  have := h₇ ?_ j a n i w v hn hw he hv
  · rw [hlen] at this
    exact this
  intro c hc n' ins hn' hins hcl
  obtain ⟨ins', hins', hev⟩ := hval c.id n' hn'
  obtain rfl : ins' = ins := carries_unique hins' hins
  obtain ⟨hf, hsm⟩ := hfit c.id n' ins' hn' hins
  rcases hops _ n' hn' with hop | ⟨m, k, W, b, hop⟩
  · rw [hop, netEval] at hev
    obtain ⟨q₁, -⟩ := (hcall c hc n' hn').1 hop
    match ins', hev with
    | [x], hev =>
      simp only [flattenEvaluate, Option.some.injEq] at hev
      rw [q₁] at hcl
      intro i' t' cl ht hcl'
      rw [← hev] at ht
      match i', ht with
      | 0, ht =>
        obtain ⟨cl', hc₁, hc₂⟩ := hcl 0 _ rfl
        rw [hcl', Option.some.injEq] at hc₁
        subst hc₁
        simp only [List.map_cons, List.map_nil, List.getElem?_cons_zero, Option.some.injEq] at ht
        subst ht
        exact hc₂
  · obtain ⟨q, _, hq, hv'⟩ := (hcall c hc n' hn').2 m k W b hop
    rw [hop] at hf hev
    match ins', hf, hev with
    | [x], hf, hev =>
      obtain ⟨-, hW, hb, hx, hsx, hWp, hbp⟩ := hf
      simp only [netEval, Option.map_eq_some_iff] at hev
      obtain ⟨y, hev, hy⟩ := hev
      rw [← hy] at hsm ⊢
      obtain ⟨hyl, hdv⟩ := dense_values (F := F) e.p m k W b x y hW hb hx hsx hWp hbp (hsm x (by simp)) (hsm y (by simp)) hev
      match ho : c.outputs, hv' with
      | [last], hv' =>
        simp only [netVerify, Option.bind_eq_bind, Option.bind_eq_some_iff, Option.some.injEq, Prod.mk.injEq] at hv'
        obtain ⟨⟨claim, common, ts'⟩, hd, hi, ha⟩ := hv'
        have hin : ∀ z ∈ common, (c.id, z.1, z.2) ∈ s₃.modelClaims := by
          intro z hz
          refine hmono.2 c hc _ ?_
          rw [← ha]
          exact List.mem_append_right _ (List.mem_map.2 ⟨z, hz, rfl⟩)
        have hwc : ∀ z, ("DenseWeight", z) ∈ common → PolyClaim (W.map (toField e.p) : List F) z := fun z hz =>
          hbound _ (hin _ hz) _ (Or.inr ⟨n', _, _, _, _, _, hn', hop, Or.inl ⟨rfl, rfl⟩⟩)
        have hbc : ∀ z, ("DenseBias", z) ∈ common → PolyClaim (b.map (toField e.p) : List F) z := fun z hz =>
          hbound _ (hin _ hz) _ (Or.inr ⟨n', _, _, _, _, _, hn', hop, Or.inr ⟨rfl, rfl⟩⟩)
        have hlast : last.point.length = m := by
          have : ("DenseBias", (⟨last.point, q.biasEval⟩ : Claim F)) ∈ common := by
            unfold verifyDense at hd
            simp only [Option.bind_eq_bind, Option.bind_eq_some_iff] at hd
            obtain ⟨⟨sub, ts1⟩, -, e0, -, hd⟩ := hd
            split at hd
            · simp only [Option.bind_eq_some_iff, Option.some.injEq, Prod.mk.injEq] at hd
              obtain ⟨e1, -, -, rfl, -⟩ := hd
              simp
            · cases hd
          have := (hbc _ this).1
          rw [List.length_map, hb] at this
          exact (Nat.pow_right_injective (le_refl 2) this).symm
        obtain ⟨cl, hcl₁, hcl₂⟩ := hcl 0 (x.toFields e.p) rfl
        rw [← hi] at hcl₁
        simp only [List.getElem?_cons_zero, Option.some.injEq] at hcl₁
        subst hcl₁
        obtain ⟨-, r⟩ := C35_dense_sound_partial T hchar m k (W.map (toField e.p)) (b.map (toField e.p)) (x.data.map (toField e.p)) last hlast q
          (hproof _ (mem_of_mapGet _ _ _ hq) q rfl) _ _ claim common hd hcl₂.2.symm (fun z hz => (hwc z hz).2.symm) (fun z hz => (hbc z hz).2.symm)
        rcases r with r | r
        · intro i' t' cl ht hcl'
          match i', ht, hcl' with
          | 0, ht, hcl' =>
            simp only [List.map_cons, List.map_nil, List.getElem?_cons_zero, Option.some.injEq, ho] at ht hcl'
            subst ht hcl'
            refine ⟨by rw [hlen, hyl, hlast], ?_⟩
            rw [r, hdv]
            rfl
          | i' + 1, ht, hcl' => simp at ht
        · exact absurd ⟨c, hc, n', m, k, W, b, x, q, last, claim, hn', hop, hins, hq, ho, hi.symm, r⟩ hl

/-! ### Example -/

/-- Flatten and a dense layer with two outputs. -/
def affineGraph : Graph NetLayer :=
  [(0, ⟨[⟨none, 0⟩], [[⟨some 1, 0⟩]], .flatten⟩), (1, ⟨[⟨some 0, 0⟩], [[⟨none, 0⟩]], .dense 1 1 2 [1, 2, -1, 0, 3, -2, 1, 1] [1, -7]⟩)]

theorem affineGraph_built : Spec.Built (fun _ _ => 1) 1 affineGraph := by
  have h₁ := Spec.Built.consecutive (numOutputs := fun (_ : NetLayer) _ => 1) (numInputs := 1) .empty (prev := none) (op := .flatten) (id := 0) rfl
  have h₂ := Spec.Built.consecutive h₁ (prev := some 0) (op := .dense 1 1 2 [1, 2, -1, 0, 3, -2, 1, 1] [1, -7]) (id := 1) rfl
  exact Spec.Built.route h₂ (edges := none) rfl

/-- As `netEnv`, with the polynomials of this model. -/
def affineEnv : NetEnv (ZMod 524287) (List (ZMod 524287)) Unit countTranscript where
  threads := 1
  p := 524287
  bl := 3
  contents := fun _ x => x
  order := []
  absorb := fun s => s
  adicity := 1
  root := -1
  toE := toElement
  commit := fun f => f
  openAll := fun _ _ _ => some ()
  verifyAll := fun ms ws _ _ =>
    (ms.all fun x => x.1 == 1 && ((x.2.1 == "DenseWeight" && claimTrue ([1, 2, -1, 0, 3, -2, 1, 1].map (toField 524287)) x.2.2) ||
      (x.2.1 == "DenseBias" && claimTrue ([1, -7].map (toField 524287)) x.2.2))) && ws.all fun x => claimTrue x.1 x.2

instance affineEnv_char : CharP (ZMod 524287) affineEnv.p := inferInstanceAs (CharP (ZMod 524287) 524287)

/-- The outputs of the nodes on the input `[[3, 1], [-2, 0]]`. -/
def affineVal : ℕ → List (Tensor ℤ)
  | 0 => [⟨[4], [3, 1, -2, 0]⟩]
  | 1 => [⟨[2], [8, -2]⟩]
  | _ => []

/-- The proof the honest prover makes. -/
def affineMade : Option (WholeProof (NetProof (ZMod 524287) (List (ZMod 524287))) (NetTableProof (ZMod 524287) (List (ZMod 524287))) Unit) :=
  proveWhole (netProver affineEnv affineGraph fun _ => ([], [])) affineGraph
    (fun a => match a with
      | 0 => ([(⟨[2, 2], [3, 1, -2, 0]⟩ : Tensor ℤ).toFields 524287], (affineVal 0).map (Tensor.toFields 524287))
      | _ => ((affineVal 0).map (Tensor.toFields 524287), (affineVal 1).map (Tensor.toFields 524287))) ([⟨[2], [8, -2]⟩].map (Tensor.toFields 524287)) netState

theorem affineGraph_cases {P : ℕ → Node NetLayer → Prop} (h₀ : P 0 ⟨[⟨none, 0⟩], [[⟨some 1, 0⟩]], .flatten⟩)
    (h₁ : P 1 ⟨[⟨some 0, 0⟩], [[⟨none, 0⟩]], .dense 1 1 2 [1, 2, -1, 0, 3, -2, 1, 1] [1, -7]⟩) (a : ℕ) (n : Node NetLayer) (hn : (a, n) ∈ affineGraph) : P a n := by
  simp only [affineGraph, List.mem_cons, Prod.mk.injEq, List.not_mem_nil, or_false] at hn
  rcases hn with ⟨rfl, rfl⟩ | ⟨rfl, rfl⟩ <;> assumption

theorem affineEnv_binds (ms : List (ℕ × String × Claim (ZMod 524287))) (ws : List (List (ZMod 524287) × Claim (ZMod 524287))) (cp : Unit) (ts : ℕ) (h : affineEnv.verifyAll ms ws cp ts = true)
    (x : ℕ × String × Claim (ZMod 524287)) (hx : x ∈ ms) (f : List (ZMod 524287)) (hf : ModelPoly affineEnv.p affineGraph x.1 x.2.1 f) : PolyClaim f x.2.2 := by
  simp only [affineEnv, Bool.and_eq_true, List.all_eq_true] at h
  obtain ⟨-, h⟩ := h.1 x hx
  rcases hf with ⟨n, i, layer, u, hn, hop, -⟩ | ⟨n, i, k, l, W, b, hn, hop, hf⟩
  · revert hop
    exact affineGraph_cases (P := fun _ n => n.op = .conv i layer u → _) (fun h => by cases h) (fun h => by cases h) x.1 n hn
  have hWb : W = [1, 2, -1, 0, 3, -2, 1, 1] ∧ b = [1, -7] := by
    revert hop
    refine affineGraph_cases (P := fun _ n => n.op = .dense i k l W b → W = [1, 2, -1, 0, 3, -2, 1, 1] ∧ b = [1, -7]) ?_ ?_ x.1 n hn
    · intro h; cases h
    · intro h
      simp only [NetLayer.dense.injEq] at h
      exact ⟨h.2.2.2.1.symm, h.2.2.2.2.symm⟩
  obtain ⟨rfl, rfl⟩ := hWb
  rw [Bool.or_eq_true, Bool.and_eq_true, Bool.and_eq_true, beq_iff_eq, beq_iff_eq] at h
  rcases hf with ⟨e, rfl⟩ | ⟨e, rfl⟩ <;> rcases h with ⟨e', h⟩ | ⟨e', h⟩
  · exact ⟨of_decide_eq_true (Bool.and_eq_true_iff.1 h).1, of_decide_eq_true (Bool.and_eq_true_iff.1 h).2⟩
  · rw [e] at e'; simp at e'
  · rw [e] at e'; simp at e'
  · exact ⟨of_decide_eq_true (Bool.and_eq_true_iff.1 h).1, of_decide_eq_true (Bool.and_eq_true_iff.1 h).2⟩

set_option maxRecDepth 100000 in
/-- The conditions of `C97_affine_partial` hold for this network and the honest proof, which is accepted. -/
example : ∃ proof, affineMade = some proof ∧ (∀ x ∈ proof.steps, ∀ q, x.2 = .dense q → q.individualClaims.length = 2) ∧
    verifyWhole (netVerifier affineEnv affineGraph fun _ l => l) id affineGraph [[2, 2]] proof ([(⟨[2, 2], [3, 1, -2, 0]⟩ : Tensor ℤ)].map (Tensor.toFields affineEnv.p)) [⟨[2], [8, -2]⟩] netState = some () ∧
    ((∀ a n, (a, n) ∈ affineGraph → n.op = .flatten ∨ ∃ m k W b, n.op = .dense a m k W b) ∧ (∀ x ∈ affineGraph, (x.2.outputs.filter fun w => w.any (·.node.isNone)).length ≤ 1) ∧
      Dataflow (netEval affineEnv.convOp affineEnv.bl) affineGraph [⟨[2, 2], [3, 1, -2, 0]⟩] affineVal ∧
      ∀ a n ins, (a, n) ∈ affineGraph → List.Forall₂ (Carries [⟨[2, 2], [3, 1, -2, 0]⟩] affineVal) n.inputs ins →
        NetFits affineEnv.adicity affineEnv.p affineEnv.bl a n.op ins ∧ ∀ t ∈ ins ++ affineVal a, ∀ v ∈ t.data, v.natAbs ≤ affineEnv.p) := by
  have g₁ : affineMade.map (fun proof => proof.steps.all fun x => match x.2 with | .dense q => q.individualClaims.length == 2 | _ => true) = some true := by decide +kernel
  have g₂ : (affineMade.bind fun proof => verifyWhole (netVerifier affineEnv affineGraph fun _ l => l) id affineGraph [[2, 2]] proof
      ([(⟨[2, 2], [3, 1, -2, 0]⟩ : Tensor ℤ)].map (Tensor.toFields affineEnv.p)) [⟨[2], [8, -2]⟩] netState) = some () := by decide +kernel
  obtain ⟨proof, hm, hv⟩ := Option.bind_eq_some_iff.1 g₂
  rw [hm, Option.map_some, Option.some.injEq] at g₁
  refine ⟨proof, hm, ?_, hv, affineGraph_cases (Or.inl rfl) (Or.inr ⟨_, _, _, _, rfl⟩), by decide, affineGraph_cases ⟨_, .cons rfl .nil, by decide⟩ ⟨_, .cons rfl .nil, by decide⟩, ?_⟩
  · intro x hx q hq
    have := List.all_eq_true.1 g₁ x hx
    rw [hq] at this
    simpa using this
  · intro a n ins hn hins
    revert hins
    refine affineGraph_cases (P := fun a n => List.Forall₂ (Carries [⟨[2, 2], [3, 1, -2, 0]⟩] affineVal) n.inputs ins →
        NetFits affineEnv.adicity affineEnv.p affineEnv.bl a n.op ins ∧ ∀ t ∈ ins ++ affineVal a, ∀ v ∈ t.data, v.natAbs ≤ affineEnv.p) ?_ ?_ a n hn
    · intro h
      obtain rfl : ins = [⟨[2, 2], [3, 1, -2, 0]⟩] := carries_unique h (.cons rfl .nil)
      exact ⟨trivial, by decide⟩
    · intro h
      obtain rfl : ins = [⟨[4], [3, 1, -2, 0]⟩] := carries_unique h (.cons rfl .nil)
      exact ⟨⟨rfl, by decide, by decide, by decide, by decide, by decide, by decide⟩, by decide⟩

end Props
