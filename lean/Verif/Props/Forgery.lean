import Verif.Props.Network
import Verif.Props.LookupLayers
import Verif.Spec.Forgery

/-!
C97: an accepted proof does not mean that the outputs are those of the network.
-/

namespace Props

open Model Spec Lemmas

variable {F C CP : Type} [Field F] [DecidableEq F] {T : Transcript F}

/-- The forged proof of the layer is in step with the verifier. -/
theorem forged_in_step (e : NetEnv F C CP T) [CharP F e.p] (hthreads : 0 < e.threads) (hchar : ∀ k : ℕ, 0 < k → k ≤ 5 → (k : F) ≠ 0) (hbl : 1 ≤ e.bl) (hp : 2 ^ e.bl ≤ e.p) (hF : ConvField e)
    (g : Graph NetLayer) (trace : ℕ → List (Tensor ℤ) × List (Tensor ℤ)) (c : F) (ch : List (TableType × F)) (a : ℕ) (n : Node NetLayer) (hn : (a, n) ∈ g) (r : Requant) (hop : n.op = .requant r)
    (x y : Tensor ℤ) (htr : trace a = ([x], [y]))
    (hev : netEval e.convOp e.bl n.op [x] = some [y]) (hf : NetFits e.adicity e.p e.bl a n.op [x])
    (hsm : ∀ t ∈ [x] ++ [y], ∀ v ∈ t.data, v.natAbs ≤ e.p)
    (hg2 : ∀ t ∈ n.op.tables, ∃ csc, mapGet t ch = some csc ∧ (tableLabel t = none → csc = 1))
    (lk : List (TableType × List (List ℤ))) (h1 : nodeLookups e.bl n.op [x] [y] = some lk) (h3 : ∀ z ∈ lk, ∀ r ∈ z.2, r ∈ tableRows e.contents e.bl z.1)
    (x' : Tensor F) (hx' : x'.data.length = x.data.length) (sh : List (List ℕ × List ℕ)) :
    InStepIf (NetInv e g c ch) (fun p => NetGood p ∧ LastNonzero p) (NetFacts e c ch lk) (forgingProve e trace a n.op a [x'] [y.toFields e.p])
      (fun p claims s => netVerify e n.op p claims sh s) [x'] [y.toFields e.p] := by
  have hh := net_honest_layer e hthreads hchar hbl hp hF g trace c ch a n hn (by rw [hop]; simp [NetLayer.kind]) (by rw [htr]; exact hev) (by rw [htr]; exact hf) (by rw [htr]; exact hsm) hg2 sh
    (fun i layer u h => by rw [hop] at h; cases h) lk (by rw [htr]; exact h1) h3
  have hnb : ∀ claims s, ¬ConvDivides (C := C) e trace n.op a claims s := by
    rintro claims s ⟨i, layer, u, x, y, last, r, h, -⟩
    rw [hop] at h
    cases h
  rw [htr] at hh
  rw [hop] at hh hf hg2 hnb ⊢
  obtain ⟨-, -, -, hf0, hfp, size, hsize, -⟩ := id hf
  obtain ⟨csc, hcsc, -⟩ := hg2 (.clamping size) (by simp [NetLayer.tables, hsize])
  have hinv : (toField e.p r.fpm : F) ≠ 0 := by
    rw [toField_eq_cast e.p r.fpm (by omega), show r.fpm = ((r.fpm.toNat : ℕ) : ℤ) by omega, Int.cast_natCast]
    intro h0
    rw [CharP.cast_eq_zero_iff F e.p] at h0
    have := Nat.le_of_dvd (by omega) h0
    omega
  have hB : ((2 ^ e.bl : ℕ) : F) ≠ 0 := by
    rw [Nat.cast_pow]
    exact pow_ne_zero _ (hchar 2 (by omega) (by omega))
  intro claims s hI hholds
  obtain ⟨ic, p, s', k1, k2, k3, k4⟩ := hh claims s (hnb claims s) hI hholds
  have hchal : s.challenge (.clamping size) = some (c, csc) := by simp [NetState.challenge, hI.1, hI.2.1, hcsc]
  match claims, hholds with
  | [last], _ =>
    -- the honest proof is one of a requantisation
    have hmade : ∃ proof claim, p = .requant proof ∧ ic = [claim] := by
      simp only [netProve, htr, hsize, hchal, Option.bind_eq_bind, Option.bind_some, Option.bind_eq_some_iff, Option.some.injEq, Prod.mk.injEq] at k1
      obtain ⟨⟨proof, claim, wit, ts⟩, -, rfl, rfl, rfl⟩ := k1
      exact ⟨_, _, rfl, rfl⟩
    obtain ⟨proof, claim, rfl, rfl⟩ := hmade
    refine ⟨[⟨claim.point, mle x'.data claim.point⟩], .requant (forgedProof T e.p e.bl r last proof c csc s.ts x'.data), s', ?_, k2, ?_, ?_⟩
    · have : netProve e trace (.requant r) a [x'] [last] s = netProve e trace (.requant r) a (List.map (Tensor.toFields e.p) [x]) [last] s := by
        simp only [netProve, htr]
      dsimp only at k1
      rw [← this] at k1
      simp only [forgingProve, k1, Option.bind_eq_bind, Option.bind_some, if_true, forgedStep, hsize, hchal]
    · intro j t hj
      match j, hj with
      | 0, hj =>
        simp only [List.getElem?_cons_zero, Option.some.injEq] at hj
        subst hj
        obtain ⟨cl, hcl, hc1, hc2⟩ := k3 0 _ rfl
        simp only [List.getElem?_cons_zero, Option.some.injEq] at hcl
        subst hcl
        exact ⟨_, rfl, by simpa [Tensor.toFields, hx'] using hc1, rfl⟩
      | j + 1, hj => simp at hj
    · rintro ⟨hg, hl⟩
      obtain ⟨k5, k6⟩ := k4 hg
      refine ⟨k5, ?_⟩
      simp only [netVerify, hsize, hchal, Option.bind_eq_bind, Option.bind_some, Option.bind_eq_some_iff, Option.some.injEq, Prod.mk.injEq, List.cons.injEq, and_true] at k6
      obtain ⟨⟨claim', wit, ts'⟩, k6, rfl, rfl⟩ := k6
      obtain ⟨clamp, fr, ts1, shift, fr', ts2, d0, s0, d1, sub, lb, cb, sb, got, e0, q1, q2, -⟩ := requant_parts T e.p e.bl r last proof c csc s.ts ts' claim' wit k6
      have hfe : forgedEvals T e.p e.bl r last proof c csc s.ts x'.data = some
          [-((T.labelled ts2 "requant_batching").1 * ((mle x'.data claim'.point - claim'.eval) * (toField e.p r.fpm : F) / (((2 ^ e.bl : ℕ) : F) ^ (proof.accumulationEvals.drop 2).length * (((2 ^ e.bl : ℕ) : F) - (T.labelled ts2 "requant_batching").1)))),
            (mle x'.data claim'.point - claim'.eval) * (toField e.p r.fpm : F) / (((2 ^ e.bl : ℕ) : F) ^ (proof.accumulationEvals.drop 2).length * (((2 ^ e.bl : ℕ) : F) - (T.labelled ts2 "requant_batching").1))] := by
        simp only [forgedEvals, q1, q2, k6, Option.bind_eq_bind, Option.bind_some]
      have hne : (T.labelled ts2 "requant_batching").1 ≠ ((2 ^ e.bl : ℕ) : F) := by
        intro h0
        refine hl _ (by simp only [forgedProof, hfe, Option.getD_some]; rw [List.getLast?_append]; rfl) ?_
        rw [h0, sub_self, mul_zero, div_zero]
        rfl
      have := requant_any_claim T e.p e.bl r last proof c csc s.ts ts1 ts2 ts' claim' wit (clamp, fr) (shift, fr') q1 q2 k6 hne hB hinv (mle x'.data claim'.point) _ rfl
      simp only [netVerify, hsize, hchal, Option.bind_eq_bind, Option.bind_some, forgedProof, hfe, Option.getD_some, this]

/-- Soundness of the proofs of networks is false. Take any network as in `C96_complete` with a requantisation layer `target`, and any outputs of the nodes that are what the layers compute, except that
the requantisation has the output `val target` it would have on another input `other` of the same size. The dishonest prover makes a proof, unless a convolution makes it divide by zero, and unless a challenge is unlucky the verifier accepts it with
the wrong outputs of the network. -/
theorem C97_forgery_false (e : NetEnv F C CP T) [CharP F e.p] (hthreads : 0 < e.threads) (hchar : ∀ k : ℕ, 0 < k → k ≤ 5 → (k : F) ≠ 0) (hbl : 1 ≤ e.bl) (hbl' : e.bl ≤ 16)
    (hp : 2 ^ e.bl ≤ e.p) (hF : ConvField e) (hnd : e.order.Nodup)
    (hashOrder : List (ℕ × List ℕ) → List (ℕ × List ℕ)) (hhash : ∀ l, (hashOrder l).Perm l) (numOutputs : NetLayer → ℕ → ℕ) (numInputs : ℕ) (g : Graph NetLayer)
    (hg : Spec.Built numOutputs numInputs g) (hone : ∀ a n, (a, n) ∈ g → ∀ w ∈ n.outputs, w.length = 1)
    (hidx : ∃ N, 0 < N ∧ ∀ k, (∃ (a : ℕ) (n : Node NetLayer), (a, n) ∈ g ∧ (⟨none, k⟩ : Edge) ∈ n.inputs) ↔ k < N)
    (htab : ∀ a n, (a, n) ∈ g → ∀ t ∈ n.op.tables, t ∈ e.order)
    (input outputs : List (Tensor ℤ)) (ins val : ℕ → List (Tensor ℤ)) (target : ℕ) (r : Requant) (hr : ∀ m, (target, m) ∈ g → m.op = .requant r)
    (actual other : Tensor ℤ) (hactual : ins target = [actual]) (hother : other.data.length = actual.data.length)
    (hedge : ∀ b m, (b, m) ∈ g → List.Forall₂ (Carries input val) m.inputs (ins b) ∧ (val b).length = m.outputs.length)
    (hval : ∀ b m, (b, m) ∈ g → b ≠ target → netEval e.convOp e.bl m.op (ins b) = some (val b) ∧ NetFits e.adicity e.p e.bl b m.op (ins b))
    (htarget : netEval e.convOp e.bl (.requant r) [other] = some (val target) ∧ NetFits e.adicity e.p e.bl target (.requant r) [other])
    (hres : ∀ (a : ℕ) (n : Node NetLayer) (i k : ℕ) (w : List Edge), (a, n) ∈ g → n.outputs[i]? = some w → (⟨none, k⟩ : Edge) ∈ w → ∃ t, (val a)[i]? = some t ∧ outputs[k]? = some t)
    (hsmall : ∀ a n, (a, n) ∈ g → ∀ t ∈ other :: ins a ++ val a, ∀ v ∈ t.data, v.natAbs ≤ e.p)
    (hpow : ∀ t ∈ outputs, ∃ k, t.data.length = 2 ^ k)
    (bnodes : Graph NetLayer) (bound : List (ℕ × List ℕ)) (hbn : nodesOf g (backwardOrder g) = some bnodes) (hb : bindOutputs outputs.length bnodes = some bound)
    (horder : (hashOrder bound).flatMap (·.2) = List.range outputs.length)
    (unpadded : List (List ℕ)) (shapes : NetLayer → List (List ℕ × List ℕ) → List (List ℕ × List ℕ))
    (shs : List (ℕ × List (List ℕ × List ℕ) × List (List ℕ × List ℕ))) (hsh : shapeSteps (netVerifier e g shapes) g unpadded (input.map Tensor.shape) = some shs)
    (hconv : ∀ a n i layer u sh, (a, n) ∈ g → n.op = .conv i layer u → mapGet a shs = some sh → sh.1 = (ins a).map fun x => (u, x.shape))
    (hopen : ∀ (ms : List (ℕ × String × Claim F)) (ws : List (C × Claim F)) (ts : T.State),
      (∀ x ∈ ms, ∃ f, ModelPoly e.p g x.1 x.2.1 f ∧ PolyClaim f x.2.2) → (∀ x ∈ ws, ∃ f, x.1 = e.commit f ∧ PolyClaim f x.2) →
      ∃ cp, e.openAll ms ws ts = some cp ∧ e.verifyAll ms ws cp ts = true)
    (s : NetState T.State F C) (hs₁ : s.modelClaims = []) (hs₂ : s.witnessClaims = []) (s₁ : NetState T.State F C)
    (hstart : s₁ = netStart e (ctxTables e.order g).isEmpty (ctxTables e.order g) s)
    (hsafe : ∀ out, tensorClaims (fun (s : NetState T.State F C) n => ((T.sampleN n s.ts).1, { s with ts := (T.sampleN n s.ts).2 })) (outputs.map (Tensor.toFields e.p)) s₁ = some out →
      NeverBad (forgingProver e g (fun a => (if a = target then [other] else ins a, val a)) target) g (fun a => ((ins a).map (Tensor.toFields e.p), (val a).map (Tensor.toFields e.p)))
        (fun a claims s => ∃ n, (a, n) ∈ g ∧ ConvDivides e (fun b => (if b = target then [other] else ins b, val b)) n.op a claims s) out.1 out.2) :
    ∃ proof, proveWhole (forgingProver e g (fun a => (if a = target then [other] else ins a, val a)) target) g
        (fun a => ((ins a).map (Tensor.toFields e.p), (val a).map (Tensor.toFields e.p))) (outputs.map (Tensor.toFields e.p)) s = some proof ∧
      ((∀ x ∈ proof.steps, ∀ sp ∈ layerSumchecks x.2, GoodPoint sp) → (∀ x ∈ proof.steps, x.1 = target → LastNonzero x.2) →
        (∀ tp ∈ proof.tableProofs, ∀ sp ∈ tp.lookup.sumcheckProofs, GoodPoint sp) →
        (∀ t csc, (t, csc) ∈ s₁.challenges → NoPole e.p e.bl e.contents s₁.constant csc t) →
        verifyWhole (netVerifier e g shapes) hashOrder g unpadded proof (input.map (Tensor.toFields e.p)) (outputs.map (Tensor.toFields e.p)) s = some ()) := by
  have hwit : ∀ b m, (b, m) ∈ g → NetFits e.adicity e.p e.bl b m.op (if b = target then [other] else ins b) ∧ netEval e.convOp e.bl m.op (if b = target then [other] else ins b) = some (val b) := by
    intro b m hm
    by_cases hb : b = target
    · rw [if_pos hb, hb, hr m (hb ▸ hm)]
      exact htarget.symm
    · rw [if_neg hb]
      exact (hval b m hm hb).symm
  refine Exists.imp (fun proof h => ⟨h.1, fun q₁ q₂ => h.2 fun x hx => ⟨q₁ x hx, q₂ x hx⟩⟩) (net_whole e hthreads hchar hbl hbl' hp hnd hashOrder hhash numOutputs numInputs g hg hone hidx htab input outputs ins val (fun a => if a = target then [other] else ins a) val
    hedge hwit (fun a n hn hkind => ?_) hres hpow bnodes bound hbn hb horder unpadded shapes shs hsh hopen
    (forgingProve e (fun a => (if a = target then [other] else ins a, val a)) target) (fun a p => NetGood p ∧ (a = target → LastNonzero p)) _ (fun c ch a n sh hn hshn hkind hg2 lk h1 h3 => ?_) s hs₁ hs₂ s₁ hstart hsafe)
  · have hat : a ≠ target := by
      rintro rfl
      rw [hr n hn] at hkind
      simp [NetLayer.kind] at hkind
    cases hop : n.op with
    | flatten =>
      have hev := (hval a n hn hat).1
      rw [hop, netEval] at hev
      match hins : ins a, hev with
      | [x], hev =>
        simp only [flattenEvaluate, Option.some.injEq] at hev
        rw [← hev]
        exact .cons rfl .nil
    | dense | relu | requant | pooling | conv => rw [hop] at hkind; simp [NetLayer.kind] at hkind
  · by_cases hat : a = target
    · subst hat
      have hop := hr n hn
      rw [if_pos rfl] at h1
      obtain ⟨y, hy⟩ : ∃ y, val a = [y] := by
        have hev := htarget.1
        simp only [netEval, Option.map_eq_some_iff] at hev
        obtain ⟨y, -, hy⟩ := hev
        exact ⟨_, hy.symm⟩
      have hst := forged_in_step e hthreads hchar hbl hp hF g (fun b => (if b = a then [other] else ins b, val b)) c ch a n hn r hop other y (by simp [hy]) (by rw [hop, htarget.1, hy])
        (by rw [hop]; exact htarget.2) (fun t ht => hsmall a n hn t (by rw [hy]; simp at ht ⊢; tauto)) hg2 lk (by rw [← hy]; exact h1) h3 (actual.toFields e.p) (by simp [Tensor.toFields, hother]) sh.1
      rw [hy, hactual]
      have : (fun p : NetProof F C => NetGood p ∧ (a = a → LastNonzero p)) = fun p => NetGood p ∧ LastNonzero p := by funext p; simp
      rw [this]
      exact hst.unless _
    · rw [if_neg hat] at h1
      have hst := net_honest_layer e hthreads hchar hbl hp hF g (fun b => (if b = target then [other] else ins b, val b)) c ch a n hn hkind (by dsimp only; rw [if_neg hat]; exact (hval a n hn hat).1)
        (by dsimp only; rw [if_neg hat]; exact (hval a n hn hat).2) (by dsimp only; rw [if_neg hat]; exact fun t ht => hsmall a n hn t (by simp at ht ⊢; tauto)) hg2 sh.1
        (fun i layer u hop => by dsimp only; rw [if_neg hat]; exact hconv a n i layer u sh hn hop hshn) lk (by dsimp only; rw [if_neg hat]; exact h1) h3
      dsimp only at hst
      rw [if_neg hat] at hst
      intro claims st hbad hI hh
      obtain ⟨ic, p, s', k1, k2, k3, k4⟩ := hst claims st (fun h => hbad ⟨n, hn, h⟩) hI hh
      refine ⟨ic, p, s', ?_, k2, k3, fun hg => k4 hg.1⟩
      simp only [forgingProve, k1, Option.bind_eq_bind, Option.bind_some, if_neg hat]

/-! ### A wrong output -/

/-- The inputs and outputs of the nodes of `netGraph` when the requantisation layer is given another output. -/
def forgedTrace : ℕ → List (Tensor ℤ) × List (Tensor ℤ)
  | 0 => ([netInput], [⟨[4, 1, 1], [2, -2, 3, 0]⟩])
  | 1 => ([⟨[4, 1, 1], [2, -2, 3, 0]⟩], [⟨[4], [2, -2, 3, 0]⟩])
  | 2 => ([⟨[4], [2, -2, 3, 0]⟩], [⟨[4], [-4, 12, 3, 11]⟩])
  | 3 => ([⟨[4], [-4, 12, 3, 11]⟩], [⟨[4], [3, -1, -1, 0]⟩])
  | 4 => ([⟨[4], [3, -1, -1, 0]⟩], [⟨[4], [3, 0, 0, 0]⟩])
  | _ => ([], [])

def forgedOther : Tensor ℤ := ⟨[4], [12, -4, -3, 0]⟩

def forgedMade : Option (WholeProof (NetProof (ZMod 524287) (List (ZMod 524287))) (NetTableProof (ZMod 524287) (List (ZMod 524287))) Unit) :=
  proveWhole (forgingProver netEnv netGraph (fun a => (if a = 3 then [forgedOther] else (forgedTrace a).1, (forgedTrace a).2)) 3) netGraph
    (fun a => ((forgedTrace a).1.map (Tensor.toFields netEnv.p), (forgedTrace a).2.map (Tensor.toFields netEnv.p))) ([⟨[4], [3, 0, 0, 0]⟩].map (Tensor.toFields netEnv.p)) netState

set_option maxRecDepth 100000 in
/-- The output of the network on the input is `[0, 3, 1, 3]`, but there is a proof that the verifier accepts with the output `[3, 0, 0, 0]`. Every opening is checked by evaluating the polynomial. -/
theorem C97_wrong_output_false : (∀ a n, (a, n) ∈ netGraph → List.Forall₂ (Carries [netInput] fun b => (netTrace b).2) n.inputs (netTrace a).1 ∧ netEval netEnv.convOp 3 n.op (netTrace a).1 = some (netTrace a).2) ∧
    (netTrace 4).2 = [⟨[4], [0, 3, 1, 3]⟩] ∧
    ∃ proof, forgedMade = some proof ∧ proof.steps.map (·.1) = [4, 3, 2, 0] ∧
      verifyWhole (netVerifier netEnv netGraph fun _ l => l) id netGraph [[4, 2, 2]] proof ([netInput].map (Tensor.toFields netEnv.p))
        ([⟨[4], [3, 0, 0, 0]⟩].map (Tensor.toFields netEnv.p)) netState = some () := by
  refine ⟨netGraph_cases ⟨.cons rfl .nil, by decide⟩ ⟨.cons rfl .nil, by decide⟩ ⟨.cons rfl .nil, by decide⟩ ⟨.cons rfl .nil, by decide⟩ ⟨.cons rfl .nil, by decide⟩, rfl, ?_⟩
  obtain ⟨proof, h₁, h₂⟩ := C97_forgery_false netEnv (by decide) (fun k h h' => by interval_cases k <;> decide +kernel) (by decide) (by decide) (by decide) netEnv_field (by decide) id (fun l => .refl l) (fun _ _ => 1) 1 netGraph netGraph_built
    (netGraph_cases (by decide) (by decide) (by decide) (by decide) (by decide))
    ⟨1, by decide, fun k => by
      constructor
      · rintro ⟨a, n, hn, hk⟩
        revert hk
        exact netGraph_cases (P := fun _ n => (⟨none, k⟩ : Edge) ∈ n.inputs → k < 1) (by simp) (by simp) (by simp) (by simp) (by simp) a n hn
      · intro hk
        obtain rfl : k = 0 := by omega
        exact ⟨0, _, List.mem_cons_self, by decide⟩⟩
    (netGraph_cases (by decide) (by decide) (by decide) (by decide) (by decide))
    [netInput] [⟨[4], [3, 0, 0, 0]⟩] (fun a => (forgedTrace a).1) (fun a => (forgedTrace a).2) 3 ⟨0, 3, 3, 5⟩ (by
      intro m hm
      exact netGraph_cases (P := fun a n => a = 3 → n.op = .requant ⟨0, 3, 3, 5⟩) (by simp) (by simp) (by simp) (by simp) (by simp) 3 m hm rfl) ⟨[4], [-4, 12, 3, 11]⟩ forgedOther rfl rfl
    (netGraph_cases ⟨.cons rfl .nil, rfl⟩ ⟨.cons rfl .nil, rfl⟩ ⟨.cons rfl .nil, rfl⟩ ⟨.cons rfl .nil, rfl⟩ ⟨.cons rfl .nil, rfl⟩)
    (netGraph_cases (fun _ => ⟨by decide, by decide, ⟨2, 0, 0, rfl, rfl⟩, by decide, by decide⟩) (fun _ => ⟨by decide, trivial⟩) (fun _ => ⟨by decide, rfl, by decide, by decide, by decide, by decide, by decide, by decide⟩)
      (fun h => absurd rfl h) (fun _ => ⟨by decide, by decide, by decide, by decide⟩))
    ⟨by decide, ⟨2, by decide, by decide⟩, by decide, by decide, by decide, by decide, 4, by decide, by decide, by decide, by decide, by decide⟩
    (by
      intro a n i k w hn hw hk
      revert hw hk
      refine netGraph_cases (P := fun a n => n.outputs[i]? = some w → (⟨none, k⟩ : Edge) ∈ w → ∃ t, ((forgedTrace a).2)[i]? = some t ∧ ([⟨[4], [3, 0, 0, 0]⟩] : List (Tensor ℤ))[k]? = some t)
        ?_ ?_ ?_ ?_ ?_ a n hn <;>
      · intro hw hk
        rcases i with _ | i
        · simp only [List.getElem?_cons_zero, Option.some.injEq] at hw
          subst hw
          simp at hk
          try subst hk
          try exact ⟨_, rfl, rfl⟩
        · simp at hw)
    (netGraph_cases (by decide) (by decide) (by decide) (by decide) (by decide)) (by simpa using ⟨2, rfl⟩) _ _ rfl rfl rfl [[4, 2, 2]] (fun _ l => l) _ rfl
    (fun a n i layer u _ hn hop => absurd hop (netGraph_no_conv a n hn i layer u)) netEnv_opens netState rfl rfl _ rfl (fun _ _ => neverBad_of_no_conv _ _ _ netGraph_no_conv _ _ _ _)
  have g₁ : (forgedMade).map (fun proof => proof.steps.map (·.1)) = some [4, 3, 2, 0] := by decide +kernel
  have g₂ : (forgedMade).map (fun proof => proof.steps.flatMap fun x => (layerSumchecks x.2).flatMap (·.point)) =
      some ([1014, 1015, 1008, 1031, 1032, 1019, 1026, 1033, 1034, 1043, 1044, 1038].map fun n : ℕ => (n : ZMod 524287)) := by decide +kernel
  have g₃ : (forgedMade).map (fun proof => proof.tableProofs.flatMap fun x => x.lookup.sumcheckProofs.flatMap (·.point)) =
      some ([1049, 1053, 1054, 1061, 1065, 1066, 1073, 1077, 1078, 1082, 1083, 1084].map fun n : ℕ => (n : ZMod 524287)) := by decide +kernel
  have g₄ : (forgedMade).map (fun proof => proof.steps.all fun x => match x.2 with | .requant p => p.accumulationEvals.getLast? != some 0 | _ => true) = some true := by decide +kernel
  change forgedMade = _ at h₁
  rw [h₁, Option.map_some, Option.some.injEq] at g₁ g₂ g₃ g₄
  have hnat : ∀ n ∈ ([1014, 1015, 1008, 1031, 1032, 1019, 1026, 1033, 1034, 1043, 1044, 1038] ++ [1049, 1053, 1054, 1061, 1065, 1066, 1073, 1077, 1078, 1082, 1083, 1084] : List ℕ), 6 ≤ n ∧ n < 524287 := by decide
  have hgood : ∀ y ∈ ([1014, 1015, 1008, 1031, 1032, 1019, 1026, 1033, 1034, 1043, 1044, 1038] ++ [1049, 1053, 1054, 1061, 1065, 1066, 1073, 1077, 1078, 1082, 1083, 1084] : List ℕ).map (fun n : ℕ => (n : ZMod 524287)), ∀ k ≤ 5, y ≠ ((k : ℕ) : ZMod 524287) := by
    intro y hy k hk h
    obtain ⟨n, hn, rfl⟩ := List.mem_map.1 hy
    obtain ⟨h₆, h₇⟩ := hnat n hn
    have := congrArg ZMod.val h
    rw [ZMod.val_natCast_of_lt h₇, ZMod.val_natCast_of_lt (by omega)] at this
    omega
  rw [List.map_append, ← g₂, ← g₃] at hgood
  refine ⟨proof, h₁, g₁, h₂ (fun x hx sp hsp y hy k hk => hgood y ?_ k hk) (fun x hx _ => ?_) (fun x hx sp hsp y hy k hk => hgood y ?_ k hk) ?_⟩
  · exact List.mem_append_left _ (List.mem_flatMap.2 ⟨x, hx, List.mem_flatMap.2 ⟨sp, hsp, hy⟩⟩)
  · have := List.all_eq_true.1 g₄ x hx
    revert this
    cases x.2 with
    | requant p =>
      intro h v hv h0
      rw [h0] at hv
      simp [hv] at h
    | _ => intro _; trivial
  · exact List.mem_append_right _ (List.mem_flatMap.2 ⟨x, hx, List.mem_flatMap.2 ⟨sp, hsp, hy⟩⟩)
  have : ∀ x ∈ (netStart netEnv (ctxTables netEnv.order netGraph).isEmpty (ctxTables netEnv.order netGraph) netState).challenges,
      ∀ r ∈ tableRows netEnv.contents netEnv.bl x.1, (netStart netEnv (ctxTables netEnv.order netGraph).isEmpty (ctxTables netEnv.order netGraph) netState).constant
        + fingerprint x.2 (r.map (toField netEnv.p)) ≠ 0 := by decide +kernel
  exact fun t csc h => this (t, csc) h

end Props
