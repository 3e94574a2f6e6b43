import Verif.Lemmas.Network
import Verif.Lemmas.NetConv

/-!
Whole proofs of feed-forward networks, for any prover of the layers that is in step with the verifier (`net_whole`), and the honest provers of the layers (`net_honest_layer`).
-/

namespace Lemmas

open Model Spec Props

variable {F C CP : Type} [Field F] [DecidableEq F] {T : Transcript F}

/-- Every layer of an honest inference is proved in step with the verifier. -/
theorem net_honest_layer (e : NetEnv F C CP T) [CharP F e.p] (hthreads : 0 < e.threads) (hchar : ∀ k : ℕ, 0 < k → k ≤ 5 → (k : F) ≠ 0) (hbl : 1 ≤ e.bl) (hp : 2 ^ e.bl ≤ e.p) (hF : ConvField e)
    (g : Graph NetLayer) (trace : ℕ → List (Tensor ℤ) × List (Tensor ℤ)) (c : F) (ch : List (TableType × F)) (a : ℕ) (n : Node NetLayer) (hn : (a, n) ∈ g) (hkind : n.op.kind ≠ .flatten)
    (hev : netEval e.convOp e.bl n.op (trace a).1 = some (trace a).2) (hf : NetFits e.adicity e.p e.bl a n.op (trace a).1)
    (hsm : ∀ t ∈ (trace a).1 ++ (trace a).2, ∀ v ∈ t.data, v.natAbs ≤ e.p)
    (hg2 : ∀ t ∈ n.op.tables, ∃ csc, mapGet t ch = some csc ∧ (tableLabel t = none → csc = 1))
    (sh : List (List ℕ × List ℕ)) (hsh : ∀ i layer u, n.op = .conv i layer u → sh = (trace a).1.map fun x => (u, x.shape))
    (lk : List (TableType × List (List ℤ))) (h1 : nodeLookups e.bl n.op (trace a).1 (trace a).2 = some lk) (h3 : ∀ z ∈ lk, ∀ r ∈ z.2, r ∈ tableRows e.contents e.bl z.1) :
    InStepUnless (ConvDivides e trace n.op a) (NetInv e g c ch) NetGood (NetFacts e c ch lk) (netProve e trace n.op a ((trace a).1.map (Tensor.toFields e.p)))
      (fun p claims s => netVerify e n.op p claims sh s) ((trace a).1.map (Tensor.toFields e.p)) ((trace a).2.map (Tensor.toFields e.p)) := by
  obtain ⟨ti, hti⟩ : ∃ ti, ti = trace a := ⟨_, rfl⟩
  obtain ⟨ins, val⟩ := ti
  rw [← hti] at hev hf hsm h1 hsh ⊢
  dsimp only at hev hf hsm h1 hsh ⊢
  cases hop : n.op with
  | flatten => rw [hop] at hkind; exact absurd rfl hkind
  | dense id m k W b =>
    rw [hop] at hev hf h1
    match hins : ins, hev, hf with
    | [x], hev, hf =>
      have hv1 : ∃ y, val = [y] := by
        simp only [netEval, Option.map_eq_some_iff] at hev
        obtain ⟨y, -, hy⟩ := hev
        exact ⟨y, hy.symm⟩
      obtain ⟨y, hy⟩ := hv1
      rw [hy] at hev hsm
      rw [hy] at h1 ⊢
      simp only [nodeLookups, Option.some.injEq] at h1
      subst h1
      refine InStepIf.unless ?_ _
      exact net_dense e hthreads hchar sh g c ch _ a n hn id m k W b hop x y hf hev (hsm x (by simp)) (hsm y (by simp))
  | relu k =>
    rw [hop] at hev hf h1 hg2
    match hins : ins, hev, hf with
    | [x], hev, hf =>
      have hv1 : ∃ y, val = [y] := ⟨reluOp x, by simpa [netEval] using hev.symm⟩
      obtain ⟨y, hy⟩ := hv1
      rw [hy] at hev
      rw [hy] at h1 ⊢
      obtain ⟨csc, hcsc, -⟩ := hg2 .relu (by simp [NetLayer.tables])
      refine InStepIf.unless ?_ _
      exact net_relu e hthreads hchar sh g c ch _ a k x y (by rw [← hti, hy]) hf hev csc hcsc lk h1 fun z hz => h3 z hz
  | requant r =>
    rw [hop] at hev hf h1 hg2
    match hins : ins, hev, hf with
    | [x], hev, hf =>
      have hv1 : ∃ y, val = [y] := by
        simp only [netEval, Option.map_eq_some_iff] at hev
        obtain ⟨y, -, hy⟩ := hev
        exact ⟨_, hy.symm⟩
      obtain ⟨y, hy⟩ := hv1
      rw [hy] at hev hsm
      rw [hy] at h1 ⊢
      obtain ⟨-, -, -, -, -, size, hsize, -⟩ := id hf
      obtain ⟨csc, hcsc, -⟩ := hg2 (.clamping size) (by simp [NetLayer.tables, hsize])
      obtain ⟨one, hone, h1'⟩ := hg2 .range (by simp [NetLayer.tables, hsize])
      obtain rfl := h1' rfl
      refine InStepIf.unless ?_ _
      exact net_requant e hthreads hchar hbl hp sh g c ch _ a r x y (by rw [← hti, hy]) hf hev (hsm x (by simp)) size hsize csc hcsc hone lk h1 fun z hz => h3 z hz
  | pooling k =>
    rw [hop] at hev hf h1 hg2
    match hins : ins, hev, hf with
    | [x], hev, hf =>
      have hv1 : ∃ y, val = [y] := by
        simp only [netEval, Option.map_eq_some_iff] at hev
        obtain ⟨y, -, hy⟩ := hev
        exact ⟨_, hy.symm⟩
      obtain ⟨y, hy⟩ := hv1
      rw [hy] at hev
      rw [hy] at h1 ⊢
      obtain ⟨csc, hcsc, -⟩ := hg2 .range (by simp [NetLayer.tables])
      refine InStepIf.unless ?_ _
      exact net_pooling e hthreads hchar hbl hp sh g c ch _ a k x y (by rw [← hti, hy]) hf hev csc hcsc lk h1 fun z hz => h3 z hz

  | conv i layer u =>
    rw [hop] at hev hf h1
    have hsh' := hsh i layer u hop
    match hins : ins, hev, hf with
    | [x], hev, hf =>
      have hv1 : ∃ y, val = [y] := by
        simp only [netEval, Option.map_eq_some_iff] at hev
        obtain ⟨y, -, hy⟩ := hev
        exact ⟨y, hy.symm⟩
      obtain ⟨y, hy⟩ := hv1
      rw [hy] at hev
      rw [hy] at h1 ⊢
      simp only [nodeLookups, Option.some.injEq] at h1
      subst h1
      rw [hsh']
      exact net_conv e hthreads hchar hF g c ch trace a n hn i layer u hop x y (by rw [← hti, hy]) hf hev

/-- `wins` and `wval` are the values the lookup witnesses are made from, `ins` and `val` those the claims are about. -/
theorem net_whole (e : NetEnv F C CP T) [CharP F e.p] (hthreads : 0 < e.threads) (hchar : ∀ k : ℕ, 0 < k → k ≤ 5 → (k : F) ≠ 0) (hbl : 1 ≤ e.bl) (hbl' : e.bl ≤ 16)
    (hp : 2 ^ e.bl ≤ e.p) (hnd : e.order.Nodup)
    (hashOrder : List (ℕ × List ℕ) → List (ℕ × List ℕ)) (hhash : ∀ l, (hashOrder l).Perm l) (numOutputs : NetLayer → ℕ → ℕ) (numInputs : ℕ) (g : Graph NetLayer)
    (hg : Spec.Built numOutputs numInputs g) (hone : ∀ a n, (a, n) ∈ g → ∀ w ∈ n.outputs, w.length = 1)
    (hidx : ∃ N, 0 < N ∧ ∀ k, (∃ (a : ℕ) (n : Node NetLayer), (a, n) ∈ g ∧ (⟨none, k⟩ : Edge) ∈ n.inputs) ↔ k < N)
    (htab : ∀ a n, (a, n) ∈ g → ∀ t ∈ n.op.tables, t ∈ e.order)
    (input outputs : List (Tensor ℤ)) (ins val wins wval : ℕ → List (Tensor ℤ))
    (hval : ∀ b m, (b, m) ∈ g → List.Forall₂ (Carries input val) m.inputs (ins b) ∧ (val b).length = m.outputs.length)
    (hwit : ∀ b m, (b, m) ∈ g → NetFits e.adicity e.p e.bl b m.op (wins b) ∧ netEval e.convOp e.bl m.op (wins b) = some (wval b))
    (hflat : ∀ a n, (a, n) ∈ g → n.op.kind = .flatten → List.Forall₂ (fun x y : Tensor ℤ => x.data = y.data) (ins a) (val a))
    (hres : ∀ (a : ℕ) (n : Node NetLayer) (i k : ℕ) (w : List Edge), (a, n) ∈ g → n.outputs[i]? = some w → (⟨none, k⟩ : Edge) ∈ w → ∃ t, (val a)[i]? = some t ∧ outputs[k]? = some t)
    (hpow : ∀ t ∈ outputs, ∃ k, t.data.length = 2 ^ k)
    (bnodes : Graph NetLayer) (bound : List (ℕ × List ℕ)) (hbn : nodesOf g (backwardOrder g) = some bnodes) (hb : bindOutputs outputs.length bnodes = some bound)
    (horder : (hashOrder bound).flatMap (·.2) = List.range outputs.length)
    (unpadded : List (List ℕ)) (shapes : NetLayer → List (List ℕ × List ℕ) → List (List ℕ × List ℕ))
    (shs : List (ℕ × List (List ℕ × List ℕ) × List (List ℕ × List ℕ))) (hsh : shapeSteps (netVerifier e g shapes) g unpadded (input.map Tensor.shape) = some shs)
    (hopen : ∀ (ms : List (ℕ × String × Claim F)) (ws : List (C × Claim F)) (ts : T.State),
      (∀ x ∈ ms, ∃ f, ModelPoly e.p g x.1 x.2.1 f ∧ PolyClaim f x.2.2) → (∀ x ∈ ws, ∃ f, x.1 = e.commit f ∧ PolyClaim f x.2) →
      ∃ cp, e.openAll ms ws ts = some cp ∧ e.verifyAll ms ws cp ts = true)
    (pr : NetLayer → ℕ → List (Tensor F) → List (Tensor F) → List (Claim F) → NetState T.State F C → Option (List (Claim F) × NetProof F C × NetState T.State F C))
    (good : ℕ → NetProof F C → Prop) (bad : ℕ → List (Claim F) → NetState T.State F C → Prop)
    (hlayer : ∀ (c : F) (ch : List (TableType × F)) (a : ℕ) (n : Node NetLayer) (sh : List (List ℕ × List ℕ) × List (List ℕ × List ℕ)), (a, n) ∈ g → mapGet a shs = some sh → n.op.kind ≠ .flatten →
      (∀ t ∈ n.op.tables, ∃ csc, mapGet t ch = some csc ∧ (tableLabel t = none → csc = 1)) →
      ∀ lk, nodeLookups e.bl n.op (wins a) (wval a) = some lk → (∀ z ∈ lk, ∀ r ∈ z.2, r ∈ tableRows e.contents e.bl z.1) →
        InStepUnless (bad a) (NetInv e g c ch) (good a) (NetFacts e c ch lk) (pr n.op a ((ins a).map (Tensor.toFields e.p)) ((val a).map (Tensor.toFields e.p)))
          (fun p claims s => netVerify e n.op p claims sh.1 s) ((ins a).map (Tensor.toFields e.p)) ((val a).map (Tensor.toFields e.p)))
    (s : NetState T.State F C) (hs₁ : s.modelClaims = []) (hs₂ : s.witnessClaims = []) (s₁ : NetState T.State F C)
    (hstart : s₁ = netStart e (ctxTables e.order g).isEmpty (ctxTables e.order g) s)
    (hsafe : ∀ out, tensorClaims (fun (s : NetState T.State F C) n => ((T.sampleN n s.ts).1, { s with ts := (T.sampleN n s.ts).2 })) (outputs.map (Tensor.toFields e.p)) s₁ = some out →
      NeverBad { netProver e g (fun a => (wins a, wval a)) with prove := pr } g (fun a => ((ins a).map (Tensor.toFields e.p), (val a).map (Tensor.toFields e.p))) bad out.1 out.2) :
    ∃ proof, proveWhole { netProver e g (fun a => (wins a, wval a)) with prove := pr } g (fun a => ((ins a).map (Tensor.toFields e.p), (val a).map (Tensor.toFields e.p)))
        (outputs.map (Tensor.toFields e.p)) s = some proof ∧
      ((∀ x ∈ proof.steps, good x.1 x.2) → (∀ tp ∈ proof.tableProofs, ∀ sp ∈ tp.lookup.sumcheckProofs, GoodPoint sp) →
        (∀ t csc, (t, csc) ∈ s₁.challenges → NoPole e.p e.bl e.contents s₁.constant csc t) →
        verifyWhole (netVerifier e g shapes) hashOrder g unpadded proof (input.map (Tensor.toFields e.p)) (outputs.map (Tensor.toFields e.p)) s = some ()) := by
  obtain ⟨hs, hk⟩ := C49_symmetric _ _ g hg
  have hall : ∀ a n, (a, n) ∈ g → a ∈ forwardOrder g := fun a n hn => (C49_built_complete _ _ g hg a n hn).1
  have hac := (C48_complete g hk).1.mp hall
  have hac' := (C48_complete g hk).2.mp fun a n hn => (C49_built_complete _ _ g hg a n hn).2
  have hshape : (input.map (Tensor.toFields (F := F) e.p)).map Tensor.shape = input.map Tensor.shape := by
    rw [List.map_map]; rfl
  have htrace : HonestTrace g (input.map (Tensor.toFields (F := F) e.p)) (outputs.map (Tensor.toFields e.p))
      (fun a => ((ins a).map (Tensor.toFields e.p), (val a).map (Tensor.toFields e.p))) := by
    constructor
    · intro b m hm
      dsimp only
      rw [List.forall₂_map_right_iff]
      refine (hval b m hm).1.imp fun e v he => ?_
      unfold Carries at he ⊢
      split at he <;> simp_all
    · intro a n hn
      simpa using (hval a n hn).2
    · intro a n i k w hn hw he
      obtain ⟨t, h₁, h₂⟩ := hres a n i k w hn hw he
      exact ⟨t.toFields e.p, by simp [h₁], by simp [h₂]⟩
  -- lookups of the nodes
  have hnode : ∀ a n, (a, n) ∈ g → ∃ lk, nodeLookups e.bl n.op (wins a) (wval a) = some lk ∧ (∀ t, t ∈ n.op.tables ↔ ∃ rows, (t, rows) ∈ lk) ∧
      ∀ z ∈ lk, NetTable e.p z.1 ∧ ∀ r ∈ z.2, r ∈ tableRows e.contents e.bl z.1 :=
    fun a n hn => nodeLookups_spec F e.convOp e.adicity e.p e.bl hbl hp e.contents a n.op (wins a) (wval a) (hwit a n hn).1 (hwit a n hn).2
  obtain ⟨look, hlook⟩ : ∃ look : ℕ → Option (List (TableType × List (List ℤ))), look = fun id => (do
      let n ← mapGet id g
      nodeLookups e.bl n.op (wins id) (wval id)) := ⟨_, rfl⟩
  have hlook' : ∀ a n, (a, n) ∈ g → look a = nodeLookups e.bl n.op (wins a) (wval a) := by
    intro a n hn
    rw [hlook]
    simp only [(mapGet_iff_mem g hk a n).2 hn, Option.bind_eq_bind, Option.bind_some]
  obtain ⟨hr, -⟩ := C48_forward g hk
  obtain ⟨lks, hlks⟩ : ∃ lks, (forwardOrder g).mapM look = some lks := by
    apply mapM_exists
    intro a ha
    obtain ⟨n, hn⟩ := hr.nodes a ha
    obtain ⟨lk, h, -⟩ := hnode a n hn
    rw [hlook' a n hn, h]
    rfl
  have hnl : netLookups e.bl g (fun a => (wins a, wval a)) = some lks.flatten := by
    unfold netLookups
    rw [← hlook, hlks]
    rfl
  have hf2 := (mapM_forall₂ _ _ _).1 hlks
  have hlmem : ∀ z ∈ lks.flatten, ∃ a n lk, (a, n) ∈ g ∧ nodeLookups e.bl n.op (wins a) (wval a) = some lk ∧ z ∈ lk := by
    intro z hz
    obtain ⟨lk, hlk, hz⟩ := List.mem_flatten.1 hz
    obtain ⟨i, hi, rfl⟩ := List.getElem_of_mem hlk
    have hi' : i < (forwardOrder g).length := by rw [hf2.length_eq]; exact hi
    have := hf2.get hi' hi
    obtain ⟨n, hn⟩ := hr.nodes _ (List.getElem_mem hi')
    refine ⟨_, n, _, hn, ?_, hz⟩
    rw [← hlook' _ n hn]
    exact this
  have hmeml : ∀ a n lk, (a, n) ∈ g → nodeLookups e.bl n.op (wins a) (wval a) = some lk → ∀ z ∈ lk, z ∈ lks.flatten := by
    intro a n lk hn hlk z hz
    obtain ⟨i, hi, hia⟩ := List.getElem_of_mem (hall a n hn)
    have hi' : i < lks.length := by rw [← hf2.length_eq]; exact hi
    have := hf2.get hi hi'
    simp only [List.get_eq_getElem, hia, hlook' a n hn, hlk, Option.some.injEq] at this
    exact List.mem_flatten.2 ⟨lks[i], List.getElem_mem hi', this ▸ hz⟩
  have hused : usedTables e.order lks.flatten = ctxTables e.order g := by
    unfold usedTables ctxTables
    apply List.filter_congr
    intro t _
    rw [Bool.eq_iff_iff]
    simp only [List.any_eq_true, beq_iff_eq, List.contains_iff_mem]
    constructor
    · rintro ⟨z, hz, rfl⟩
      obtain ⟨a, n, lk, hn, hlk, hz⟩ := hlmem z hz
      obtain ⟨lk', h1, h2, -⟩ := hnode a n hn
      rw [hlk, Option.some.injEq] at h1
      subst h1
      exact ⟨(a, n), hn, (h2 z.1).2 ⟨z.2, hz⟩⟩
    · rintro ⟨⟨a, n⟩, hn, ht⟩
      obtain ⟨lk, h1, h2, -⟩ := hnode a n hn
      obtain ⟨rows, hrows⟩ := (h2 t).1 ht
      exact ⟨_, hmeml a n lk hn h1 _ hrows, rfl⟩
  have hctx : ∀ a n, (a, n) ∈ g → ∀ t ∈ n.op.tables, t ∈ ctxTables e.order g := by
    intro a n hn t ht
    unfold ctxTables
    rw [List.mem_filter]
    exact ⟨htab a n hn t ht, by simp only [List.any_eq_true, List.contains_iff_mem]; exact ⟨(a, n), hn, ht⟩⟩
  -- challenges
  obtain ⟨c, hc⟩ : ∃ c, c = s₁.constant := ⟨_, rfl⟩
  obtain ⟨ch, hch⟩ : ∃ ch, ch = s₁.challenges := ⟨_, rfl⟩
  have hget : ∀ t ∈ ctxTables e.order g, ∃ csc, mapGet t ch = some csc ∧ (tableLabel t = none → csc = 1) := by
    intro t ht
    have hne : (ctxTables e.order g).isEmpty = false := by
      rw [List.isEmpty_eq_false_iff]
      exact List.ne_nil_of_mem ht
    rw [hch, hstart, netStart, hne]
    exact tableChallenges_some T _ t _ ht
  have hI : NetInv e g c ch s₁ := by
    refine ⟨hc.symm, hch.symm, ?_, ?_⟩
    · have : s₁.modelClaims = [] := by rw [hstart, netStart]; split <;> exact hs₁
      rw [this]
      simp
    · have : s₁.witnessClaims = [] := by rw [hstart, netStart]; split <;> exact hs₂
      rw [this]
      simp
  have hadd : ∀ s ts' mult cl, NetInv e g c ch s → PolyClaim mult cl → NetInv e g c ch { s with ts := ts', witnessClaims := s.witnessClaims ++ [(e.commit mult, cl)] } :=
    fun s ts' mult cl h hcl => netInv_witness e g c ch s h ts' _ (by simpa using ⟨mult, rfl, hcl⟩)
  have htables := netTables_step e hthreads hchar hbl hbl' hp lks.flatten c ch (NetInv e g c ch) (fun s h => ⟨h.1, h.2.1⟩) hadd (ctxTables e.order g) (by
    intro t ht
    obtain ⟨csc, hcsc, -⟩ := hget t ht
    refine ⟨?_, ?_, by rw [hcsc]; rfl⟩
    · unfold ctxTables at ht
      rw [List.mem_filter] at ht
      simp only [List.any_eq_true, List.contains_iff_mem] at ht
      obtain ⟨-, ⟨a, n⟩, hn, ht⟩ := ht
      obtain ⟨lk, h1, h2, h3⟩ := hnode a n hn
      obtain ⟨rows, hrows⟩ := (h2 t).1 ht
      exact (h3 _ hrows).1
    · intro r hr'
      simp only [rowsOf, List.mem_flatMap, List.mem_filter, beq_iff_eq] at hr'
      obtain ⟨z, ⟨hz, rfl⟩, hrz⟩ := hr'
      obtain ⟨a, n, lk, hn, hlk, hz⟩ := hlmem z hz
      obtain ⟨lk', h1, -, h3⟩ := hnode a n hn
      rw [hlk, Option.some.injEq] at h1
      subst h1
      exact (h3 z hz).2 r hrz)
  obtain ⟨proof, frn, h₁, h₂, h₃, h₄, h₅⟩ := whole_in_step_if bad { netProver e g (fun a => (wins a, wval a)) with prove := pr } (netVerifier e g shapes) rfl (NetInv e g c ch) good
    (fun a p => ∀ lk, look a = some lk → NetFacts e c ch lk p) hashOrder hhash g hk hs hac hac' hone
    (fun a n _ => by
      change n.op.kind.inStep = _ ∧ n.op.kind ≠ _ ∧ n.op.kind ≠ _
      cases n.op <;> simp [NetLayer.kind, LayerKind.inStep])
    hidx (input.map (Tensor.toFields e.p)) (outputs.map (Tensor.toFields e.p)) (by
      intro t ht
      obtain ⟨u, hu, rfl⟩ := List.mem_map.1 ht
      simpa [Tensor.toFields] using hpow u hu) _ htrace bnodes bound hbn (by simpa using hb) (by simpa using horder) unpadded shs (by rw [hshape]; exact hsh)
    (by
      intro a n hn hkind
      change n.op.kind = _ at hkind
      dsimp only
      rw [List.forall₂_map_left_iff, List.forall₂_map_right_iff]
      refine (hflat a n hn hkind).imp fun x y h => ?_
      change x.data.map _ = y.data.map _
      rw [h])
    (by
      intro a n sh hn hsha hkind
      change n.op.kind ≠ _ at hkind
      obtain ⟨lk, h1, h2, h3⟩ := hnode a n hn
      have hfun : (fun p : NetProof F C => ∀ lk', look a = some lk' → NetFacts e c ch lk' p) = NetFacts e c ch lk := funext fun p => by
        rw [hlook' a n hn, h1]
        simp
      dsimp only
      rw [hfun]
      exact hlayer c ch a n sh hn hsha hkind (fun t ht => hget t (hctx a n hn t ht)) lk h1 fun z hz => (h3 z hz).2)
    rfl (fun s n => sampleN_length T n s.ts) (fun s n h => h) s s₁ (by
      change (if _ then _ else _) = _
      rw [hstart]
      split
      · rename_i h
        rw [h]
        rfl
      · rename_i h
        rw [hnl, Option.map_some, hused, Bool.eq_false_iff.2 h]) (by rw [hstart]; rfl) hI hsafe
    (fun tps => ∀ tp ∈ tps, ∀ sp ∈ tp.lookup.sumcheckProofs, GoodPoint sp)
    (fun tps => (∀ t ∈ ctxTables e.order g, NoPole e.p e.bl e.contents c ((mapGet t ch).getD 0) t) →
          (∀ x ∈ tps.flatMap fun tp => (fractionalOutputs tp.lookup.circuitOutputs).getD [], x.2 ≠ 0) ∧
          fracSum (tps.flatMap fun tp => (fractionalOutputs tp.lookup.circuitOutputs).getD []) =
            ((ctxTables e.order g).map fun t => invSum e.p c ((mapGet t ch).getD 0) (rowsOf lks.flatten t)).sum)
    (by
      intro s hI
      obtain ⟨tps, s', t1, t2, t3⟩ := htables s hI
      obtain ⟨cp, o1, o2⟩ := hopen s'.modelClaims s'.witnessClaims s'.ts t2.2.2.1 t2.2.2.2
      refine ⟨tps, s', cp, ?_, o1, fun hgood => ⟨(t3 hgood).2, (t3 hgood).1, o2⟩⟩
      change (if _ then _ else _) = _
      split
      · rename_i h
        rw [List.isEmpty_iff] at h
        rw [h, netProveTables] at t1
        exact t1
      · rw [hnl, Option.bind_some, hused, t1])
  refine ⟨proof, h₁, fun g1 g2 hnp => h₅ g1 g2 ?_⟩
  have hnp' : ∀ t ∈ ctxTables e.order g, NoPole e.p e.bl e.contents c ((mapGet t ch).getD 0) t := by
    intro t ht
    obtain ⟨csc, hcsc, -⟩ := hget t ht
    rw [hcsc, Option.getD_some, hc]
    exact hnp t csc (hch ▸ mem_of_mapGet _ _ _ hcsc)
  obtain ⟨k1, k2⟩ := h₄ g2 hnp'
  obtain ⟨k3, k4⟩ := node_fractions_sum e.p c ch _ look (forwardOrder g) frn lks h₂ hlks (by
    intro id hid f lk hf hlk
    obtain ⟨n, hn⟩ := hr.nodes id hid
    obtain ⟨lk', l1, l2, -⟩ := hnode id n hn
    rw [hlook' id n hn, l1, Option.some.injEq] at hlk
    subst hlk
    rw [nodeFractions, (mapGet_iff_mem g hk id n).2 hn] at hf
    simp only [Option.bind_eq_bind, Option.bind_some] at hf
    split at hf
    · rename_i hpr
      obtain ⟨p, q1, q2⟩ := h₃ id n hn hpr
      rw [q1, Option.bind_some, Option.some.injEq] at hf
      rw [← hf]
      refine q2 (g1 (id, p) (mem_of_mapGet _ _ _ q1)) lk' (by rw [hlook' id n hn, l1]) ?_
      intro z hz
      exact hnp' z.1 (hctx id n hn _ ((l2 z.1).2 ⟨z.2, hz⟩))
    · rename_i hpr
      rw [Option.some.injEq] at hf
      subst hf
      have : lk' = [] := by
        change ¬(n.op.kind.hasProof = true) at hpr
        cases hop : n.op with
        | flatten =>
          rw [hop] at l1
          simpa [nodeLookups] using l1.symm
        | _ => rw [hop] at hpr; simp [NetLayer.kind, LayerKind.hasProof] at hpr
      subst this
      simp [fracSum, lookSum])
  rw [finalCheck_iff]
  refine ⟨?_, ?_⟩
  · intro x hx
    rw [List.mem_append] at hx
    exact hx.elim (k3 x) (k1 x)
  · rw [fracSum_append, k4]
    change -_ + fracSum (proof.tableProofs.flatMap fun tp => (fractionalOutputs tp.lookup.circuitOutputs).getD []) = 0
    rw [k2, lookSum_tables e.p c ch (ctxTables e.order g) (hnd.filter _) lks.flatten (by
      intro z hz
      obtain ⟨a, n, lk, hn, hlk, hz⟩ := hlmem z hz
      obtain ⟨lk', l1, l2, -⟩ := hnode a n hn
      rw [hlk, Option.some.injEq] at l1
      subst l1
      exact hctx a n hn _ ((l2 z.1).2 ⟨z.2, hz⟩))]
    ring

end Lemmas
