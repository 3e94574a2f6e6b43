import Verif.Props.WholeProof
import Verif.Spec.Passes

/-!
Completeness of whole proofs when the single layers are only complete for good challenges: prover and verifier have states of the same type and are in step as long as the
proofs are good.
-/

namespace Lemmas

open Model Spec Props

variable {L P T TP C S F : Type} [Field F] [DecidableEq F]

/-- From true claims about the outputs the prover makes a proof and true claims about the inputs; if the proof is good, the verifier accepts it with the same claims and the same state. `Inv` is an
invariant of the prover's state, `facts` something known of good proofs. -/
def InStepIf (Inv : S → Prop) (good facts : P → Prop) (prove : List (Claim F) → S → Option (List (Claim F) × P × S)) (verify : P → List (Claim F) → S → Option (List (Claim F) × S))
    (ins outs : List (Tensor F)) : Prop :=
  ∀ (claims : List (Claim F)) (s : S), Inv s → List.Forall₂ Holds outs claims →
    ∃ ic p s', prove claims s = some (ic, p, s') ∧ Inv s' ∧ AllClaimed ins ic ∧ (good p → facts p ∧ verify p claims s = some (ic, s'))

/-- As `InStepIf`, but the prover may fail on bad claims and states. -/
def InStepUnless (bad : List (Claim F) → S → Prop) (Inv : S → Prop) (good facts : P → Prop) (prove : List (Claim F) → S → Option (List (Claim F) × P × S))
    (verify : P → List (Claim F) → S → Option (List (Claim F) × S)) (ins outs : List (Tensor F)) : Prop :=
  ∀ (claims : List (Claim F)) (s : S), ¬bad claims s → Inv s → List.Forall₂ Holds outs claims →
    ∃ ic p s', prove claims s = some (ic, p, s') ∧ Inv s' ∧ AllClaimed ins ic ∧ (good p → facts p ∧ verify p claims s = some (ic, s'))

omit [DecidableEq F] in
theorem InStepIf.unless {Inv : S → Prop} {good facts : P → Prop} {prove : List (Claim F) → S → Option (List (Claim F) × P × S)}
    {verify : P → List (Claim F) → S → Option (List (Claim F) × S)} {ins outs : List (Tensor F)} (h : InStepIf Inv good facts prove verify ins outs)
    (bad : List (Claim F) → S → Prop) : InStepUnless bad Inv good facts prove verify ins outs := fun claims s _ hI hh => h claims s hI hh

theorem mem_of_mapGet {α β : Type} [DecidableEq α] (k : α) (v : β) (m : List (α × β)) (h : mapGet k m = some v) : (k, v) ∈ m := by
  induction m with
  | nil => simp [mapGet] at h
  | cons y m ih =>
    unfold mapGet at h
    split at h
    · rename_i hy
      simp only [Option.some.injEq] at h
      rw [← h, ← hy]
      simp
    · exact List.mem_cons_of_mem _ (ih h)

/-- The passes of prover and verifier over the graph. -/
theorem pass_in_step_if (bad : ℕ → List (Claim F) → S → Prop) (papi : ProverApi L P TP C S F) (vapi : VerifierApi L P T TP C S F) (hkind : papi.kind = vapi.kind) (Inv : S → Prop) (good : ℕ → P → Prop) (facts : ℕ → P → Prop)
    (g : Graph L) (hk : (g.map (·.1)).Nodup)
    (hs : Spec.Symmetric g) (inputs outputs : List (Tensor F)) (trace : ℕ → List (Tensor F) × List (Tensor F)) (ht : HonestTrace g inputs outputs trace)
    (hone : ∀ a n, (a, n) ∈ g → ∀ w ∈ n.outputs, w.length = 1) (hkinds : ∀ a n, (a, n) ∈ g → (vapi.kind n.op).inStep = true)
    (hflat : ∀ a n, (a, n) ∈ g → vapi.kind n.op = .flatten → List.Forall₂ (fun x y : Tensor F => x.data = y.data) (trace a).1 (trace a).2)
    (shapes : List (ℕ × List (List ℕ × List ℕ) × List (List ℕ × List ℕ))) (hshapes : ∀ a n, (a, n) ∈ g → ∃ sh, mapGet a shapes = some sh)
    (hlayer : ∀ a n sh, (a, n) ∈ g → mapGet a shapes = some sh → vapi.kind n.op ≠ .flatten →
      InStepUnless (bad a) Inv (good a) (facts a) (papi.prove n.op a (trace a).1 (trace a).2) (fun p claims s => vapi.verify n.op p claims sh.1 sh.2 s) (trace a).1 (trace a).2)
    (outC : List (Claim F)) (hout : List.Forall₂ Holds outputs outC) (s₀ : S) (hsafe : NeverBad papi g trace bad outC s₀) (todo : List ℕ) : ∀ (done : List ℕ), backwardOrder g = done ++ todo →
    ∀ (s : S) (steps : List (ℕ × P)) (cs : List (ℕ × List (Claim F))), done.foldlM (backwardStep (proveNode papi trace) g outC) ((s₀, []), []) = some ((s, steps), cs) → Inv s → (∀ b ∈ done, ∃ l, mapGet b cs = some l ∧ AllClaimed (trace b).1 l) →
    ∃ s' steps' cs', todo.foldlM (backwardStep (proveNode papi trace) g outC) ((s, steps), cs) = some ((s', steps'), cs') ∧ Inv s' ∧
      (∀ id ∉ todo, mapGet id steps' = mapGet id steps) ∧
      (∀ id ∈ todo, ∀ n, (id, n) ∈ g → (vapi.kind n.op).hasProof = true → ∃ p, mapGet id steps' = some p ∧ (good id p → facts id p)) ∧
      (∀ b ∈ done ++ todo, ∃ l, mapGet b cs' = some l ∧ AllClaimed (trace b).1 l) ∧
      ∀ final : List (ℕ × P), (∀ id ∈ todo, mapGet id final = mapGet id steps') → (∀ id ∈ todo, ∀ p, mapGet id final = some p → good id p) →
        todo.foldlM (backwardStep (verifyNode vapi shapes final) g outC) (s, cs) = some (s', cs') := by
  obtain ⟨hr, -⟩ := C48_backward g hk
  induction todo with
  | nil =>
    intro done hd s steps cs hrun hI hcs
    exact ⟨s, steps, cs, rfl, hI, fun _ _ => rfl, by simp, by simpa using hcs, fun _ _ _ => rfl⟩
  | cons a todo ih =>
    intro done hd s steps cs hrun hI hcs
    obtain ⟨n, hn⟩ := hr.nodes a (by rw [hd]; simp)
    have hget := (mapGet_iff_mem g hk a n).2 hn
    have hnd : a ∉ done ∧ a ∉ todo := by
      have := hr.once
      rw [hd] at this
      have h₁ := List.nodup_append.1 this
      exact ⟨fun h => h₁.2.2 a h a (by simp) rfl, (List.nodup_cons.1 h₁.2.1).1⟩
    obtain ⟨claims, hcl, hholds⟩ := claimsForNode_honest g hs inputs outputs trace ht outC hout a n hn (hone a n hn) cs (fun b hb => hcs b (hr.before done a todo hd b hb))
    obtain ⟨sh, hsh⟩ := hshapes a n hn
    -- one step of both
    obtain ⟨s₁, steps₁, ic, hp, hI₁, hother, hself, hic, hv⟩ : ∃ (s₁ : S) (steps₁ : List (ℕ × P)) (ic : List (Claim F)),
        proveNode papi trace (s, steps) a n claims = some ((s₁, steps₁), ic) ∧ Inv s₁ ∧
        (∀ id, id ≠ a → mapGet id steps₁ = mapGet id steps) ∧ ((vapi.kind n.op).hasProof = true → ∃ p, mapGet a steps₁ = some p ∧ (good a p → facts a p)) ∧ AllClaimed (trace a).1 ic ∧
        ∀ final : List (ℕ × P), mapGet a final = mapGet a steps₁ → (∀ p, mapGet a final = some p → good a p) → verifyNode vapi shapes final s a n claims = some (s₁, ic) := by
      by_cases hfl : vapi.kind n.op = .flatten
      · refine ⟨s, steps, claims, ?_, hI, fun _ _ => rfl, ?_, ?_, ?_⟩
        · rw [proveNode, hkind, hfl]; rfl
        · rw [hfl]; intro h; cases h
        · intro j t hj
          have hf := hflat a n hn hfl
          obtain ⟨hjl, hje⟩ := List.getElem?_eq_some_iff.1 hj
          have hjl' : j < (trace a).2.length := hf.length_eq ▸ hjl
          have hjl'' : j < claims.length := hholds.length_eq ▸ hjl'
          have e₁ := hf.get (i := j) hjl hjl'
          have e₂ := hholds.get (i := j) hjl' hjl''
          simp only [List.get_eq_getElem, hje] at e₁ e₂
          refine ⟨claims[j], List.getElem?_eq_getElem hjl'', ?_⟩
          unfold Holds at e₂ ⊢
          rw [e₁]
          exact e₂
        · intro final _ _
          simp [verifyNode, hfl, LayerKind.hasProof, LayerKind.ctxProvable, hsh]
      · have hin := hkinds a n hn
        obtain ⟨ic, p, s', l₁, l₂, l₃, l₄⟩ := hlayer a n sh hn hsh hfl claims s (hsafe done a todo hd n _ claims hn hrun hcl) hI hholds
        have hop : (vapi.kind n.op).opProvable = true := by
          generalize vapi.kind n.op = k at hin hfl ⊢
          revert hin hfl
          cases k <;> simp [LayerKind.inStep, LayerKind.opProvable]
        have hhp : (vapi.kind n.op).hasProof = true := by
          generalize vapi.kind n.op = k at hin hfl ⊢
          revert hin hfl
          cases k <;> simp [LayerKind.inStep, LayerKind.hasProof]
        have hcp : (vapi.kind n.op).ctxProvable = some true := by
          generalize vapi.kind n.op = k at hin hfl ⊢
          revert hin hfl
          cases k <;> simp [LayerKind.inStep, LayerKind.ctxProvable]
        have hset : mapGet a (mapSet a p steps) = some p := by rw [mapGet_mapSet, if_pos rfl]
        refine ⟨s', mapSet a p steps, ic, ?_, l₂, ?_, fun _ => ⟨p, hset, fun hg => (l₄ hg).1⟩, l₃, ?_⟩
        · rw [proveNode, hkind, if_pos hop]
          simp [l₁]
        · intro id hid
          rw [mapGet_mapSet, if_neg hid]
        · intro final hfin hgood
          rw [hset] at hfin
          simp [verifyNode, hhp, hcp, hfin, hsh, (l₄ (hgood p hfin)).2]
    obtain ⟨s', steps', cs', i₁, i₂, i₃, i₄, i₅, i₆⟩ := ih (done ++ [a]) (by rw [hd]; simp) s₁ steps₁ (mapSet a ic cs) (by
      rw [List.foldlM_append, hrun]
      simp [backwardStep, hget, hcl, hp]) hI₁ (by
      intro b hb
      by_cases hba : b = a
      · subst hba
        exact ⟨ic, by rw [mapGet_mapSet, if_pos rfl], hic⟩
      · rw [mapGet_mapSet, if_neg hba]
        exact hcs b (by
          rcases List.mem_append.1 hb with h | h
          · exact h
          · exact absurd (List.mem_singleton.1 h) hba))
    have ha' : mapGet a steps' = mapGet a steps₁ := i₃ a hnd.2
    refine ⟨s', steps', cs', ?_, i₂, ?_, ?_, ?_, ?_⟩
    · rw [List.foldlM_cons]
      simp only [backwardStep, hget, hcl, hp, Option.bind_eq_bind, Option.bind_some]
      exact i₁
    · intro id hid
      simp only [List.mem_cons, not_or] at hid
      rw [i₃ id hid.2, hother id hid.1]
    · intro id hid m hm hproof
      rcases List.mem_cons.1 hid with rfl | hid
      · have : m = n := by
          have := (mapGet_iff_mem g hk id m).2 hm
          rw [hget] at this
          exact (Option.some.inj this).symm
        subst this
        obtain ⟨p, hp, hf⟩ := hself hproof
        exact ⟨p, by rw [ha', hp], hf⟩
      · exact i₄ id hid m hm hproof
    · intro b hb
      exact i₅ b (by simpa using hb)
    · intro final hfin hgood
      rw [List.foldlM_cons]
      simp only [backwardStep, hget, hcl, hv final (by rw [hfin a (by simp), ha']) (hgood a (by simp)), Option.bind_eq_bind, Option.bind_some]
      exact i₆ final (fun id hid => hfin id (List.mem_cons_of_mem _ hid)) (fun id hid => hgood id (List.mem_cons_of_mem _ hid))

/-- Completeness of the whole proof for good proofs. -/
theorem whole_in_step_if (bad : ℕ → List (Claim F) → S → Prop) (papi : ProverApi L P TP C S F) (vapi : VerifierApi L P T TP C S F) (hkind : papi.kind = vapi.kind) (Inv : S → Prop) (good : ℕ → P → Prop) (facts : ℕ → P → Prop)
    (hashOrder : List (ℕ × List ℕ) → List (ℕ × List ℕ)) (hhash : ∀ l, (hashOrder l).Perm l)
    (g : Graph L) (hk : (g.map (·.1)).Nodup) (hs : Spec.Symmetric g) (hac : ∀ x, ¬Relation.TransGen (TakesFrom g) x x) (hac' : ∀ x, ¬Relation.TransGen (GivesTo g) x x)
    (hone : ∀ a n, (a, n) ∈ g → ∀ w ∈ n.outputs, w.length = 1)
    (hkinds : ∀ a n, (a, n) ∈ g → (vapi.kind n.op).inStep = true ∧ vapi.kind n.op ≠ .logits ∧ vapi.kind n.op ≠ .embeddings)
    (hidx : ∃ N, 0 < N ∧ ∀ k, (∃ (a : ℕ) (n : Node L), (a, n) ∈ g ∧ (⟨none, k⟩ : Edge) ∈ n.inputs) ↔ k < N)
    (inputs outputs : List (Tensor F)) (hpow : ∀ t ∈ outputs, ∃ k, t.data.length = 2 ^ k) (trace : ℕ → List (Tensor F) × List (Tensor F)) (ht : HonestTrace g inputs outputs trace)
    (bnodes : Graph L) (bound : List (ℕ × List ℕ)) (hbn : nodesOf g (backwardOrder g) = some bnodes) (hb : bindOutputs outputs.length bnodes = some bound)
    (horder : (hashOrder bound).flatMap (·.2) = List.range outputs.length)
    (unpadded : List (List ℕ)) (shapes : List (ℕ × List (List ℕ × List ℕ) × List (List ℕ × List ℕ))) (hshapes : shapeSteps vapi g unpadded (inputs.map Tensor.shape) = some shapes)
    (hflat : ∀ a n, (a, n) ∈ g → vapi.kind n.op = .flatten → List.Forall₂ (fun x y : Tensor F => x.data = y.data) (trace a).1 (trace a).2)
    (hlayer : ∀ a n sh, (a, n) ∈ g → mapGet a shapes = some sh → vapi.kind n.op ≠ .flatten →
      InStepUnless (bad a) Inv (good a) (facts a) (papi.prove n.op a (trace a).1 (trace a).2) (fun p claims s => vapi.verify n.op p claims sh.1 sh.2 s) (trace a).1 (trace a).2)
    (hdraw : papi.draw = vapi.draw) (hdlen : ∀ s n, (vapi.draw s n).1.length = n) (hdInv : ∀ s n, Inv s → Inv (vapi.draw s n).2)
    (s s₁ : S) (hsp : papi.start s = some s₁) (hsv : vapi.start s = some s₁) (hI : Inv s₁)
    (hsafe : ∀ out, tensorClaims papi.draw outputs s₁ = some out → NeverBad papi g trace bad out.1 out.2) (tgood tfacts : List TP → Prop)
    (hend : ∀ s, Inv s → ∃ tps s' c, papi.tables s = some (tps, s') ∧ papi.opening s' = some c ∧
      (tgood tps → tfacts tps ∧ (tps.zip vapi.tables).foldlM (fun s x => vapi.verifyTable x.2 x.1 s) s = some s' ∧ vapi.opening c s' = true)) :
    ∃ proof frn, proveWhole papi g trace outputs s = some proof ∧ (forwardOrder g).mapM (nodeFractions vapi g proof.steps) = some frn ∧
      (∀ a n, (a, n) ∈ g → (vapi.kind n.op).hasProof = true → ∃ p, mapGet a proof.steps = some p ∧ (good a p → facts a p)) ∧ (tgood proof.tableProofs → tfacts proof.tableProofs) ∧
      ((∀ x ∈ proof.steps, good x.1 x.2) → tgood proof.tableProofs → finalCheck (frn.flatten ++ proof.tableProofs.flatMap vapi.tableData) = true →
        verifyWhole vapi hashOrder g unpadded proof inputs outputs s = some ()) := by
  obtain ⟨hr, -⟩ := C48_forward g hk
  obtain ⟨hrb, -⟩ := C48_backward g hk
  have hall := (C48_complete g hk).1.mpr hac
  have hallb := (C48_complete g hk).2.mpr hac'
  obtain ⟨outC, s₂, sv₂, o₁, o₂, ⟨rfl, hI₂⟩, hout⟩ := tensorClaims_in_step (fun a b : S => a = b ∧ Inv a) papi.draw vapi.draw
    (by rintro sp sv n ⟨rfl, hi⟩; rw [hdraw]; exact ⟨rfl, hdlen _ _, rfl, hdInv _ _ hi⟩) outputs hpow s₁ s₁ ⟨rfl, hI⟩
  obtain ⟨hb₁, hb₂⟩ := nodesOf_spec g _ bnodes hbn
  have hloop : outputLoop vapi.draw vapi.kind g outputs (hashOrder bound) (List.replicate outputs.length ⟨[], 0⟩, s₁) = some (outC, s₂) := by
    refine outputLoop_in_order vapi.draw vapi.kind g outputs (hashOrder bound) ?_ [] outputs [] _ s₁ (outC, s₂) rfl rfl (by simp) ?_ o₂
    · intro x hx
      obtain ⟨y, hy, e⟩ := bindOutputs_keys _ bnodes bound hb x ((hhash bound).mem_iff.1 hx)
      have := hb₂ y hy
      rw [e] at this
      exact ⟨y.2, this, (hkinds x.1 y.2 ((mapGet_iff_mem g hk _ _).1 this)).2.1⟩
    · rw [horder, List.length_nil, List.range_eq_range']
  have hsh : ∀ a n, (a, n) ∈ g → ∃ sh, mapGet a shapes = some sh := fun a n hn => shapeSteps_get vapi g _ _ shapes hshapes a (hall a n hn)
  obtain ⟨s₃, steps, cs, p₁, p₂, -, p₄, p₅, p₆⟩ := pass_in_step_if bad papi vapi hkind Inv good facts g hk hs inputs outputs trace ht hone (fun a n hn => (hkinds a n hn).1) hflat shapes hsh hlayer
    outC hout s₂ (hsafe _ o₁) (backwardOrder g) [] rfl s₂ [] [] rfl hI₂ (by simp)
  obtain ⟨tps, s₄, c, e₁, e₂, e₃⟩ := hend s₃ p₂
  obtain ⟨frn, hfrn⟩ : ∃ frn, (forwardOrder g).mapM (nodeFractions vapi g steps) = some frn := by
    apply mapM_exists
    intro a ha
    obtain ⟨n, hn⟩ := hr.nodes a ha
    rw [nodeFractions, (mapGet_iff_mem g hk a n).2 hn]
    simp only [Option.bind_eq_bind, Option.bind_some]
    split
    · rename_i hp
      obtain ⟨p, hp, -⟩ := p₄ a (hallb a n hn) n hn hp
      rw [hp]; rfl
    · rfl
  refine ⟨⟨steps, tps, c⟩, frn, ?_, hfrn, fun a n hn hp => p₄ a (hallb a n hn) n hn hp, fun h => (e₃ h).1, ?_⟩
  · unfold proveWhole backwardPass
    simp only [Option.bind_eq_bind, hsp, Option.bind_some, o₁, p₁, e₁, e₂]
  intro hgood htgood hfin
  have hv := p₆ steps (fun _ _ => rfl) (fun id _ p hp => hgood (id, p) (mem_of_mapGet id p steps hp))
  obtain ⟨-, t₂, t₃⟩ := e₃ htgood
  have hfr : allFractions vapi g ⟨steps, tps, c⟩ = some (frn.flatten ++ tps.flatMap vapi.tableData) := by
    rw [allFractions, hfrn]; rfl
  obtain ⟨nodes, hnodes⟩ := nodesOf_exists g (forwardOrder g) (fun a ha => by
    obtain ⟨n, hn⟩ := hr.nodes a ha
    exact ⟨n, (mapGet_iff_mem g hk a n).2 hn⟩)
  obtain ⟨-, hn₂⟩ := nodesOf_spec g _ nodes hnodes
  have hcs : ∀ a n, (a, n) ∈ g → ∃ l, mapGet a cs = some l ∧ AllClaimed (trace a).1 l := fun a n hn => p₅ a (by simpa using hallb a n hn)
  obtain ⟨chk, hchk⟩ : ∃ chk, nodes.mapM (nodeInputCheck vapi inputs cs) = some chk := by
    apply mapM_exists
    intro x hx
    have hxg := (mapGet_iff_mem g hk _ _).1 (hn₂ x hx)
    obtain ⟨l, hl, hcl⟩ := hcs x.1 x.2 hxg
    rw [nodeInputCheck_complete vapi inputs _ (fun a => (trace a).2) cs x (ht.ins x.1 x.2 hxg) l hl hcl (fun _ => (hkinds x.1 x.2 hxg).2.2)]
    rfl
  obtain ⟨ic, hic⟩ := Option.isSome_iff_exists.1 ((C58_input_indices g hk cs (forwardOrder g) hall hr.nodes).2 ⟨fun a n j k hn hj => by
    obtain ⟨l, hl, hcl⟩ := hcs a n hn
    have hins := ht.ins a n hn
    obtain ⟨hjl, -⟩ := List.getElem?_eq_some_iff.1 hj
    have hjl' : j < (trace a).1.length := hins.length_eq ▸ hjl
    obtain ⟨cl, h₁, -⟩ := hcl j _ (List.getElem?_eq_getElem hjl')
    exact ⟨l, cl, hl, h₁⟩, hidx⟩)
  unfold verifyWhole verifyTail
  unfold backwardPass
  simp only [Option.bind_eq_bind, hsv, hfr, Option.bind_some, hbn, hb, hloop, hshapes, hv, t₂, hic, hnodes, hchk, t₃, Bool.true_and]
  exact if_pos hfin

end Lemmas
