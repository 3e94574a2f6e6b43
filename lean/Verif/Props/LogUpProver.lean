import Verif.Lemmas.LogUpProver
import Verif.Props.LogUpProof

/-!
Property C92: the honest lookup prover. It produces a proof for every non-empty list of columns of the right sizes, the verifier accepts it with the same transcript afterwards,
the claims returned are the true evaluations of the columns and the fractions are the sums over the rows.
-/

namespace Props

open Model Spec Lemmas

variable {F : Type} [Field F] [DecidableEq F]

theorem foldl_max_const (k : ℕ) : ∀ (l : List ℕ) (a : ℕ), a ≤ k → (l ≠ [] ∨ a = k) → (∀ x ∈ l, x = k) → l.foldl max a = k := by
  intro l
  induction l with
  | nil => intro a _ h _; rcases h with h | h <;> simp_all
  | cons x l ih =>
    intro a ha _ hx
    obtain rfl := hx x (by simp)
    exact ih (max a x) (by omega) (Or.inr (by omega)) (fun y hy => hx y (by simp [hy]))

theorem layerAt_flat (isTable : Bool) (k : ℕ) (hk : isTable = true ∨ 0 < k) (l : LogUpLayer F) (hl : isLookupLayer l = !isTable) (hw : LayerWf l) :
    (layerAt l k).flat = outputsOf k (layerFr l) := by
  cases k with
  | succ k => rfl
  | zero =>
    have ht : isTable = true := by simpa using hk
    cases l with
    | generic n d => simp [layerAt, LogUpLayer.flat, outputsOf, layerFr, List.map_fst_zip (le_of_eq hw), List.map_snd_zip (le_of_eq (Eq.symm hw))]
    | initialTable n d => simp [layerAt, LogUpLayer.flat, outputsOf, layerFr, List.map_fst_zip (le_of_eq hw), List.map_snd_zip (le_of_eq (Eq.symm hw))]
    | initialLookup d => rw [ht] at hl; simp [isLookupLayer] at hl

theorem proverInit_eq (T : Transcript F) (outs : List (List F)) (ts : T.State) : logupProverInit T outs ts = logupInit T outs.length outs ts := rfl

theorem batchProve_spec (T : Transcript F) (threads : ℕ) (ht : 0 < threads) (hchar : ∀ k : ℕ, 0 < k → k ≤ 3 → (k : F) ≠ 0) (ts : T.State) (k : ℕ)
    (input : LogUpInput F) (ls : List (LogUpLayer F)) (hc : input.circuits = some (ls.map fun l => (List.range (k + 1)).map (layerAt l))) (hne : ls ≠ [])
    (hk : input.isTable = true ∨ 0 < k) (hkind : ∀ l ∈ ls, isLookupLayer l = !input.isTable) (hw : ∀ l ∈ ls, LayerWf l) (hl : ∀ l ∈ ls, l.den.length = 2 ^ (k + 1))
    (hcols : ∀ c ∈ input.baseColumns, c.length = 2 ^ (k + 1)) :
    ∃ proof ts' p, batchProve threads T input ts = some (proof, ts') ∧ p.length = k + 1 ∧ proof.isTable = input.isTable ∧
      proof.circuitOutputs = ls.map (fun l => outputsOf k (layerFr l)) ∧ proof.outputClaims = input.baseColumns.map (trueClaim p) ∧
      proof.sumcheckProofs.length = k ∧ proof.roundEvals.length = k ∧
      (∀ j, ∀ hj : j < proof.sumcheckProofs.length, (proof.sumcheckProofs[j]).point.length = j + 1) ∧
      (∀ sp, proof.sumcheckProofs.getLast? = some sp → p.take k = sp.point) ∧
      ((∀ sp ∈ proof.sumcheckProofs, ∀ y ∈ sp.point, ∀ c : ℕ, c ≤ 3 → y ≠ (c : F)) →
        ∃ st0 st, logupInit T ls.length proof.circuitOutputs ts = some st0 ∧
          logupRounds T ls.length 0 (proof.sumcheckProofs.zip proof.roundEvals) st0 = some st ∧ st.point = p ∧ st.ts = ts' ∧
          st.claim = layerClaim (!input.isTable) st.alpha st.lambda st.point (ls.map layerFr)) := by
  have hnv : (ls.map fun l => (List.range (k + 1)).map (layerAt l)).mapM (fun c => do
      let l ← c.head?
      l.numVars) = some (ls.map fun _ => k) := by
    rw [List.mapM_map]
    refine mapM_some' _ _ _ fun l hl' => ?_
    simp only [Function.comp, List.range_succ_eq_map, List.map_cons, List.head?_cons, Option.bind_eq_bind, Option.bind_some]
    exact numVars_pow l k (hl l hl')
  have hout : (ls.map fun l => (List.range (k + 1)).map (layerAt l)).mapM (fun c => do
      let l ← c.getLast?
      some l.flat) = some (ls.map fun l => outputsOf k (layerFr l)) := by
    rw [List.mapM_map]
    refine mapM_some' _ _ _ fun l hl' => ?_
    simp only [Function.comp, List.range_succ, List.map_append, List.map_cons, List.map_nil, List.getLast?_concat, Option.bind_eq_bind, Option.bind_some, Option.some.injEq]
    exact layerAt_flat input.isTable k hk l (hkind l hl') (hw l hl')
  have hmax : (ls.map fun _ => k).foldl max 0 = k := foldl_max_const k _ 0 (by omega) (Or.inl (by simpa using hne)) (by simp)
  have hiter : (ls.map fun l => (List.range (k + 1)).map (layerAt l)).map (fun c => c.reverse.drop 1) = ls.map fun l => ((List.range k).reverse).map (layerAt l) := by
    rw [List.map_map]
    apply List.map_congr_left
    intro l _
    simp [Function.comp, List.range_succ]
  have hfl : ∀ fr ∈ ls.map layerFr, fr.length = 2 ^ (1 + k) := by
    intro fr hfr
    obtain ⟨l, hl', rfl⟩ := List.mem_map.1 hfr
    rw [layerFr_length l (hw l hl'), hl l hl', add_comm]
  obtain ⟨st0, hst0⟩ : ∃ st0, logupInit T ls.length (ls.map fun l => outputsOf k (layerFr l)) ts = some st0 := by
    unfold logupInit
    simp only [Option.bind_eq_bind]
    rw [List.mapM_map, mapM_some' _ (fun l => mle ((halve^[k] (layerFr l)).map Prod.fst) [(T.labelled (List.foldl T.appendExts (T.appendUsize ts ls.length) (ls.map fun l => outputsOf k (layerFr l))) "initial_batching").1] + _ * mle ((halve^[k] (layerFr l)).map Prod.snd) [_]) ls (fun l hl' => by
      have := iterate_halve_length k 1 (layerFr l) (hfl _ (List.mem_map_of_mem hl'))
      exact outputTerm_top _ _ (halve^[k] (layerFr l)) (by simpa using this))]
    exact ⟨_, rfl⟩
  obtain ⟨b, hb, -⟩ := init_spec T _ _ ts st0 hst0
  have hcl0 := init_true T ls.length k (ls.map layerFr) _ ts st0 hfl hst0 (by
    rw [List.map_map, List.map_map]
    apply List.map_congr_left
    intro l hl'
    have := iterate_halve_length k 1 (layerFr l) (hfl _ (List.mem_map_of_mem hl'))
    simp only [Function.comp]
    exact List.take_of_length_le (by simp [outputsOf]; omega))
  obtain ⟨rounds, st, g1, g2, g3, g4, g5, g6, g7⟩ := proveRounds_spec T threads ht hchar input.isTable ls hne hkind hw k 0 st0
    (fun l hl' => by rw [hl l hl']; congr 1; omega) (by rw [hb]; rfl) hcl0
  have hp : st.point.length = k + 1 := by rw [g2]; omega
  have hclaims : input.baseColumns.mapM (columnClaim st.point) = some (input.baseColumns.map (trueClaim st.point)) := by
    refine mapM_some' _ _ _ fun c hc' => ?_
    unfold columnClaim
    rw [hcols c hc', Nat.log2_two_pow, ofEvals_some _ _ (hcols c hc')]
    simp only [Option.bind_eq_bind, Option.bind_some]
    rw [evaluate_eq ⟨k + 1, c⟩ (hcols c hc') st.point hp]
    rfl
  refine ⟨⟨rounds.map Prod.fst, rounds.map Prod.snd, input.baseColumns.map (trueClaim st.point), ls.map fun l => outputsOf k (layerFr l), input.isTable⟩, st.ts, st.point, ?_, hp, rfl, rfl, rfl, by simp [g3], by simp [g3], ?_, ?_, ?_⟩
  · unfold batchProve
    simp only [Option.bind_eq_bind] at hnv hout ⊢
    rw [hc]
    simp only [Option.bind_some]
    rw [hnv]
    simp only [Option.bind_some]
    rw [hout]
    simp only [Option.bind_some]
    rw [proverInit_eq, List.length_map, hst0, hmax, hiter]
    simp only [Option.bind_some]
    rw [g1]
    simp only [Option.bind_some]
    rw [hclaims]
    rfl
  · intro j hj
    simp only [List.length_map] at hj
    simp only [List.getElem_map]
    rw [g4 j hj]; omega
  · intro sp hsp
    simp only [List.getLast?_map, Option.map_eq_some_iff] at hsp
    obtain ⟨r, hr, rfl⟩ := hsp
    rw [← g5 r hr, zero_add]
  · intro hg
    refine ⟨st0, st, hst0, ?_, rfl, rfl, g6 hk⟩
    simp only [List.zip_map', List.map_id']
    exact g7 (fun r hr => hg r.1 (List.mem_map_of_mem hr))

theorem allSame (n : ℕ) (cols : List (List F)) (h : ∀ c ∈ cols, c.length = 2 ^ n) (c : List F) (rest : List (List F)) (hc : cols = c :: rest) :
    powerOfTwo c.length = true ∧ rest.all (fun x => x.length == c.length) = true := by
  subst hc
  refine ⟨?_, ?_⟩
  · rw [h c (by simp)]
    simp [powerOfTwo, Nat.log2_two_pow]
  · rw [List.all_eq_true]
    intro x hx
    rw [h x (by simp [hx]), h c (by simp)]
    simp

/-- C92 for tables: for every transcript, any non-empty list of columns and a multiplicity column of `2^(R+1)` rows each, the prover returns a proof of `R` rounds, and unless
a challenge drawn in one of the sumchecks is `0`, `1`, `2` or `3` (see C10) the verifier accepts it and ends with the same transcript: its claims are the true evaluations of multiplicities
and columns at a point of which the last sumcheck's point is the first part, and its fraction is the sum of multiplicity over merged row. -/
theorem C92_table (T : Transcript F) (threads : ℕ) (ht : 0 < threads) (hchar : ∀ k : ℕ, 0 < k → k ≤ 3 → (k : F) ≠ 0) (ts : T.State) (c csc : F) (R : ℕ)
    (cols : List (List F)) (mult : List F) (hne : cols ≠ []) (hcols : ∀ t ∈ cols, t.length = 2 ^ (R + 1)) (hmult : mult.length = 2 ^ (R + 1)) :
    ∃ input proof ts' p, LogUpInput.newTable cols mult c csc = some input ∧ batchProve threads T input ts = some (proof, ts') ∧
      proof.sumcheckProofs.length = R ∧ p.length = R + 1 ∧ (∀ sp, proof.sumcheckProofs.getLast? = some sp → p.take R = sp.point) ∧
      proof.outputClaims = (mult :: cols).map (trueClaim p) ∧
      ((∀ sp ∈ proof.sumcheckProofs, ∀ y ∈ sp.point, ∀ k : ℕ, k ≤ 3 → y ≠ (k : F)) →
        ∃ N D, verifyLogup T proof 1 c csc ts = some ((mult :: cols).map (trueClaim p), [(N, D)], ts') ∧
          ((∀ x ∈ tableFractions (R + 1) cols mult c csc, x.2 ≠ 0) → D ≠ 0 ∧ N / D = fracSum (tableFractions (R + 1) cols mult c csc))) := by
  have hnew : LogUpInput.newTable cols mult c csc = some (.table cols mult c csc) := by
    obtain ⟨a, as, rfl⟩ := List.exists_cons_of_ne_nil hne
    obtain ⟨h1, h2⟩ := allSame (R + 1) _ hcols a as rfl
    have h3 : mult.length = a.length := by rw [hmult, hcols a (by simp)]
    simp only [LogUpInput.newTable, h1, h2, h3]
    simp
  obtain ⟨l, hl⟩ : ∃ l, l = LogUpLayer.initialTable mult ((List.range (2 ^ (R + 1))).map fun i => c + fingerprint csc (rowOf cols i)) := ⟨_, rfl⟩
  have hlw : LayerWf l := by rw [hl]; simp [LayerWf, hmult]
  have hld : l.den.length = 2 ^ (R + 1) := by rw [hl]; simp [LogUpLayer.den]
  have hfr : layerFr l = tableFractions (R + 1) cols mult c csc := by rw [hl]; rfl
  have hcirc : (LogUpInput.table cols mult c csc).circuits = some ([l].map fun l => (List.range (R + 1)).map (layerAt l)) := by
    simp only [LogUpInput.circuits, tableLayer, mergedDen_eq _ cols c csc hne hcols, Option.bind_eq_bind, Option.bind_some, ← hl]
    rw [circuit, circuit_layers R _ l hlw hld (by rw [hld]; exact Nat.lt_two_pow_self.le)]
    rfl
  obtain ⟨proof, ts', p, h1, h2, h3, h4, h5, h6, h7, -, h8, h9⟩ := batchProve_spec T threads ht hchar ts R (.table cols mult c csc) [l] hcirc (by simp) (Or.inl rfl)
    (by simp [LogUpInput.isTable, hl, isLookupLayer]) (by simpa using hlw) (by simpa using hld) (by simpa [LogUpInput.baseColumns] using ⟨hmult, hcols⟩)
  refine ⟨_, proof, ts', p, hnew, h1, h6, h2, h8, h5, fun hg => ?_⟩
  obtain ⟨st0, st, g1, g2, g3, g4, g5⟩ := h9 hg
  obtain ⟨fr, f1, f2, f3⟩ := fraction_outputs R [layerFr l] (by
    intro g hg'; rw [List.mem_singleton] at hg'; rw [hg', layerFr_length l hlw, hld]; congr 1; omega)
  have hfr1 : fr = [fr[0]'(by rw [f2]; simp)] := by
    apply List.ext_getElem
    · exact f2
    · intro i hi _
      have : i = 0 := by rw [f2] at hi; simpa using hi
      subst this
      rfl
  refine ⟨(fr[0]'(by rw [f2]; simp)).1, (fr[0]'(by rw [f2]; simp)).2, ?_, ?_⟩
  · have hfin : finalEval proof.isTable proof.outputClaims c csc st.alpha st.lambda 1 = some st.claim := by
      rw [h3, h5, g5, g3]
      simp only [LogUpInput.isTable, LogUpInput.baseColumns, finalEval, if_true, List.map_cons, Option.some.injEq, layerClaim, List.map_nil, powerSum, mul_zero, add_zero, Bool.not_true, Bool.false_eq_true, if_false]
      have e1 : (layerFr l).map Prod.fst = mult := by
        rw [hfr, tableFractions, List.map_fst_zip]; simp [hmult]
      have e2 : (layerFr l).map Prod.snd = (List.range (2 ^ (R + 1))).map fun i => c + fingerprint csc (rowOf cols i) := by
        rw [hfr, tableFractions, List.map_snd_zip]; simp [hmult]
      rw [columnsEval_eq, e1, e2, merged_mle (R + 1) csc c p h2, List.map_map]
      rfl
    unfold verifyLogup
    simp only [Option.bind_eq_bind]
    have f1' : fractionalOutputs proof.circuitOutputs = some fr := by rw [h4]; exact f1
    have g1' : logupInit T 1 proof.circuitOutputs ts = some st0 := g1
    have g2' : logupRounds T 1 0 (proof.sumcheckProofs.zip proof.roundEvals) st0 = some st := g2
    rw [f1', g1']
    simp only [Option.bind_some]
    rw [g2']
    simp only [Option.bind_some]
    rw [hfin]
    simp only [Option.bind_some, if_true]
    rw [h5, g4]
    rw [← hfr1]
    rfl
  · intro hx
    rw [← hfr] at hx ⊢
    exact f3 0 (by simp) (by rw [f2]; simp) (by simpa using hx)

/-- C92 for lookups: the same for `groups` of `w` columns of `2^(R+2)` rows each: `R + 1` rounds, and one fraction per group, the sum of `-1` over merged row. -/
theorem C92_lookup (T : Transcript F) (threads : ℕ) (ht : 0 < threads) (hchar : ∀ k : ℕ, 0 < k → k ≤ 3 → (k : F) ≠ 0) (ts : T.State) (c csc : F) (R w : ℕ)
    (groups : List (List (List F))) (hinst : 0 < groups.length) (hw : 0 < w) (hg : ∀ g ∈ groups, g.length = w)
    (hcols : ∀ t ∈ groups.flatten, t.length = 2 ^ (R + 2)) :
    ∃ input proof ts' p, LogUpInput.newLookup groups.flatten c csc w = some input ∧ batchProve threads T input ts = some (proof, ts') ∧
      proof.sumcheckProofs.length = R + 1 ∧ p.length = R + 2 ∧ (∀ sp, proof.sumcheckProofs.getLast? = some sp → p.take (R + 1) = sp.point) ∧
      proof.outputClaims = groups.flatten.map (trueClaim p) ∧
      ((∀ sp ∈ proof.sumcheckProofs, ∀ y ∈ sp.point, ∀ k : ℕ, k ≤ 3 → y ≠ (k : F)) →
        ∃ frac, verifyLogup T proof groups.length c csc ts = some (groups.flatten.map (trueClaim p), frac, ts') ∧ frac.length = groups.length ∧
          ∀ s, ∀ hs : s < groups.length, ∀ hs' : s < frac.length, (∀ x ∈ lookupFractions (R + 2) groups[s] c csc, x.2 ≠ 0) →
            (frac[s]).2 ≠ 0 ∧ (frac[s]).1 / (frac[s]).2 = fracSum (lookupFractions (R + 2) groups[s] c csc)) := by
  have hgne : ∀ g ∈ groups, g ≠ [] := by
    intro g hg' h0
    have := hg g hg'
    rw [h0] at this
    simp at this
    omega
  have hnew : LogUpInput.newLookup groups.flatten c csc w = some (.lookup groups.flatten c csc w) := by
    have hne : groups.flatten ≠ [] := by
      obtain ⟨g, gs, rfl⟩ := List.exists_cons_of_ne_nil (List.ne_nil_of_length_pos hinst)
      have := hgne g (by simp)
      simp [this]
    obtain ⟨a, as, ha⟩ := List.exists_cons_of_ne_nil hne
    obtain ⟨h1, h2⟩ := allSame (R + 2) _ hcols a as ha
    rw [ha]
    simp only [LogUpInput.newLookup, h1, h2]
    simp
  obtain ⟨mk, hmk⟩ : ∃ mk : List (List F) → LogUpLayer F, mk = fun g => LogUpLayer.initialLookup ((List.range (2 ^ (R + 2))).map fun i => c + fingerprint csc (rowOf g i)) := ⟨_, rfl⟩
  have hmw : ∀ g, LayerWf (mk g) := by intro g; rw [hmk]; trivial
  have hmd : ∀ g, (mk g).den.length = 2 ^ (R + 1 + 1) := by intro g; rw [hmk]; simp [LogUpLayer.den]
  have hmf : ∀ g, layerFr (mk g) = lookupFractions (R + 2) g c csc := by
    intro g; rw [hmk]; simp [layerFr, lookupFractions, Function.comp_def]
  have hcirc : (LogUpInput.lookup groups.flatten c csc w).circuits = some ((groups.map mk).map fun l => (List.range (R + 1 + 1)).map (layerAt l)) := by
    simp only [LogUpInput.circuits]
    rw [if_neg (by omega), chunks_flatten w hw groups hg, List.map_map]
    refine mapM_some' _ _ _ fun g hg' => ?_
    have hc' : ∀ t ∈ g, t.length = 2 ^ (R + 2) := fun t ht' => hcols t (List.mem_flatten.2 ⟨g, hg', ht'⟩)
    have hm : lookupLayer g c csc = some (mk g) := by
      simp [lookupLayer, mergedDen_eq _ g c csc (hgne g hg') hc', hmk]
    rw [hm]
    simp only [Option.bind_eq_bind, Option.bind_some, Function.comp]
    rw [circuit, circuit_layers (R + 1) _ (mk g) (hmw g) (hmd g) (by rw [hmd]; exact Nat.lt_two_pow_self.le)]
  obtain ⟨proof, ts', p, h1, h2, h3, h4, h5, h6, h7, -, h8, h9⟩ := batchProve_spec T threads ht hchar ts (R + 1) (.lookup groups.flatten c csc w) (groups.map mk) hcirc
    (by simpa using List.ne_nil_of_length_pos hinst) (Or.inr (by omega)) (by simp [LogUpInput.isTable, hmk, isLookupLayer])
    (by intro l hl; obtain ⟨g, -, rfl⟩ := List.mem_map.1 hl; exact hmw g) (by intro l hl; obtain ⟨g, -, rfl⟩ := List.mem_map.1 hl; exact hmd g) hcols
  refine ⟨_, proof, ts', p, hnew, h1, h6, h2, h8, h5, fun hgood => ?_⟩
  obtain ⟨st0, st, g1, g2, g3, g4, g5⟩ := h9 hgood
  rw [List.length_map] at g1 g2
  have hfrs : (groups.map mk).map layerFr = groups.map fun g => lookupFractions (R + 2) g c csc := by
    rw [List.map_map]
    exact List.map_congr_left fun g _ => hmf g
  obtain ⟨fr, f1, f2, f3⟩ := fraction_outputs (R + 1) ((groups.map mk).map layerFr) (by
    intro g hg'
    rw [hfrs] at hg'
    obtain ⟨g', -, rfl⟩ := List.mem_map.1 hg'
    simp only [lookupFractions, List.length_map, List.length_range]
    congr 1
    omega)
  refine ⟨fr, ?_, by rw [f2]; simp, ?_⟩
  · have hfin : finalEval proof.isTable proof.outputClaims c csc st.alpha st.lambda groups.length = some st.claim := by
      have hcl' : proof.outputClaims = (groups.map (List.map (trueClaim p))).flatten := by rw [h5, ← List.map_flatten]; rfl
      have hgl : ∀ g ∈ groups.map (List.map (trueClaim p)), g.length = w := by
        intro g hgm
        obtain ⟨g', hg', rfl⟩ := List.mem_map.1 hgm
        rw [List.length_map]; exact hg g' hg'
      have hlen : proof.outputClaims.length = w * groups.length := by
        rw [hcl', List.length_flatten, List.eq_replicate_of_mem (a := w) (l := (groups.map (List.map (trueClaim p))).map List.length)
          (by intro x hx; obtain ⟨g, hg', rfl⟩ := List.mem_map.1 hx; exact hgl g hg')]
        simp [mul_comm]
      have hdiv : proof.outputClaims.length / groups.length = w := by rw [hlen, Nat.mul_div_cancel _ hinst]
      rw [h3, g5, g3]
      unfold finalEval
      rw [if_neg (by simp [LogUpInput.isTable]), if_neg (by rw [hdiv]; omega), hdiv, hcl', chunks_flatten w hw _ hgl, Option.some.injEq]
      rw [alphaFold_eq, layerClaim, hfrs, List.map_map, List.map_map]
      congr 1
      apply List.map_congr_left
      intro g _
      simp only [Function.comp, LogUpInput.isTable, Bool.not_false, if_true]
      rw [columnsEval_eq, lookupFractions, List.map_map, List.map_map]
      exact (merged_mle (R + 2) csc c p h2 g).symm
    unfold verifyLogup
    simp only [Option.bind_eq_bind]
    have f1' : fractionalOutputs proof.circuitOutputs = some fr := by
      rw [h4, ← f1, List.map_map (g := outputsOf (R + 1))]
      rfl
    rw [f1', g1]
    simp only [Option.bind_some]
    rw [g2]
    simp only [Option.bind_some]
    rw [hfin]
    simp only [Option.bind_some, if_true]
    rw [h5, g4]
    rfl
  · intro s hs hs' hx
    have he : ((groups.map mk).map layerFr)[s]'(by simpa using hs) = lookupFractions (R + 2) groups[s] c csc := by simp [hmf]
    have := f3 s (by simpa using hs) hs' (by rw [he]; exact hx)
    rw [he] at this
    exact this

theorem mapM_none_of_mem {α β : Type} (f : α → Option β) (l : List α) (x : α) (hx : x ∈ l) (h : f x = none) : l.mapM f = none := by
  induction l with
  | nil => simp at hx
  | cons a as ih =>
    rw [List.mapM_cons]
    rcases List.mem_cons.1 hx with rfl | hx
    · rw [h]; rfl
    · rw [ih hx]
      cases f a <;> rfl

/-- C92 is false for short columns: a lookup with columns of one or two rows passes the checks of `new_lookup`, but the prover fails on it, whatever the columns and challenges
are. (There is no layer of four values to start from: the output of the circuit consists of the denominators alone.) -/
theorem C92_short_lookup_false (T : Transcript F) (threads : ℕ) (ts : T.State) (c csc : F) (j w : ℕ) (hj : j ≤ 1)
    (groups : List (List (List F))) (hinst : 0 < groups.length) (hw : 0 < w) (hg : ∀ g ∈ groups, g.length = w) (hcols : ∀ t ∈ groups.flatten, t.length = 2 ^ j) :
    ∃ input, LogUpInput.newLookup groups.flatten c csc w = some input ∧ batchProve threads T input ts = none := by
  obtain ⟨g, gs, rfl⟩ := List.exists_cons_of_ne_nil (List.ne_nil_of_length_pos hinst)
  have hgne : ∀ g' ∈ g :: gs, g' ≠ [] := by
    intro g' hg' h0
    have := hg g' hg'
    rw [h0] at this
    simp at this
    omega
  refine ⟨.lookup (g :: gs).flatten c csc w, ?_, ?_⟩
  · have hne : (g :: gs).flatten ≠ [] := by
      have := hgne g (by simp)
      simp [this]
    obtain ⟨a, as, ha⟩ := List.exists_cons_of_ne_nil hne
    obtain ⟨h1, h2⟩ := allSame j _ hcols a as ha
    rw [ha]
    simp only [LogUpInput.newLookup, h1, h2]
    simp
  have hlayer : ∀ g' ∈ g :: gs, lookupLayer g' c csc = some (.initialLookup ((List.range (2 ^ j)).map fun i => c + fingerprint csc (rowOf g' i))) := by
    intro g' hg'
    simp [lookupLayer, mergedDen_eq _ g' c csc (hgne g' hg') (fun t ht' => hcols t (List.mem_flatten.2 ⟨g', hg', ht'⟩))]
  have hcirc : (LogUpInput.lookup (g :: gs).flatten c csc w).circuits = (g :: gs).mapM (fun g' => do
      let l ← lookupLayer g' c csc
      circuit l) := by
    simp only [LogUpInput.circuits]
    rw [if_neg (by omega), chunks_flatten w hw _ hg]
  unfold batchProve
  rw [hcirc]
  interval_cases j
  · rw [mapM_none_of_mem _ _ g (by simp) (by
      rw [hlayer g (by simp)]
      simp [circuit, LogUpLayer.den, circuitLayers, LogUpLayer.next, LogUpLayer.numVars, ceilLog2])]
    rfl
  · rw [mapM_some' _ (fun g' => [LogUpLayer.initialLookup ((List.range (2 ^ 1)).map fun i => c + fingerprint csc (rowOf g' i))]) _ (by
      intro g' hg'
      rw [hlayer g' hg']
      simp only [Option.bind_eq_bind, Option.bind_some, circuit]
      rw [circuit_layers 0 _ (.initialLookup ((List.range (2 ^ 1)).map fun i => c + fingerprint csc (rowOf g' i))) trivial (by simp [LogUpLayer.den]) (by simp [LogUpLayer.den])]
      rfl)]
    simp only [Option.bind_eq_bind, Option.bind_some]
    have hout : ((g :: gs).map fun g' => [LogUpLayer.initialLookup ((List.range (2 ^ 1)).map fun i => c + fingerprint csc (rowOf g' i))]).mapM (fun c => c.getLast?.bind fun l => some l.flat)
        = some ((g :: gs).map fun g' => (List.range (2 ^ 1)).map fun i => c + fingerprint csc (rowOf g' i)) := by
      rw [List.mapM_map]
      exact mapM_some' _ _ _ fun g' _ => rfl
    rw [hout]
    have hinit : logupProverInit T ((g :: gs).map fun g' => (List.range (2 ^ 1)).map fun i => c + fingerprint csc (rowOf g' i)) ts = none := by
      unfold logupProverInit
      simp only [Option.bind_eq_bind]
      rw [mapM_none_of_mem _ ((g :: gs).map fun g' => (List.range (2 ^ 1)).map fun i => c + fingerprint csc (rowOf g' i)) _ List.mem_cons_self (by
        simp [proverOutputTerm, quad, List.range_succ])]
      rfl
    cases ((g :: gs).map fun g' => [LogUpLayer.initialLookup ((List.range (2 ^ 1)).map fun i => c + fingerprint csc (rowOf g' i))]).mapM (fun c => c.head?.bind fun l => l.numVars) with
    | none => rfl
    | some nvs =>
      simp only [Option.bind_some]
      rw [hinit]
      rfl

/-- The table of `exTableProof` and the proof the honest prover makes for it. -/
example : ((LogUpInput.newTable [[(1 : ℚ), 2, 3, 4]] [1, 0, 2, 1] 5 1).bind fun input => batchProve 1 (tape ℚ) input [2, 1, 3, 5, 7, 2, 4]).map (fun r => (r.1.outputClaims.map Claim.eval, r.2))
    = some ([3, 20], []) := by decide +kernel

/-- Two groups of one column each, four rows: one round; the verifier accepts. -/
example : ((LogUpInput.newLookup [[(1 : ℚ), 2, 3, 4], [4, 4, 1, 2]] 5 1 1).bind fun input => (batchProve 1 (tape ℚ) input [2, 1, 3, 5, 7, 2, 4]).bind fun r =>
    (verifyLogup (tape ℚ) r.1 2 5 1 [2, 1, 3, 5, 7, 2, 4]).map fun v => (v.1.map Claim.eval, v.2.2)) = some ([20, 18], []) := by decide +kernel

/-- A column of two rows. -/
example : ((LogUpInput.newLookup [[(1 : ℚ), 2]] 5 1 1).bind fun input => batchProve 1 (tape ℚ) input [2, 1, 3, 5, 7, 2, 4]).isNone := by decide +kernel

end Props
