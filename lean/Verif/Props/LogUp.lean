import Verif.Lemmas.LogUp
import Verif.Props.Tables

/-!
Properties C14, C15, C17 and C64: the lookup argument.
-/

namespace Props

open Model Spec Lemmas

variable {F : Type} [Field F] [DecidableEq F]

/-! ### C14: the circuit sums fractions -/

/-- C14 for tables: for every number of layers and all nonzero denominators, every layer of the circuit has the same sum
of fractions, and the fraction of the outputs is that sum. -/
theorem C14_table (k : ℕ) (num den : List F) (hn : num.length = 2 ^ (k + 1)) (hd : den.length = 2 ^ (k + 1))
    (hne : ∀ d ∈ den, d ≠ 0) :
    ∃ layers outs N D, circuit (.initialTable num den) = some layers ∧ layers.length = k + 1 ∧
      (∀ n d, .generic n d ∈ layers → n.length = d.length ∧ (∀ x ∈ d, x ≠ 0) ∧
        fracSum (n.zip d) = fracSum (num.zip den)) ∧
      circuitOutputs (.initialTable num den) = some outs ∧ fractionalOutputs [outs] = some [(N, D)] ∧
      D ≠ 0 ∧ N / D = fracSum (num.zip den) := by
  have hw : LayerWf (.initialTable num den) := hn.trans hd.symm
  have hx : ∀ x ∈ layerFr (.initialTable num den), x.2 ≠ 0 := by
    intro x hx
    exact hne x.2 (List.of_mem_zip (show (x.1, x.2) ∈ num.zip den from hx)).2
  have hfuel : k + 1 ≤ den.length := by rw [hd]; exact Nat.lt_two_pow_self.le
  obtain ⟨ls, last, h1, h2, -, -, -, -, -, h8⟩ := circuit_spec k _ (.initialTable num den) hw hd hfuel
  obtain ⟨outs, N, h3, h4, h5⟩ := fraction_spec k (.initialTable num den) hw hd (fun _ => ⟨_, _, Or.inl rfl⟩)
  refine ⟨ls, outs, N, _, h1, h2, ?_, h3, h4, (denProd_ne_zero _).2 hx, h5 hx⟩
  intro n d hm
  obtain ⟨a, -, b⟩ := h8 _ hm
  obtain ⟨b1, b2⟩ := b hx
  refine ⟨a, ?_, b2⟩
  intro x hxd
  obtain ⟨i, hi, rfl⟩ := List.mem_iff_getElem.1 hxd
  have hi' : i < n.length := by rw [show n.length = d.length from a]; exact hi
  exact b1 (n[i], d[i]) (List.mem_iff_getElem.2 ⟨i, by rw [layerFr, List.length_zip]; omega, List.getElem_zip⟩)

/-- C14 for lookups: at least four lookups, each standing for the fraction `-1/d`. Missing: fewer than four lookups, see
`C14_two_lookups_false`. -/
theorem C14_lookup_partial (k : ℕ) (den : List F) (hd : den.length = 2 ^ (k + 2)) (hne : ∀ d ∈ den, d ≠ 0) :
    ∃ layers outs N D, circuit (.initialLookup den) = some layers ∧ layers.length = k + 2 ∧
      (∀ n d, .generic n d ∈ layers → n.length = d.length ∧ (∀ x ∈ d, x ≠ 0) ∧
        fracSum (n.zip d) = fracSum (den.map fun d => (-1, d))) ∧
      circuitOutputs (.initialLookup den) = some outs ∧ fractionalOutputs [outs] = some [(N, D)] ∧
      D ≠ 0 ∧ N / D = fracSum (den.map fun d => (-1, d)) := by
  have hx : ∀ x ∈ layerFr (.initialLookup den), x.2 ≠ 0 := by
    intro x hx
    obtain ⟨d, hd', rfl⟩ := List.mem_map.1 hx
    exact hne d hd'
  have hfuel : k + 1 + 1 ≤ den.length := by rw [hd]; exact Nat.lt_two_pow_self.le
  obtain ⟨ls, last, h1, h2, -, -, -, -, -, h8⟩ := circuit_spec (k + 1) _ (.initialLookup den) trivial hd hfuel
  obtain ⟨outs, N, h3, h4, h5⟩ := fraction_spec (k + 1) (.initialLookup den) trivial hd (by omega)
  refine ⟨ls, outs, N, _, h1, h2, ?_, h3, h4, (denProd_ne_zero _).2 hx, h5 hx⟩
  intro n d hm
  obtain ⟨a, -, b⟩ := h8 _ hm
  obtain ⟨b1, b2⟩ := b hx
  refine ⟨a, ?_, b2⟩
  intro x hxd
  obtain ⟨i, hi, rfl⟩ := List.mem_iff_getElem.1 hxd
  have hi' : i < n.length := by rw [show n.length = d.length from a]; exact hi
  exact b1 (n[i], d[i]) (List.mem_iff_getElem.2 ⟨i, by rw [layerFr, List.length_zip]; omega, List.getElem_zip⟩)

/-- The output denominator is the product of all denominators, zero or not: a zero anywhere makes the final test fail. -/
theorem C14_denominator (k : ℕ) (l : LogUpLayer F) (num den : List F) (hd : den.length = 2 ^ (k + 2))
    (hl : l = .initialLookup den ∨ l = .initialTable num den ∧ num.length = den.length) :
    ∃ outs N, circuitOutputs l = some outs ∧ fractionalOutputs [outs] = some [(N, den.prod)] := by
  have hw : LayerWf l := by rcases hl with rfl | ⟨rfl, h⟩; exacts [trivial, h]
  have hden : l.den = den := by rcases hl with rfl | ⟨rfl, -⟩ <;> rfl
  obtain ⟨outs, N, h3, h4, -⟩ := fraction_spec (k + 1) l hw (by rw [hden]; exact hd) (by omega)
  refine ⟨outs, N, h3, ?_⟩
  rw [h4, denProd, layerFr_den l hw, hden]

/-- The circuit of two lookups has only two outputs, and reading its fraction panics; the circuit of a single lookup
cannot be built. -/
theorem C14_two_lookups_false (a b : F) :
    circuitOutputs (.initialLookup [a, b]) = some [a, b] ∧ fractionalOutputs [[a, b]] = none ∧
      circuit (.initialLookup [a]) = none := by
  refine ⟨?_, ?_, ?_⟩
  · simp [circuitOutputs, circuit, circuitLayers, LogUpLayer.next, LogUpLayer.numVars, LogUpLayer.den, ceilLog2,
      LogUpLayer.flat]
  · simp [fractionalOutputs, quad]
  · simp [circuit, circuitLayers, LogUpLayer.next, LogUpLayer.numVars, LogUpLayer.den, ceilLog2]

/-- Four fractions 1/2 + 3/4 + 5/6 + 7/8. -/
example : circuitOutputs (.initialTable [1, 3, 5, 7] [2, 4, 6, (8 : ℚ)]) = some [16, 52, 12, 32] ∧
    fractionalOutputs [[16, 52, 12, (32 : ℚ)]] = some [(1136, 384)] ∧ (1136 / 384 : ℚ) = 1/2 + 3/4 + 5/6 + 7/8 := by
  refine ⟨?_, ?_, ?_⟩ <;> decide +kernel

/-! ### C15: the lookup identity -/

/-- The verifier's final test accepts exactly when no denominator vanishes and the fractions sum to zero. -/
theorem C15_final_check (fr : List (F × F)) : finalCheck fr = true ↔ (∀ x ∈ fr, x.2 ≠ 0) ∧ fracSum fr = 0 :=
  finalCheck_iff fr

/-- C15, completeness: rows `tab` of any table of `2^(m+1)` rows (repeated rows allowed), any number of lookup instances,
each of at least four rows of the table. With the multiplicities the prover computes, the test passes for all challenges
without poles. `mergeRow` must tell the rows of the table apart (`C24_merged`) and the number of repetitions of a row
must not vanish in the field. -/
theorem C15_complete (p w m : ℕ) (hw0 : 0 < w) (tab : List (List ℤ)) (looks : List (List (List ℤ)))
    (hw : ∀ r ∈ tab, r.length = w) (hm : tab.length = 2 ^ (m + 1))
    (hsize : ∀ look ∈ looks, ∃ k, look.length = 2 ^ (k + 2))
    (hsub : ∀ look ∈ looks, ∀ r ∈ look, r ∈ tab)
    (hinj : ∀ r ∈ tab, ∀ r' ∈ tab, mergeRow r = mergeRow r' → r = r')
    (hcount : ∀ r ∈ tab, ((tab.count r : ℕ) : F) ≠ 0) (c csc : F)
    (hpole : ∀ r ∈ tab, c + fingerprint csc (r.map (toField p)) ≠ 0) :
    lookupTest (looks.map fun look => (intCols (toField p) w look, csc))
      [(intCols (toField p) w tab, multiplicities (tab.map mergeRow) (looks.flatten.map mergeRow), csc)] c
      = some true := by
  have hlw : ∀ look ∈ looks, ∀ r ∈ look, r.length = w := fun look hl r hr => hw r (hsub look hl r hr)
  obtain ⟨b, h1, h2⟩ := lookupTest_iff (looks.map fun look => (intCols (toField p) w look, csc))
    [(intCols (toField p) w tab, multiplicities (tab.map mergeRow) (looks.flatten.map mergeRow), csc)] c
    (by
      intro x hx
      obtain ⟨look, hl, rfl⟩ := List.mem_map.1 hx
      obtain ⟨k, hk⟩ := hsize look hl
      exact ⟨intCols_ne _ w hw0 _, k, fun cc hc => (intCols_ok _ w _ cc hc).trans hk⟩)
    (by
      intro x hx
      rw [List.mem_singleton] at hx
      subst hx
      exact ⟨intCols_ne _ w hw0 _, m, fun cc hc => (intCols_ok _ w _ cc hc).trans hm, by simp [multiplicities, hm]⟩)
  rw [h1, h2.2]
  refine ⟨?_, ?_⟩
  · intro e he
    rcases List.mem_append.1 he with he | he
    · obtain ⟨x, hx, hex⟩ := List.mem_flatMap.1 he
      obtain ⟨look, hl, rfl⟩ := List.mem_map.1 hx
      obtain ⟨r, hr, hre⟩ := mem_lookupEntries _ w hw0 look csc (hlw look hl) e hex
      rw [hre]
      exact hpole r (hsub look hl r hr)
    · obtain ⟨x, hx, hex⟩ := List.mem_flatMap.1 he
      rw [List.mem_singleton] at hx
      subst hx
      obtain ⟨r, hr, hre⟩ := mem_tableEntries _ w hw0 tab _ csc hw e hex
      rw [hre]
      exact hpole r hr
  · rw [allEntries, withConst_append, fracSum_append, withConst_flatMap, withConst_flatMap, List.map_map]
    simp only [List.map_cons, List.map_nil, List.sum_cons, List.sum_nil, add_zero]
    rw [table_sum (toField p) w hw0 mergeRow tab looks.flatten c csc hw (fun r hr => by
      obtain ⟨look, hl, hr'⟩ := List.mem_flatten.1 hr
      exact hsub look hl r hr') hinj hcount]
    rw [List.map_congr_left (f := (fun x => fracSum (withConst c (lookupEntries x))) ∘ fun look => (intCols (toField p) w look, csc)) (g := fun look : List (List ℤ) =>
      -(look.map fun r => (c + fingerprint csc (r.map (toField p)))⁻¹).sum) (fun look hl =>
        lookup_sum (toField p) w hw0 look c csc (hlw look hl)), sum_map_neg]
    rw [List.map_flatten, List.sum_flatten, List.map_map]
    simp [Function.comp_def]

/-- Number of rows looked up by the instances. -/
def lookupRows (looks : List (List (List F))) : ℕ := (looks.map fun cols => (cols.headD []).length).sum

omit [DecidableEq F] in
theorem lookupRows_entries (looks : List (List (List F))) (csc : F) :
    ((looks.map fun cols => (cols, csc)).flatMap lookupEntries).length = lookupRows looks := by
  induction looks with
  | nil => rfl
  | cons a as ih =>
    rw [List.map_cons, List.flatMap_cons, List.length_append, ih]
    simp [lookupEntries, lookupRows]

/-- The core of soundness, for any number of tables: if the fingerprint of some lookup is not the fingerprint of a row of
any of the tables, then, whatever multiplicities were claimed, at most one constant challenge per row passes the test. -/
theorem sound_constants [Fintype F] (lookups : List (List (List F) × F)) (tables : List (List (List F) × List F × F))
    (hl : ∀ x ∈ lookups, LookupCircuitOk x) (ht : ∀ x ∈ tables, TableCircuitOk x)
    (hchar : ∀ k : ℕ, 0 < k → k ≤ (lookups.flatMap lookupEntries).length → (k : F) ≠ 0)
    (x : List (List F) × F) (hx : x ∈ lookups) (i : ℕ) (hi : i < (x.1.headD []).length)
    (hout : ∀ y ∈ tables, ∀ j < (y.1.headD []).length, fingerprint y.2.2 (rowOf y.1 j) ≠ fingerprint x.2 (rowOf x.1 i)) :
    (Finset.univ.filter fun c : F => lookupTest lookups tables c = some true).card
      ≤ (allEntries lookups tables).length := by
  classical
  have hA : ∀ e ∈ lookups.flatMap lookupEntries, e.1 = -1 := by
    intro e he
    obtain ⟨y, -, hy⟩ := List.mem_flatMap.1 he
    obtain ⟨j, -, rfl⟩ := List.mem_map.1 hy
    rfl
  have hB : ∀ e ∈ tables.flatMap tableEntries, e.2 ≠ fingerprint x.2 (rowOf x.1 i) := by
    intro e he
    obtain ⟨y, hy, hye⟩ := List.mem_flatMap.1 he
    obtain ⟨j, hj, hje⟩ := List.mem_map.1 (List.of_mem_zip (show (e.1, e.2) ∈ _ from hye)).2
    rw [← hje]
    exact hout y hy j (List.mem_range.1 hj)
  have hcnt := count_constants (allEntries lookups tables) (fingerprint x.2 (rowOf x.1 i)) (by
    rw [allEntries, entries_filter_sum _ _ _ hA hB, neg_ne_zero]
    apply hchar
    · rw [List.length_pos_iff_exists_mem]
      refine ⟨(-1, fingerprint x.2 (rowOf x.1 i)), List.mem_filter.2 ⟨List.mem_flatMap.2 ⟨x, hx, ?_⟩, by simp⟩⟩
      exact List.mem_map.2 ⟨i, List.mem_range.2 hi, rfl⟩
    · exact List.length_filter_le _ _)
  refine le_trans (Finset.card_le_card ?_) hcnt
  intro c hc
  rw [Finset.mem_filter] at hc ⊢
  obtain ⟨b, h1, h2⟩ := lookupTest_iff lookups tables c hl ht
  rw [h1, Option.some.injEq] at hc
  exact ⟨Finset.mem_univ _, h2.1 hc.2⟩

/-- C15, soundness: lookup columns and table columns with arbitrary field entries, and an arbitrary multiplicity column.
If some row that is looked up is not a row of the table, then at most `(lookups + rows + rows·(columns-1))·|F|` of the
`|F|²` pairs (column challenge, constant challenge) pass the test. -/
theorem C15_sound [Fintype F] (w : ℕ) (looks : List (List (List F))) (tcols : List (List F)) (mult : List F) (m : ℕ)
    (hw : ∀ cols ∈ looks, cols.length = w) (hw0 : 0 < w) (htw : tcols.length = w)
    (hsize : ∀ cols ∈ looks, ∃ k, ∀ col ∈ cols, col.length = 2 ^ (k + 2))
    (htab : ∀ col ∈ tcols, col.length = 2 ^ (m + 1)) (hmult : mult.length = 2 ^ (m + 1))
    (hchar : ∀ k : ℕ, 0 < k → k ≤ lookupRows looks → (k : F) ≠ 0)
    (cols : List (List F)) (hcols : cols ∈ looks) (i : ℕ) (hi : ∀ col ∈ cols, i < col.length)
    (hout : ∀ j < 2 ^ (m + 1), rowOf cols i ≠ rowOf tcols j) :
    (Finset.univ.filter fun x : F × F =>
        lookupTest (looks.map fun cols => (cols, x.1)) [(tcols, mult, x.1)] x.2 = some true).card
      ≤ (lookupRows looks + 2 ^ (m + 1) + 2 ^ (m + 1) * (w - 1)) * Fintype.card F := by
  classical
  have hne : ∀ cols ∈ looks, cols ≠ [] := by
    intro c hc h0
    have := hw c hc
    rw [h0] at this
    simp at this
    omega
  have htne : tcols ≠ [] := by
    intro h0
    rw [h0] at htw
    simp at htw
    omega
  have hth : (tcols.headD []).length = 2 ^ (m + 1) := headD_length htne htab
  have hih : i < (cols.headD []).length := by
    obtain ⟨k, hk⟩ := hsize cols hcols
    rw [headD_length (hne cols hcols) hk]
    cases cols with
    | nil => exact absurd rfl (hne [] hcols)
    | cons a as => rw [← hk a (by simp)]; exact hi a (by simp)
  obtain ⟨B, hB⟩ : ∃ B : Finset F, B = (Finset.range (2 ^ (m + 1))).biUnion fun j =>
    Finset.univ.filter fun csc : F => fingerprint csc (rowOf cols i) = fingerprint csc (rowOf tcols j) := ⟨_, rfl⟩
  have hBcard : B.card ≤ 2 ^ (m + 1) * (w - 1) := by
    rw [hB]
    refine Finset.card_biUnion_le.trans ?_
    refine (Finset.sum_le_card_nsmul _ _ (w - 1) fun j hj => ?_).trans (by simp)
    have hl : (rowOf cols i).length = w := by simp [rowOf, hw cols hcols]
    refine (count_collision (rowOf cols i) (rowOf tcols j) (by simp [rowOf, hw cols hcols, htw])
      (hout j (Finset.mem_range.1 hj))).trans (by rw [hl])
  have hfib : ∀ csc : F, csc ∉ B →
      (Finset.univ.filter fun c : F =>
        lookupTest (looks.map fun cols => (cols, csc)) [(tcols, mult, csc)] c = some true).card
        ≤ lookupRows looks + 2 ^ (m + 1) := by
    intro csc hcsc
    have := sound_constants (looks.map fun cols => (cols, csc)) [(tcols, mult, csc)]
      (by
        intro x hx
        obtain ⟨c, hc, rfl⟩ := List.mem_map.1 hx
        obtain ⟨k, hk⟩ := hsize c hc
        exact ⟨hne c hc, k, hk⟩)
      (by
        intro x hx
        rw [List.mem_singleton] at hx
        subst hx
        exact ⟨htne, m, htab, hmult⟩)
      (by rw [lookupRows_entries]; exact hchar)
      (cols, csc) (List.mem_map.2 ⟨cols, hcols, rfl⟩) i hih
      (by
        intro y hy j hj
        rw [List.mem_singleton] at hy
        subst hy
        intro heq
        apply hcsc
        rw [hB, Finset.mem_biUnion]
        exact ⟨j, Finset.mem_range.2 (hth ▸ hj), Finset.mem_filter.2 ⟨Finset.mem_univ _, heq.symm⟩⟩)
    refine this.trans (le_of_eq ?_)
    rw [allEntries, List.length_append, lookupRows_entries]
    simp only [tableEntries, List.flatMap_cons, List.flatMap_nil, List.append_nil, List.length_zip, List.length_map,
      List.length_range, hth, hmult, min_self]
  have hsplit : (Finset.univ.filter fun x : F × F =>
        lookupTest (looks.map fun cols => (cols, x.1)) [(tcols, mult, x.1)] x.2 = some true).card
      = ∑ csc : F, (Finset.univ.filter fun c : F =>
        lookupTest (looks.map fun cols => (cols, csc)) [(tcols, mult, csc)] c = some true).card := by
    simp only [Finset.card_filter]
    rw [← Finset.univ_product_univ, Finset.sum_product]
  rw [hsplit]
  calc _ ≤ ∑ csc : F, ((lookupRows looks + 2 ^ (m + 1)) + if csc ∈ B then Fintype.card F else 0) := by
        refine Finset.sum_le_sum fun csc _ => ?_
        by_cases h : csc ∈ B
        · rw [if_pos h]
          exact (Finset.card_le_univ _).trans (Nat.le_add_left _ _)
        · rw [if_neg h, add_zero]
          exact hfib csc h
    _ = (lookupRows looks + 2 ^ (m + 1)) * Fintype.card F + B.card * Fintype.card F := by
        rw [Finset.sum_add_distrib, Finset.sum_const, Finset.card_univ, Finset.sum_ite_mem, Finset.univ_inter,
          Finset.sum_const, smul_eq_mul, smul_eq_mul]
        ring
    _ ≤ _ := by
        rw [add_mul _ (2 ^ (m + 1) * (w - 1))]
        exact Nat.add_le_add_left (Nat.mul_le_mul_right _ hBcard) _

/-- Looking up (1,1), (1,1), (-2,0), (0,0) in a four-row relu table. -/
example : lookupTest (F := ℚ) [(intCols (fun x => (x : ℚ)) 2 [[1, 1], [1, 1], [-2, 0], [0, 0]], 7)]
    [(intCols (fun x => (x : ℚ)) 2 [[-2, 0], [-1, 0], [0, 0], [1, 1]], multiplicities
      ([[-2, 0], [-1, 0], [0, 0], [1, 1]].map mergeRow) ([[1, 1], [1, 1], [-2, 0], [0, 0]].map mergeRow), 7)] 5
    = some true := by decide +kernel

/-- The same with a row that is not in the table, and with a wrong multiplicity. -/
example : lookupTest (F := ℚ) [(intCols (fun x => (x : ℚ)) 2 [[1, 1], [1, 0], [-2, 0], [0, 0]], 7)]
    [(intCols (fun x => (x : ℚ)) 2 [[-2, 0], [-1, 0], [0, 0], [1, 1]], [1, 0, 1, 2], 7)] 5 = some false := by
  decide +kernel

/-! ### C17: which table proofs are counted -/

/-- C17, when there are as many table proofs as tables: the final test is about the fractions of the node proofs and of
the table proofs, and the `i`-th table proof was verified against the `i`-th table. Missing: the verifier does not
compare the two numbers, see `C17_extra_false` and `C17_missing_false`. -/
theorem C17_partial {P Tb S : Type} (outputsOf : P → List (List F)) (verifyOne : P → Tb → S → Option S)
    (nodeFr : List (F × F)) (tableProofs : List P) (tables : List Tb) (s s' : S)
    (hlen : tableProofs.length = tables.length)
    (h : verifyLookups outputsOf verifyOne nodeFr tableProofs tables s = some s') :
    (∃ tableFr, tableProofs.mapM (fun p => fractionalOutputs (outputsOf p)) = some tableFr ∧
      (∀ x ∈ nodeFr ++ tableFr.flatten, x.2 ≠ 0) ∧ fracSum (nodeFr ++ tableFr.flatten) = 0) ∧
    ∀ i (hi : i < tableProofs.length), ∃ s1 s2,
      verifyOne tableProofs[i] (tables[i]'(hlen ▸ hi)) s1 = some s2 := by
  unfold verifyLookups at h
  cases h1 : tableProofs.mapM fun p => fractionalOutputs (outputsOf p) with
  | none => rw [h1] at h; simp at h
  | some tableFr =>
    rw [h1] at h
    simp only [Option.bind_eq_bind, Option.bind_some] at h
    cases h2 : (tableProofs.zip tables).foldlM (fun s pt => verifyOne pt.1 pt.2 s) s with
    | none => rw [h2] at h; simp at h
    | some s1 =>
      rw [h2] at h
      simp only [Option.bind_some] at h
      by_cases hc : finalCheck (nodeFr ++ tableFr.flatten) = true
      · refine ⟨⟨tableFr, rfl, ?_⟩, ?_⟩
        · exact (finalCheck_iff _).1 hc
        · clear h h1 hc
          induction tableProofs generalizing tables s with
          | nil => intro i hi; simp at hi
          | cons p ps ih =>
            cases tables with
            | nil => simp at hlen
            | cons t ts =>
              rw [List.zip_cons_cons, List.foldlM_cons] at h2
              cases h3 : verifyOne p t s with
              | none => simp only [h3, Option.bind_eq_bind, Option.bind_none] at h2; exact absurd h2 (by simp)
              | some s3 =>
                simp only [h3, Option.bind_eq_bind, Option.bind_some] at h2
                intro i hi
                cases i with
                | zero => exact ⟨s, s3, h3⟩
                | succ i => exact ih ts s3 (by simpa using hlen) h2 i (by simpa using hi)
      · rw [if_neg hc] at h; simp at h

/-- A proof with one more table proof than there are tables: whatever the fractions of the nodes and of the verified
table proofs are (with nonzero denominators), there are outputs for which the additional table proof, which is never
verified, makes the verifier accept. -/
theorem C17_extra_false {P Tb S : Type} (outputsOf : P → List (List F)) (verifyOne : P → Tb → S → Option S)
    (nodeFr : List (F × F)) (tableProofs : List P) (tables : List Tb) (s s' : S)
    (hlen : tableProofs.length = tables.length) (tableFr : List (List (F × F)))
    (hfr : tableProofs.mapM (fun p => fractionalOutputs (outputsOf p)) = some tableFr)
    (hne : ∀ x ∈ nodeFr ++ tableFr.flatten, x.2 ≠ 0)
    (hver : (tableProofs.zip tables).foldlM (fun s pt => verifyOne pt.1 pt.2 s) s = some s') :
    ∃ outs : List F, ∀ extra : P, outputsOf extra = [outs] →
      verifyLookups outputsOf verifyOne nodeFr (tableProofs ++ [extra]) tables s = some s' := by
  refine ⟨[-fracSum (nodeFr ++ tableFr.flatten), 0, 1, 1], fun extra he => ?_⟩
  have hz : (tableProofs ++ [extra]).zip tables = tableProofs.zip tables := by
    have := List.zip_append (l₁ := tableProofs) (r₁ := [extra]) (l₂ := tables) (r₂ := []) hlen
    rw [List.append_nil] at this
    rw [this]
    simp
  unfold verifyLookups
  rw [mapM_append', hfr, hz, hver]
  have h1 : [extra].mapM (fun p => fractionalOutputs (outputsOf p))
      = some [[(-fracSum (nodeFr ++ tableFr.flatten), 1)]] := by
    simp [he, fractionalOutputs, quad]
  rw [h1]
  simp only [Option.bind_eq_bind, Option.bind_some]
  rw [if_pos]
  rw [finalCheck_iff, List.flatten_append]
  refine ⟨?_, ?_⟩
  · intro x hx
    rw [← List.append_assoc] at hx
    rcases List.mem_append.1 hx with h | h
    · exact hne x h
    · have : x = (-fracSum (nodeFr ++ tableFr.flatten), 1) := by simpa using h
      rw [this]; exact one_ne_zero
  · rw [← List.append_assoc, fracSum_append]
    simp [fracSum]

/-- Table proofs may be missing: with no table proofs at all no table is verified. -/
theorem C17_missing_false {P Tb S : Type} (outputsOf : P → List (List F)) (verifyOne : P → Tb → S → Option S)
    (nodeFr : List (F × F)) (hne : ∀ x ∈ nodeFr, x.2 ≠ 0) (h0 : fracSum nodeFr = 0) (tables : List Tb) (s : S) :
    verifyLookups outputsOf verifyOne nodeFr [] tables s = some s := by
  unfold verifyLookups
  have : finalCheck nodeFr = true := (finalCheck_iff _).2 ⟨hne, h0⟩
  simp [this]

/-- Lookups with sum -1/2, no tables, and an additional table proof with outputs 1/2, 0. -/
example : verifyLookups (F := ℚ) (P := List (List ℚ)) (Tb := Unit) (S := Unit) id (fun _ _ _ => none) [(-1, 2)]
    [[[1 / 2, 0, 1, 1]]] [] () = some () := by decide +kernel

/-! ### C64: lookups into one table and the rows of another -/

/-- C64, weaker: a lookup whose fingerprint is not the fingerprint of a row of *any* table of the model is caught, for
all but one constant challenge per row. Missing: the rows of different tables are not separated, see
`C64_cross_table_false`. -/
theorem C64_partial [Fintype F] (lookups : List (List (List F) × F)) (tables : List (List (List F) × List F × F))
    (hl : ∀ x ∈ lookups, x.1 ≠ [] ∧ ∃ k, ∀ c ∈ x.1, c.length = 2 ^ (k + 2))
    (ht : ∀ x ∈ tables, x.1 ≠ [] ∧ ∃ k, (∀ c ∈ x.1, c.length = 2 ^ (k + 1)) ∧ x.2.1.length = 2 ^ (k + 1))
    (hchar : ∀ k : ℕ, 0 < k → k ≤ lookupRows (lookups.map Prod.fst) → (k : F) ≠ 0)
    (x : List (List F) × F) (hx : x ∈ lookups) (i : ℕ) (hi : i < (x.1.headD []).length)
    (hout : ∀ y ∈ tables, ∀ j < (y.1.headD []).length, fingerprint y.2.2 (rowOf y.1 j) ≠ fingerprint x.2 (rowOf x.1 i)) :
    (Finset.univ.filter fun c : F => lookupTest lookups tables c = some true).card
      ≤ lookupRows (lookups.map Prod.fst) + (tables.map fun y => y.2.1.length).sum := by
  have e1 : (lookups.flatMap lookupEntries).length = lookupRows (lookups.map Prod.fst) := by
    clear hl hchar hx
    induction lookups with
    | nil => rfl
    | cons a as ih => rw [List.flatMap_cons, List.length_append, ih]; simp [lookupEntries, lookupRows]
  have e2 : ∀ tb : List (List (List F) × List F × F), (tb.flatMap tableEntries).length ≤ (tb.map fun y => y.2.1.length).sum := by
    intro tb
    induction tb with
    | nil => simp
    | cons a as ih =>
      rw [List.flatMap_cons, List.length_append, List.map_cons, List.sum_cons]
      refine Nat.add_le_add ?_ ih
      rw [tableEntries, List.length_zip]
      exact min_le_left _ _
  refine (sound_constants lookups tables hl ht (by rw [e1]; exact hchar) x hx i hi hout).trans ?_
  rw [allEntries, List.length_append, e1]
  exact Nat.add_le_add_left (e2 tables) _

theorem clamp_neg_row (env : TableType → ℤ → ℤ) (bl size : ℕ) (hbl : 2 ≤ bl) (x : ℤ) (hx : x < 0) :
    [x, 0] ∉ tableRows env bl (.clamping size) := by
  intro h
  obtain ⟨-, -, h3⟩ := ((C24_rows env bl x 0).2.1 size).1 h
  have h2 : (2 : ℤ) ^ 1 ≤ 2 ^ (bl - 1) := pow_le_pow_right₀ (by norm_num) (by omega)
  have : max (-(2 ^ (bl - 1)) + 1) (min (2 ^ (bl - 1) - 1) x) < 0 := by
    rw [max_lt_iff]
    refine ⟨by omega, ?_⟩
    exact lt_of_le_of_lt (min_le_right _ _) hx
  omega

theorem relu_rows_wf (env : TableType → ℤ → ℤ) (bl : ℕ) : ∀ r ∈ tableRows env bl .relu, r.length = 2 := by
  intro r hr
  simp only [tableRows, List.mem_map] at hr
  obtain ⟨i, -, rfl⟩ := hr
  rfl

theorem clamp_rows_wf (env : TableType → ℤ → ℤ) (bl size : ℕ) :
    ∀ r ∈ tableRows env bl (.clamping size), r.length = 2 := by
  intro r hr
  simp only [tableRows, List.mem_map] at hr
  obtain ⟨i, -, rfl⟩ := hr
  rfl

/-- In a model with a relu table and a clamping table, claiming that a negative number `x` clamps to zero passes the
test, for all challenges without poles: the prover counts the lookup `(x, 0)` in the relu table, and the fingerprint
`c + x + csc·0` does not depend on the column challenge that is supposed to separate the tables. -/
theorem C64_cross_table_false (p : ℕ) [CharP F p] (env : TableType → ℤ → ℤ) (bl size : ℕ) (hbl : 2 ≤ bl) (hbl' : bl ≤ 16)
    (hsize : 1 ≤ size) (hsize' : size ≤ 31) (x : ℤ) (hx : x < 0) (hx' : -(2 ^ (bl - 1)) ≤ x)
    (c cscRelu cscClamp : F)
    (hpole : ∀ r ∈ tableRows env bl .relu, c + fingerprint cscRelu (r.map (toField p)) ≠ 0)
    (hpole' : ∀ r ∈ tableRows env bl (.clamping size), c + fingerprint cscClamp (r.map (toField p)) ≠ 0) :
    [x, 0] ∉ tableRows env bl (.clamping size) ∧
    ∃ multRelu multClamp : List F,
      lookupTest [(intCols (toField p) 2 (List.replicate 4 [x, 0]), cscClamp)]
        [(tableColumns p env bl .relu, multRelu, cscRelu), (tableColumns p env bl (.clamping size), multClamp, cscClamp)] c
        = some true := by
  refine ⟨clamp_neg_row env bl size hbl x hx, multiplicities ((tableRows env bl .relu).map mergeRow)
    ((List.replicate 4 [x, 0]).map mergeRow), multiplicities ((tableRows env bl (.clamping size)).map mergeRow)
    (([] : List (List ℤ)).map mergeRow), ?_⟩
  have hmem : [x, 0] ∈ tableRows env bl .relu := by
    refine (C24_rows env bl x 0).1.2 ⟨hx', ?_, ?_⟩
    · have : (0 : ℤ) < 2 ^ (bl - 1) := by positivity
      omega
    · omega
  have key : ∀ t : TableType, (∀ r ∈ tableRows env bl t, ∃ a b, r = [a, b]) →
      (∀ a b, [a, b] ∈ tableRows env bl t → |a| < 2 ^ 31) → (∀ a b b', [a, b] ∈ tableRows env bl t →
        [a, b'] ∈ tableRows env bl t → b = b') →
      ∀ r ∈ tableRows env bl t, ∀ r' ∈ tableRows env bl t, mergeRow r = mergeRow r' → r = r' := by
    intro t hsh hdom _ r hr r' hr' he
    obtain ⟨a, b, rfl⟩ := hsh r hr
    obtain ⟨a', b', rfl⟩ := hsh r' hr'
    have h1 := abs_lt.1 (hdom a b hr)
    have h2 := abs_lt.1 (hdom a' b' hr')
    simp only [mergeRow, columnSeparator] at he
    have hb : b = b' := by omega
    subst hb
    have ha : a = a' := by omega
    rw [ha]
  have hnodup : ∀ (f : ℤ → List ℤ) (lo hi : ℤ), (∀ i, (f i).head? = some i) → ((irange lo hi).map f).Nodup := by
    intro f lo hi hf
    rw [List.nodup_map_iff_inj_on]
    · intro a _ b _ hab
      have := congrArg List.head? hab
      rw [hf, hf, Option.some.injEq] at this
      exact this
    · unfold irange
      rw [List.nodup_map_iff_inj_on List.nodup_range]
      intro a _ b _ hab
      omega
  have hcR : ∀ r ∈ tableRows env bl .relu, (((tableRows env bl .relu).count r : ℕ) : F) ≠ 0 := by
    intro r hr
    rw [List.count_eq_one_of_mem (show (tableRows env bl .relu).Nodup from hnodup (fun i => [i, reluApply i]) _ _ (fun i => rfl)) hr]
    simp
  have hcC : ∀ r ∈ tableRows env bl (.clamping size), (((tableRows env bl (.clamping size)).count r : ℕ) : F) ≠ 0 := by
    intro r hr
    rw [List.count_eq_one_of_mem (show (tableRows env bl (.clamping size)).Nodup from hnodup (fun i => [i, clampTo bl i]) _ _ (fun i => rfl)) hr]
    simp
  have hshR : ∀ r ∈ tableRows env bl .relu, ∃ a b, r = [a, b] := by
    intro r hr
    simp only [tableRows, List.mem_map] at hr
    obtain ⟨i, -, rfl⟩ := hr
    exact ⟨_, _, rfl⟩
  have hshC : ∀ r ∈ tableRows env bl (.clamping size), ∃ a b, r = [a, b] := by
    intro r hr
    simp only [tableRows, List.mem_map] at hr
    obtain ⟨i, -, rfl⟩ := hr
    exact ⟨_, _, rfl⟩
  have hkR := key .relu hshR (fun a b => (C24_domains env bl hbl' a b).1) (by
    intro a b b' h h'
    rw [((C24_rows env bl a b).1.1 h).2.2, ((C24_rows env bl a b').1.1 h').2.2])
  have hkC := key (.clamping size) hshC (fun a b => (C24_domains env bl hbl' a b).2.1 size hsize') (by
    intro a b b' h h'
    rw [(((C24_rows env bl a b).2.1 size).1 h).2.2, (((C24_rows env bl a b').2.1 size).1 h').2.2])
  have hlR : (tableRows env bl .relu).length = 2 ^ (bl - 1 + 1) := by
    rw [C23_rows env bl (by omega) .relu trivial bl rfl]
    congr 1; omega
  have hlC : (tableRows env bl (.clamping size)).length = 2 ^ (size - 1 + 1) := by
    rw [C23_rows env bl (by omega) (.clamping size) (by simpa [TableOk] using hsize) size rfl]
    congr 1; omega
  have e1 : tableColumns (F := F) p env bl .relu = intCols (toField p) 2 (tableRows env bl .relu) := rfl
  have e2 : tableColumns (F := F) p env bl (.clamping size) = intCols (toField p) 2 (tableRows env bl (.clamping size)) := rfl
  rw [e1, e2]
  obtain ⟨b, h1, h2⟩ := lookupTest_iff [(intCols (F := F) (toField p) 2 (List.replicate 4 [x, 0]), cscClamp)]
    [(intCols (toField p) 2 (tableRows env bl .relu), multiplicities ((tableRows env bl .relu).map mergeRow)
      ((List.replicate 4 [x, 0]).map mergeRow), cscRelu),
     (intCols (toField p) 2 (tableRows env bl (.clamping size)),
      multiplicities ((tableRows env bl (.clamping size)).map mergeRow) (([] : List (List ℤ)).map mergeRow), cscClamp)] c
    (by
      intro y hy
      rw [List.mem_singleton] at hy
      subst hy
      exact ⟨intCols_ne _ 2 (by omega) _, 0, fun cc hc => (intCols_ok _ 2 _ cc hc).trans (by simp)⟩)
    (by
      intro y hy
      rcases List.mem_cons.1 hy with rfl | hy
      · exact ⟨intCols_ne _ 2 (by omega) _, bl - 1, fun cc hc => (intCols_ok _ 2 _ cc hc).trans hlR,
          by simp [multiplicities, hlR]⟩
      · rw [List.mem_singleton] at hy
        subst hy
        exact ⟨intCols_ne _ 2 (by omega) _, size - 1, fun cc hc => (intCols_ok _ 2 _ cc hc).trans hlC,
          by simp [multiplicities, hlC]⟩)
  have hfp : fingerprint cscClamp ([x, 0].map (toField (F := F) p)) = fingerprint cscRelu ([x, 0].map (toField p)) := by
    have : toField (F := F) p 0 = 0 := by rw [toField_eq_cast p 0 (by simp)]; simp
    simp [fingerprint, this]
  have hlw : ∀ r ∈ List.replicate 4 [x, 0], r.length = 2 := by
    intro r hr
    rw [List.eq_of_mem_replicate hr]; rfl
  rw [h1, h2.2]
  refine ⟨?_, ?_⟩
  · intro e he
    rcases List.mem_append.1 he with he | he
    · obtain ⟨y, hy, hey⟩ := List.mem_flatMap.1 he
      rw [List.mem_singleton] at hy
      subst hy
      obtain ⟨r, hr, hre⟩ := mem_lookupEntries _ 2 (by omega) _ cscClamp hlw e hey
      rw [hre, List.eq_of_mem_replicate hr, hfp]
      exact hpole _ hmem
    · obtain ⟨y, hy, hey⟩ := List.mem_flatMap.1 he
      rcases List.mem_cons.1 hy with rfl | hy
      · obtain ⟨r, hr, hre⟩ := mem_tableEntries _ 2 (by omega) _ _ cscRelu (relu_rows_wf env bl) e hey
        rw [hre]; exact hpole r hr
      · rw [List.mem_singleton] at hy
        subst hy
        obtain ⟨r, hr, hre⟩ := mem_tableEntries _ 2 (by omega) _ _ cscClamp (clamp_rows_wf env bl size) e hey
        rw [hre]; exact hpole' r hr
  · rw [allEntries, withConst_append, fracSum_append, withConst_flatMap, withConst_flatMap]
    simp only [List.map_cons, List.map_nil, List.sum_cons, List.sum_nil, add_zero]
    rw [lookup_sum (toField p) 2 (by omega) _ c cscClamp hlw]
    have hs1 := table_sum (toField (F := F) p) 2 (by omega) mergeRow (tableRows env bl .relu) (List.replicate 4 [x, 0]) c cscRelu
      (relu_rows_wf env bl) (fun r hr => by rw [List.eq_of_mem_replicate hr]; exact hmem) hkR hcR
    have hs2 := table_sum (toField (F := F) p) 2 (by omega) mergeRow (tableRows env bl (.clamping size)) [] c cscClamp
      (clamp_rows_wf env bl size) (by simp) hkC hcC
    simp only [List.map_nil, List.sum_nil, List.map_replicate] at hs1 hs2 ⊢
    rw [hs1, hs2, hfp]
    ring

/-- The attack on concrete tables: `(-1, 0)` is not a row of the clamping table, but is looked up in it. -/
example : lookupTest (F := ℚ) [(intCols (fun x => (x : ℚ)) 2 (List.replicate 4 [-1, 0]), 11)]
    [(intCols (fun x => (x : ℚ)) 2 [[-2, 0], [-1, 0], [0, 0], [1, 1]], [0, 4, 0, 0], 7),
     (intCols (fun x => (x : ℚ)) 2 [[-2, -1], [-1, -1], [0, 0], [1, 1]], [0, 0, 0, 0], 11)] 30 = some true := by
  decide +kernel

end Props
