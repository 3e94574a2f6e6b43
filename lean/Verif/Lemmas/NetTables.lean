import Verif.Spec.Network
import Verif.Props.Tables
import Verif.Props.LogUpProver

/-!
The fractions of looked-up rows and of tables, and the proofs of the tables of a feed-forward network.
-/

namespace Lemmas

open Model Spec Props

section
variable {F : Type} [Field F] [DecidableEq F]

/-- `Σ 1 / (c + fingerprint)` over rows of integers. -/
def invSum (p : ℕ) (c csc : F) (rows : List (List ℤ)) : F := (rows.map fun r => (c + fingerprint csc (r.map (toField p)))⁻¹).sum

theorem invSum_append (p : ℕ) (c csc : F) (a b : List (List ℤ)) : invSum p c csc (a ++ b) = invSum p c csc a + invSum p c csc b := by
  simp [invSum]

theorem lookupFractions_rows (p n w : ℕ) (c csc : F) (rows : List (List ℤ)) (hl : rows.length = 2 ^ n) (hw : ∀ r ∈ rows, r.length = w) :
    lookupFractions n (intCols (toField p) w rows) c csc = rows.map fun r => (-1, c + fingerprint csc (r.map (toField p))) := by
  unfold lookupFractions
  rw [← hl]
  exact map_range_getElem rows _ _ fun i hi => by rw [rowOf_intCols _ w rows hw i hi]

theorem fracSum_lookup (p : ℕ) (c csc : F) (rows : List (List ℤ)) :
    fracSum (rows.map fun r => ((-1 : F), c + fingerprint csc (r.map (toField p)))) = -invSum p c csc rows := by
  induction rows with
  | nil => simp [fracSum, invSum]
  | cons r rows ih =>
    simp only [fracSum, invSum, List.map_cons, List.sum_cons] at ih ⊢
    rw [ih, neg_div, one_div]
    ring

/-- Fractions of several groups of rows. -/
theorem frac_groups (p : ℕ) (c csc : F) (frac : List (F × F)) (groups : List (List (List ℤ)))
    (h : List.Forall₂ (fun fr rows => fr.2 ≠ 0 ∧ fr.1 / fr.2 = -invSum p c csc rows) frac groups) :
    (∀ x ∈ frac, x.2 ≠ 0) ∧ fracSum frac = -invSum p c csc groups.flatten := by
  induction h with
  | nil => simp [fracSum, invSum]
  | cons hab _ ih =>
    refine ⟨fun x hx => (List.mem_cons.1 hx).elim (fun h => h ▸ hab.1) (ih.1 x), ?_⟩
    rw [List.flatten_cons, invSum_append, fracSum, List.map_cons, List.sum_cons, hab.2, ← fracSum, ih.2]
    ring

theorem tableColumns_intCols (p : ℕ) (env : TableType → ℤ → ℤ) (bl : ℕ) (t : TableType) :
    (tableColumns p env bl t : List (List F)) = intCols (toField p) (numColumns t) (tableRows env bl t) := rfl

theorem tableFractions_rows (p n w : ℕ) (c csc : F) (tab : List (List ℤ)) (mult : List F) (hl : tab.length = 2 ^ n) (hw : ∀ r ∈ tab, r.length = w) :
    tableFractions n (intCols (toField p) w tab) mult c csc = mult.zip (tab.map fun r => c + fingerprint csc (r.map (toField p))) := by
  unfold tableFractions
  rw [← hl]
  congr 1
  exact map_range_getElem tab _ _ fun i hi => by rw [rowOf_intCols _ w tab hw i hi]

theorem fracSum_table (p : ℕ) (c csc : F) (key : List ℤ → ℤ) (tab look : List (List ℤ)) (hsub : ∀ r ∈ look, r ∈ tab)
    (hinj : ∀ r ∈ tab, ∀ r' ∈ tab, key r = key r' → r = r') (hnd : tab.Nodup) :
    fracSum ((multiplicities (tab.map key) (look.map key)).zip (tab.map fun r => c + fingerprint csc (r.map (toField p)))) = invSum p c csc look := by
  unfold invSum
  rw [← multiplicities_cancel key tab look (fun r => (c + fingerprint csc (r.map (toField p)))⁻¹) hsub hinj
    (fun r hr => by rw [List.count_eq_one_of_mem hnd hr]; simp)]
  generalize multiplicities (F := F) (tab.map key) (look.map key) = mult
  clear hsub hinj hnd
  unfold fracSum
  induction tab generalizing mult with
  | nil => simp
  | cons r tab ih =>
    cases mult with
    | nil => simp
    | cons m mult => simp only [List.map_cons, List.zip_cons_cons, List.sum_cons, List.zipWith_cons_cons, ih]; rw [div_eq_mul_inv]

/-! ### The tables of these networks -/

/-- The tables of these networks. -/
def NetTable (p : ℕ) (t : TableType) : Prop := t = .relu ∨ t = .range ∨ ∃ size, t = .clamping size ∧ 1 ≤ size ∧ size ≤ 31 ∧ 2 ^ size ≤ p

theorem irange_nodup (lo hi : ℤ) : (irange lo hi).Nodup := by
  unfold irange
  exact List.Nodup.map (fun a b h => by simpa using h) List.nodup_range

theorem netTable_spec (p bl : ℕ) (hbl : 1 ≤ bl) (hbl' : bl ≤ 16) (hp : 2 ^ bl ≤ p) (env : TableType → ℤ → ℤ) (t : TableType) (ht : NetTable p t) :
    ∃ R, tableVars bl t = some (R + 1) ∧ 2 ^ (R + 1) ≤ p ∧ TableOk t ∧ (tableRows env bl t).length = 2 ^ (R + 1) ∧ (tableRows env bl t).Nodup ∧
      (∀ r ∈ tableRows env bl t, r.length = numColumns t) ∧ (∀ r ∈ tableRows env bl t, ∀ r' ∈ tableRows env bl t, mergeRow r = mergeRow r' → r = r') ∧
      hasTableClaim t = false ∧ 0 < numColumns t := by
  have hmap : ∀ (f : ℤ → ℤ) (lo hi : ℤ), ((irange lo hi).map fun i => [i, f i]).Nodup := fun f lo hi =>
    List.Nodup.map (fun a b h => by simpa using (List.cons.inj h).1) (irange_nodup _ _)
  have hinj : ∀ (f : ℤ → ℤ) (lo hi : ℤ), -(2 ^ 31) ≤ lo → hi ≤ 2 ^ 31 → ∀ r ∈ (irange lo hi).map (fun i => [i, f i]), ∀ r' ∈ (irange lo hi).map (fun i => [i, f i]),
      mergeRow r = mergeRow r' → r = r' := by
    intro f lo hi h1 h2 r hr r' hr' h
    simp only [List.mem_map, mem_irange] at hr hr'
    obtain ⟨x, hx, rfl⟩ := hr
    obtain ⟨y, hy, rfl⟩ := hr'
    simp only [mergeRow, columnSeparator] at h
    have : x = y := by omega
    rw [this]
  rcases ht with rfl | rfl | ⟨size, rfl, h1, h2, h3⟩
  · obtain ⟨R, rfl⟩ : ∃ R, bl = R + 1 := ⟨bl - 1, by omega⟩
    have hq : (2 : ℤ) ^ R ≤ 2 ^ 30 := pow_le_pow_right₀ (by norm_num) (by omega)
    refine ⟨R, rfl, hp, trivial, C23_rows env _ hbl .relu trivial _ rfl, hmap _ _ _, ?_, hinj _ _ _ ?_ ?_, rfl, by decide⟩
    · intro r hr
      simp only [tableRows, List.mem_map] at hr
      obtain ⟨x, -, rfl⟩ := hr
      rfl
    · unfold qMin; simp only [Nat.add_sub_cancel]; omega
    · unfold qMax; simp only [Nat.add_sub_cancel]; omega
  · obtain ⟨R, rfl⟩ : ∃ R, bl = R + 1 := ⟨bl - 1, by omega⟩
    refine ⟨R, rfl, hp, trivial, C23_rows env _ hbl .range trivial _ rfl, List.Nodup.map (fun a b h => by simpa using h) (irange_nodup _ _), ?_, ?_, rfl, by decide⟩
    · intro r hr
      simp only [tableRows, List.mem_map] at hr
      obtain ⟨x, -, rfl⟩ := hr
      rfl
    · intro r hr r' hr' h
      simp only [tableRows, List.mem_map] at hr hr'
      obtain ⟨x, -, rfl⟩ := hr
      obtain ⟨y, -, rfl⟩ := hr'
      simp only [mergeRow] at h
      rw [h]
  · obtain ⟨R, rfl⟩ : ∃ R, size = R + 1 := ⟨size - 1, by omega⟩
    have hq : (2 : ℤ) ^ R ≤ 2 ^ 30 := pow_le_pow_right₀ (by norm_num) (by omega)
    refine ⟨R, rfl, h3, h1, C23_rows env _ hbl (.clamping (R + 1)) h1 _ rfl, hmap _ _ _, ?_, hinj _ _ _ ?_ ?_, rfl, by simp [numColumns]⟩
    · intro r hr
      simp only [tableRows, List.mem_map] at hr
      obtain ⟨x, -, rfl⟩ := hr
      rfl
    · simp only [Nat.add_sub_cancel]; omega
    · simp only [Nat.add_sub_cancel]; omega

end

/-! ### Table proofs -/

section
variable {F C CP : Type} [Field F] [DecidableEq F] {T : Transcript F}

/-- The fractions checked are those of the outputs. -/
theorem verifyLogup_fractions (proof : LogUpProof F) (n : ℕ) (c csc : F) (ts ts' : T.State) (claims : List (Claim F)) (frac : List (F × F))
    (h : verifyLogup T proof n c csc ts = some (claims, frac, ts')) : (fractionalOutputs proof.circuitOutputs).getD [] = frac := by
  unfold verifyLogup at h
  simp only [Option.bind_eq_bind, Option.bind_eq_some_iff] at h
  obtain ⟨fr, h1, st, -, st', -, e, -, h⟩ := h
  rw [h1, Option.getD_some]
  split at h
  · simp only [Option.some.injEq, Prod.mk.injEq] at h
    exact h.2.1
  · simp at h

/-- The proof of one table. -/
theorem netTable_step (e : NetEnv F C CP T) [CharP F e.p] (hthreads : 0 < e.threads) (hchar : ∀ k : ℕ, 0 < k → k ≤ 5 → (k : F) ≠ 0) (hbl : 1 ≤ e.bl) (hbl' : e.bl ≤ 16)
    (hp : 2 ^ e.bl ≤ e.p) (lookups : List (TableType × List (List ℤ))) (t : TableType) (ht : NetTable e.p t) (hsub : ∀ r ∈ rowsOf lookups t, r ∈ tableRows e.contents e.bl t)
    (s : NetState T.State F C) (c csc : F) (hc : s.challenge t = some (c, csc)) :
    ∃ tp ts' mult cl, netProveTable e lookups t s = some (tp, { s with ts := ts', witnessClaims := s.witnessClaims ++ [(e.commit mult, cl)] }) ∧ PolyClaim mult cl ∧
      ((∀ sp ∈ tp.lookup.sumcheckProofs, GoodPoint sp) → netVerifyTable e t tp s = some { s with ts := ts', witnessClaims := s.witnessClaims ++ [(e.commit mult, cl)] } ∧
        (NoPole e.p e.bl e.contents c csc t → (∀ x ∈ (fractionalOutputs tp.lookup.circuitOutputs).getD [], x.2 ≠ 0) ∧
          fracSum ((fractionalOutputs tp.lookup.circuitOutputs).getD []) = invSum e.p c csc (rowsOf lookups t))) := by
  obtain ⟨R, hv, hpR, hok, hlen, hnd, hw, hinj, hclaim, hnc⟩ := netTable_spec e.p e.bl hbl hbl' hp e.contents t ht
  obtain ⟨mult, hmult⟩ : ∃ mult : List F, mult = multiplicities (mergedColumn e.contents e.bl t) ((rowsOf lookups t).map mergeRow) := ⟨_, rfl⟩
  have hml : mult.length = 2 ^ (R + 1) := by rw [hmult]; simp [multiplicities, mergedColumn, hlen]
  have hcl : ∀ col ∈ (tableColumns e.p e.contents e.bl t : List (List F)), col.length = 2 ^ (R + 1) := by
    intro col hcol
    simp only [tableColumns, List.mem_map] at hcol
    obtain ⟨j, -, rfl⟩ := hcol
    simp [hlen]
  have hne : (tableColumns e.p e.contents e.bl t : List (List F)) ≠ [] := by
    intro h
    have := congrArg List.length h
    simp [tableColumns] at this
    omega
  obtain ⟨input, proof, ts', q, h1, h2, -, h3, -, h4, h5⟩ := C92_table T e.threads hthreads (fun k h h' => hchar k h (by omega)) s.ts c csc R _ mult hne hcl hml
  refine ⟨⟨e.commit mult, proof⟩, ts', mult, trueClaim q mult, ?_, ⟨by rw [hml, trueClaim, h3], rfl⟩, ?_⟩
  · unfold netProveTable
    simp only [hclaim, Bool.false_eq_true, if_false, ← hmult, hc, h1, h2, h4, Option.bind_eq_bind, Option.bind_some, List.map_cons, List.getElem?_cons_zero]
  · intro hg
    obtain ⟨N, D, h6, h7⟩ := h5 fun sp hsp y hy k hk => hg sp hsp y hy k (by omega)
    obtain ⟨cs, h8, h9⟩ := C23_closed_forms e.p e.contents e.bl hbl t hok (R + 1) hv hpR q h3
    have hcom : (committedColumn e.p e.contents e.bl t : Option (List F)) = none := by
      rcases ht with rfl | rfl | ⟨size, rfl, -⟩ <;> rfl
    simp only [hcom, Option.toList_none, List.map_nil, List.append_nil] at h9
    constructor
    · unfold netVerifyTable
      simp only [hclaim, Bool.false_eq_true, if_false, hc, h6, Option.bind_eq_bind, Option.bind_some, List.map_cons, List.getElem?_cons_zero]
      have hev : verifyTableClaims e.p e.bl t (trueClaim q mult).point ((trueClaim q mult).eval :: ((tableColumns e.p e.contents e.bl t).map (trueClaim q)).map Claim.eval)
          = some ((trueClaim q mult).eval, none) := by
        unfold verifyTableClaims
        simp only [hclaim, Bool.false_eq_true, if_false, trueClaim, h8, List.map_map]
        rw [if_pos]
        have : (Claim.eval ∘ trueClaim q : List F → F) = fun col => mle col q := rfl
        refine ⟨by rw [h9]; simp, ?_⟩
        rw [h9]
        change (((tableColumns e.p e.contents e.bl t).map fun col => mle col q).zip ((tableColumns e.p e.contents e.bl t).map fun col => mle col q)).all _ = true
        generalize (tableColumns e.p e.contents e.bl t).map (fun col => mle col q) = l
        rw [List.all_eq_true]
        intro x hx
        rw [show l.zip l = l.map fun y => (y, y) from by clear hx; induction l <;> simp_all, List.mem_map] at hx
        obtain ⟨y, -, rfl⟩ := hx
        simp
      simp only [hev, Option.bind_some]
    · intro hnp
      rw [verifyLogup_fractions proof 1 c csc s.ts ts' _ _ h6]
      rw [tableColumns_intCols, tableFractions_rows e.p (R + 1) _ c csc _ mult hlen hw] at h7
      obtain ⟨h10, h11⟩ := h7 (by
        intro x hx
        obtain ⟨r, hr, hx2⟩ := List.mem_map.1 (List.of_mem_zip hx).2
        rw [← hx2]
        exact hnp r hr)
      refine ⟨by simpa using h10, ?_⟩
      rw [hmult, mergedColumn, fracSum_table e.p c csc mergeRow _ _ hsub hinj hnd] at h11
      rw [← h11]
      simp [fracSum]

/-- The proofs of all tables. -/
theorem netTables_step (e : NetEnv F C CP T) [CharP F e.p] (hthreads : 0 < e.threads) (hchar : ∀ k : ℕ, 0 < k → k ≤ 5 → (k : F) ≠ 0) (hbl : 1 ≤ e.bl) (hbl' : e.bl ≤ 16)
    (hp : 2 ^ e.bl ≤ e.p) (lookups : List (TableType × List (List ℤ))) (c : F) (ch : List (TableType × F)) (Inv : NetState T.State F C → Prop)
    (hInv : ∀ s, Inv s → s.constant = c ∧ s.challenges = ch)
    (hadd : ∀ s ts' mult cl, Inv s → PolyClaim mult cl → Inv { s with ts := ts', witnessClaims := s.witnessClaims ++ [(e.commit mult, cl)] })
    (tables : List TableType) (htab : ∀ t ∈ tables, NetTable e.p t ∧ (∀ r ∈ rowsOf lookups t, r ∈ tableRows e.contents e.bl t) ∧ (mapGet t ch).isSome) :
    ∀ s, Inv s → ∃ tps s', netProveTables e lookups tables s = some (tps, s') ∧ Inv s' ∧
      ((∀ tp ∈ tps, ∀ sp ∈ tp.lookup.sumcheckProofs, GoodPoint sp) →
        (tps.zip tables).foldlM (fun s x => netVerifyTable e x.2 x.1 s) s = some s' ∧
        ((∀ t ∈ tables, NoPole e.p e.bl e.contents c ((mapGet t ch).getD 0) t) →
          (∀ x ∈ tps.flatMap fun tp => (fractionalOutputs tp.lookup.circuitOutputs).getD [], x.2 ≠ 0) ∧
          fracSum (tps.flatMap fun tp => (fractionalOutputs tp.lookup.circuitOutputs).getD []) = (tables.map fun t => invSum e.p c ((mapGet t ch).getD 0) (rowsOf lookups t)).sum)) := by
  induction tables with
  | nil => intro s hI; exact ⟨[], s, rfl, hI, fun _ => ⟨rfl, fun _ => by simp [fracSum]⟩⟩
  | cons t tables ih =>
    intro s hI
    obtain ⟨ht, hsub, hget⟩ := htab t (by simp)
    obtain ⟨csc, hcsc⟩ := Option.isSome_iff_exists.1 hget
    obtain ⟨hc1, hc2⟩ := hInv s hI
    obtain ⟨tp, ts', mult, cl, h1, h2, h3⟩ := netTable_step e hthreads hchar hbl hbl' hp lookups t ht hsub s c csc (by simp [NetState.challenge, hc1, hc2, hcsc])
    obtain ⟨tps, s', h4, h5, h6⟩ := ih (fun t' ht' => htab t' (by simp [ht'])) _ (hadd s ts' mult cl hI h2)
    refine ⟨tp :: tps, s', ?_, h5, ?_⟩
    · simp only [netProveTables, h1, h4, Option.bind_eq_bind, Option.bind_some]
    · intro hg
      obtain ⟨h7, h8⟩ := h3 (hg tp (by simp))
      obtain ⟨h9, h10⟩ := h6 fun tp' h => hg tp' (by simp [h])
      refine ⟨?_, ?_⟩
      · simp only [List.zip_cons_cons, List.foldlM_cons, Option.bind_eq_bind, h7, Option.bind_some, h9]
      · intro hnp
        have hn1 := hnp t (by simp)
        rw [hcsc, Option.getD_some] at hn1
        obtain ⟨h11, h12⟩ := h8 hn1
        obtain ⟨h13, h14⟩ := h10 fun t' h => hnp t' (by simp [h])
        refine ⟨?_, ?_⟩
        · intro x hx
          rw [List.flatMap_cons, List.mem_append] at hx
          exact hx.elim (h11 x) (h13 x)
        · rw [List.flatMap_cons, fracSum_append, h12, h14, List.map_cons, List.sum_cons, hcsc, Option.getD_some]

end

end Lemmas
