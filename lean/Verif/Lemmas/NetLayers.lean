import Verif.Lemmas.NetTables
import Verif.Lemmas.WholeProofIf
import Verif.Lemmas.LayerPad
import Verif.Props.Layers
import Verif.Props.LookupProvers
import Verif.Props.Quant

/-!
The layers of a feed-forward network: prover and verifier stay in step, and the fractions of the proof of a layer are those of the rows it looks up.
-/

namespace Lemmas

open Model Spec Props

section
variable {F C CP : Type} [Field F] [DecidableEq F] {T : Transcript F}

/-- The sum of the inverse fingerprints of lookups in several tables. -/
def lookSum (p : ℕ) (c : F) (ch : List (TableType × F)) (lk : List (TableType × List (List ℤ))) : F := (lk.map fun x => invSum p c ((mapGet x.1 ch).getD 0) x.2).sum

/-- What is true of the prover's state all the time. -/
def NetInv (e : NetEnv F C CP T) (g : Graph NetLayer) (c : F) (ch : List (TableType × F)) (s : NetState T.State F C) : Prop :=
  s.constant = c ∧ s.challenges = ch ∧ (∀ x ∈ s.modelClaims, ∃ f, ModelPoly e.p g x.1 x.2.1 f ∧ PolyClaim f x.2.2) ∧ ∀ x ∈ s.witnessClaims, ∃ f, x.1 = e.commit f ∧ PolyClaim f x.2

/-- What is known of the fractions of a good proof. -/
def NetFacts (e : NetEnv F C CP T) (c : F) (ch : List (TableType × F)) (lk : List (TableType × List (List ℤ))) (proof : NetProof F C) : Prop :=
  (∀ x ∈ lk, NoPole e.p e.bl e.contents c ((mapGet x.1 ch).getD 0) x.1) → (∀ x ∈ netLookupData proof, x.2 ≠ 0) ∧ fracSum (netLookupData proof) = -lookSum e.p c ch lk

def NetGood (proof : NetProof F C) : Prop := ∀ sp ∈ layerSumchecks proof, GoodPoint sp

omit [DecidableEq F] in
theorem map_toField_eq_cast (p : ℕ) [CharP F p] (l : List ℤ) (h : ∀ v ∈ l, v.natAbs ≤ p) : l.map (toField p) = l.map fun x : ℤ => (x : F) :=
  List.map_congr_left fun v hv => toField_eq_cast p v (h v hv)

omit [DecidableEq F] in
theorem getD_cast_list (l : List ℤ) (i : ℕ) : (l.map fun x : ℤ => (x : F)).getD i 0 = ((l.getD i 0 : ℤ) : F) := by
  simp only [List.getD_eq_getElem?_getD, List.getElem?_map]
  cases l[i]? <;> simp

/-! ### Dense layers -/

omit [DecidableEq F] in
theorem dense_values (p : ℕ) [CharP F p] (m n : ℕ) (W b : List ℤ) (x y : Tensor ℤ) (hW : W.length = 2 ^ (n + m)) (hb : b.length = 2 ^ m) (hx : x.data.length = 2 ^ n)
    (hs : x.shape.length = 1 → x.shape = [2 ^ n]) (hWp : ∀ v ∈ W, v.natAbs ≤ p) (hbp : ∀ v ∈ b, v.natAbs ≤ p) (hxp : ∀ v ∈ x.data, v.natAbs ≤ p) (hyp : ∀ v ∈ y.data, v.natAbs ≤ p)
    (hev : (DenseLayer.mk ⟨[2 ^ m, 2 ^ n], W⟩ ⟨[2 ^ m], b⟩ [2 ^ m, 2 ^ n]).evaluate x = some y) :
    y.data.length = 2 ^ m ∧ denseOut m n (W.map (toField p)) (x.data.map (toField p)) (b.map (toField p)) = (y.data.map (toField p) : List F) := by
  obtain ⟨z, h1, h2, h3⟩ := denseEval_spec (2 ^ m) (2 ^ n) (by positivity) W b x.data [2 ^ m, 2 ^ n] x.shape (by rw [hW, pow_add]; ring) hb hx hs
  rw [h1, Option.some.injEq] at hev
  subst hev
  refine ⟨h2, ?_⟩
  rw [map_toField_eq_cast p W hWp, map_toField_eq_cast p b hbp, map_toField_eq_cast p x.data hxp, map_toField_eq_cast p _ hyp]
  apply List.ext_getElem
  · simp [denseOut, h2]
  · intro i i1 i2
    have hi : i < 2 ^ m := by simpa [denseOut] using i1
    simp only [denseOut, List.getElem_map, List.getElem_range, getD_cast_list]
    have := h3 i hi
    rw [List.getD_eq_getElem _ _ (by omega)] at this
    rw [this]
    push_cast
    rfl

theorem net_dense (e : NetEnv F C CP T) [CharP F e.p] (hthreads : 0 < e.threads) (hchar : ∀ k : ℕ, 0 < k → k ≤ 5 → (k : F) ≠ 0) (sh : List (List ℕ × List ℕ)) (g : Graph NetLayer) (c : F)
    (ch : List (TableType × F)) (trace : ℕ → List (Tensor ℤ) × List (Tensor ℤ)) (a : ℕ) (nd : Node NetLayer) (hnd : (a, nd) ∈ g) (id m n : ℕ) (W b : List ℤ) (hop : nd.op = .dense id m n W b)
    (x y : Tensor ℤ) (hfit : NetFits e.adicity e.p e.bl a (.dense id m n W b) [x]) (hev : netEval e.convOp e.bl (.dense id m n W b) [x] = some [y])
    (hxp : ∀ v ∈ x.data, v.natAbs ≤ e.p) (hyp : ∀ v ∈ y.data, v.natAbs ≤ e.p) :
    InStepIf (NetInv e g c ch) NetGood (NetFacts e c ch []) (netProve e trace (.dense id m n W b) a [x.toFields e.p]) (fun p claims s => netVerify e (.dense id m n W b) p claims sh s)
      [x.toFields e.p] [y.toFields e.p] := by
  obtain ⟨rfl, hW, hb, hx, hs, hWp, hbp⟩ := hfit
  simp only [netEval, Option.map_eq_some_iff, List.cons.injEq, and_true] at hev
  obtain ⟨y', hev, rfl⟩ := hev
  obtain ⟨hyl, hval⟩ := dense_values (F := F) e.p m n W b x y' hW hb hx hs hWp hbp hxp hyp hev
  intro claims s hI hholds
  match claims, hholds with
  | [last], .cons hh .nil =>
    obtain ⟨hh1, hh2⟩ := hh
    simp only [Tensor.toFields, List.length_map] at hh1 hh2
    have hr : last.point.length = m := by
      rw [hyl] at hh1
      exact (Nat.pow_right_injective (le_refl 2) hh1).symm
    obtain ⟨proof, pt, ts', h1, hpt, hptl, h2⟩ := C35_dense_complete T e.threads hthreads (fun k h h' => hchar k h (by omega)) m n (W.map (toField e.p)) (b.map (toField e.p)) (x.data.map (toField e.p))
      (by simpa using hW) (by simpa using hb) (by simpa using hx) last.point hr s.ts
    rw [hval, hh2] at h1 h2
    refine ⟨[⟨pt, mle (x.data.map (toField e.p)) pt⟩], .dense proof, { s with ts := ts', modelClaims := s.modelClaims ++ [(id, "DenseWeight", ⟨pt ++ last.point, mle (W.map (toField e.p)) (pt ++ last.point)⟩), (id, "DenseBias", ⟨last.point, mle (b.map (toField e.p)) last.point⟩)] }, ?_, ?_, ?_, ?_⟩
    · simp only [netProve, Tensor.toFields, h1, Option.bind_eq_bind, Option.bind_some]
      rfl
    · obtain ⟨i1, i2, i3, i4⟩ := hI
      refine ⟨i1, i2, ?_, i4⟩
      intro z hz
      rw [List.mem_append] at hz
      rcases hz with hz | hz
      · exact i3 z hz
      · simp only [List.mem_cons, List.not_mem_nil, or_false] at hz
        rcases hz with rfl | rfl
        · exact ⟨_, Or.inr ⟨nd, _, _, _, _, _, hnd, hop, Or.inl ⟨rfl, rfl⟩⟩, by simp [hW, hptl, hr], rfl⟩
        · exact ⟨_, Or.inr ⟨nd, _, _, _, _, _, hnd, hop, Or.inr ⟨rfl, rfl⟩⟩, by simp [hb, hr], rfl⟩
    · intro j t hj
      match j, hj with
      | 0, hj =>
        simp only [List.getElem?_cons_zero, Option.some.injEq] at hj
        subst hj
        exact ⟨_, rfl, by simp [Tensor.toFields, hx, hptl], rfl⟩
      | j + 1, hj => simp at hj
    · intro hg
      refine ⟨fun _ => ⟨by simp [netLookupData], by simp [netLookupData, fracSum, lookSum]⟩, ?_⟩
      have := h2 fun y hy k hk => hg proof.sumcheck (by simp [layerSumchecks]) y (by rw [← hpt]; exact hy) k (by omega)
      simp only [netVerify, this, Option.bind_eq_bind, Option.bind_some]
      rfl

/-! ### Layers with lookups -/

theorem netInv_witness (e : NetEnv F C CP T) (g : Graph NetLayer) (c : F) (ch : List (TableType × F)) (s : NetState T.State F C) (h : NetInv e g c ch s) (ts' : T.State)
    (wit : List (C × Claim F)) (hw : ∀ x ∈ wit, ∃ f, x.1 = e.commit f ∧ PolyClaim f x.2) : NetInv e g c ch { s with ts := ts', witnessClaims := s.witnessClaims ++ wit } := by
  obtain ⟨i1, i2, i3, i4⟩ := h
  exact ⟨i1, i2, i3, fun x hx => (List.mem_append.1 hx).elim (i4 x) (hw x)⟩

omit [DecidableEq F] in
theorem wit_claims (commit : List F → C) (q : List F) (cols : List (List F)) (h : ∀ f ∈ cols, f.length = 2 ^ q.length) :
    ∀ x ∈ (cols.map commit).zip (cols.map (trueClaim q)), ∃ f, x.1 = commit f ∧ PolyClaim f x.2 := by
  intro x hx
  rw [List.zip_map', List.mem_map] at hx
  obtain ⟨f, hf, rfl⟩ := hx
  exact ⟨f, rfl, h f hf, rfl⟩

omit [DecidableEq F] in
theorem two_cols (p : ℕ) (x y : List ℤ) (h : x.length = y.length) :
    ([x.map (toField p), y.map (toField p)] : List (List F)) = intCols (toField p) 2 (List.zipWith (fun a b => [a, b]) x y) := by
  simp only [intCols, List.range_succ, List.range_zero, List.nil_append, List.map_append, List.map_cons, List.map_nil, List.singleton_append, List.map_zipWith]
  simp only [List.getD_cons_zero, List.getD_cons_succ, List.cons_append, List.nil_append]
  congr 1
  · apply List.ext_getElem
    · simp [h]
    · intro i i1 i2; simp
  · congr 1
    apply List.ext_getElem
    · simp [h]
    · intro i i1 i2; simp

/-- One group of rows that are all in the table. -/
theorem one_group (p bl n w : ℕ) (env : TableType → ℤ → ℤ) (c csc : F) (t : TableType) (rows : List (List ℤ)) (hl : rows.length = 2 ^ n) (hw : ∀ r ∈ rows, r.length = w)
    (hin : ∀ r ∈ rows, r ∈ tableRows env bl t) (hnp : NoPole p bl env c csc t) (num den : F)
    (h : (∀ x ∈ lookupFractions n (intCols (toField p) w rows) c csc, x.2 ≠ 0) → den ≠ 0 ∧ num / den = fracSum (lookupFractions n (intCols (toField p) w rows) c csc)) :
    den ≠ 0 ∧ num / den = -invSum p c csc rows := by
  rw [lookupFractions_rows p n w c csc rows hl hw, fracSum_lookup] at h
  apply h
  intro x hx
  obtain ⟨r, hr, rfl⟩ := List.mem_map.1 hx
  exact hnp r (hin r hr)

theorem net_relu (e : NetEnv F C CP T) (hthreads : 0 < e.threads) (hchar : ∀ k : ℕ, 0 < k → k ≤ 5 → (k : F) ≠ 0) (sh : List (List ℕ × List ℕ)) (g : Graph NetLayer) (c : F)
    (ch : List (TableType × F)) (trace : ℕ → List (Tensor ℤ) × List (Tensor ℤ)) (a n : ℕ) (x y : Tensor ℤ) (htr : trace a = ([x], [y])) (hfit : NetFits e.adicity e.p e.bl a (.relu n) [x])
    (hev : netEval e.convOp e.bl (.relu n) [x] = some [y]) (csc : F) (hcsc : mapGet .relu ch = some csc) (lk : List (TableType × List (List ℤ))) (hlk : nodeLookups e.bl (.relu n) [x] [y] = some lk)
    (hin : ∀ z ∈ lk, ∀ r ∈ z.2, r ∈ tableRows e.contents e.bl z.1) :
    InStepIf (NetInv e g c ch) NetGood (NetFacts e c ch lk) (netProve e trace (.relu n) a [x.toFields e.p]) (fun p claims s => netVerify e (.relu n) p claims sh s)
      [x.toFields e.p] [y.toFields e.p] := by
  obtain ⟨hn, hx, hv⟩ := hfit
  obtain ⟨R, rfl⟩ : ∃ R, n = R + 2 := ⟨n - 2, by omega⟩
  simp only [netEval, Option.some.injEq, List.cons.injEq, and_true] at hev
  have hyl : y.data.length = 2 ^ (R + 2) := by rw [← hev]; simp [reluOp, hx]
  simp only [nodeLookups, Option.some.injEq] at hlk
  intro claims s hI hholds
  match claims, hholds with
  | [last], .cons hh .nil =>
    obtain ⟨hh1, hh2⟩ := hh
    simp only [Tensor.toFields, List.length_map] at hh1 hh2
    have hr : last.point.length = R + 2 := by
      rw [hyl] at hh1
      exact (Nat.pow_right_injective (le_refl 2) hh1).symm
    have hchal : s.challenge .relu = some (c, csc) := by simp [NetState.challenge, hI.1, hI.2.1, hcsc]
    have hwit : (activationWitness e.p none x.data y.data : Option (List F × List F)) = some (x.data.map (toField e.p), y.data.map (toField e.p)) :=
      activationWitness_eq e.p none x.data x.data y.data (by omega) (by
        have : ∀ l : List ℤ, l.mapM (activationInput none) = some l := by
          intro l
          induction l with
          | nil => rfl
          | cons v l ih => simp [List.mapM_cons, activationInput, ih]
        exact this _)
    obtain ⟨proof, q, q', ts', h1, h2, h3, h4⟩ := C93_relu T e.threads hthreads (fun k h h' => hchar k h (by omega)) e.p
      ([x.data.map (toField e.p), y.data.map (toField e.p)].map e.commit) (by simp) R last x.data y.data hx hyl hr hh2.symm c csc s.ts
    refine ⟨[trueClaim q (x.data.map (toField e.p))], .activation proof, { s with ts := ts', witnessClaims := s.witnessClaims ++ ([x.data.map (toField e.p), y.data.map (toField e.p)].map e.commit).zip [trueClaim q (x.data.map (toField e.p)), trueClaim q' (y.data.map (toField e.p))] }, ?_, ?_, ?_, ?_⟩
    · simp only [netProve, htr, hchal, hwit, h1, Option.bind_eq_bind, Option.bind_some]
    · apply netInv_witness _ _ _ _ _ hI
      intro z hz
      simp only [List.map_cons, List.map_nil, List.zip_cons_cons, List.zip_nil_right, List.mem_cons, List.not_mem_nil, or_false] at hz
      rcases hz with rfl | rfl
      · exact ⟨_, rfl, by simp [hx, trueClaim, h2], rfl⟩
      · exact ⟨_, rfl, by simp [hyl, trueClaim, h3], rfl⟩
    · intro j t hj
      match j, hj with
      | 0, hj =>
        simp only [List.getElem?_cons_zero, Option.some.injEq] at hj
        subst hj
        exact ⟨_, rfl, by simp [Tensor.toFields, hx, trueClaim, h2], rfl⟩
      | j + 1, hj => simp at hj
    · intro hg
      obtain ⟨h5, claims, num, den, ts1, h6, h7⟩ := h4 fun sp hsp y hy k hk => hg sp (by simpa [layerSumchecks] using hsp) y hy k (by omega)
      refine ⟨?_, ?_⟩
      · intro hnp
        subst hlk
        have hnp' := hnp _ (List.mem_singleton.2 rfl)
        simp only [hcsc, Option.getD_some] at hnp'
        rw [two_cols e.p x.data y.data (by omega)] at h7
        obtain ⟨h8, h9⟩ := one_group e.p e.bl (R + 2) 2 e.contents c csc .relu _ (by simp [hx, hyl]) (by
          intro r hr
          rw [← List.map_uncurry_zip_eq_zipWith, List.mem_map] at hr
          obtain ⟨z, -, rfl⟩ := hr
          rfl) (hin _ (List.mem_singleton.2 rfl)) hnp' num den h7
        simp only [netLookupData, verifyLogup_fractions proof.lookup 1 c csc s.ts ts1 _ _ h6]
        refine ⟨by simpa using h8, ?_⟩
        simp [fracSum, h9, lookSum, hcsc]
      · simp only [netVerify, hchal, h5, Option.bind_eq_bind, Option.bind_some]

theorem net_requant (e : NetEnv F C CP T) [CharP F e.p] (hthreads : 0 < e.threads) (hchar : ∀ k : ℕ, 0 < k → k ≤ 5 → (k : F) ≠ 0) (hbl : 1 ≤ e.bl) (hp : 2 ^ e.bl ≤ e.p)
    (sh : List (List ℕ × List ℕ)) (g : Graph NetLayer) (c : F) (ch : List (TableType × F)) (trace : ℕ → List (Tensor ℤ) × List (Tensor ℤ)) (a : ℕ) (r : Requant) (x y : Tensor ℤ) (htr : trace a = ([x], [y]))
    (hfit : NetFits e.adicity e.p e.bl a (.requant r) [x]) (hev : netEval e.convOp e.bl (.requant r) [x] = some [y]) (hxp : ∀ v ∈ x.data, v.natAbs ≤ e.p)
    (size : ℕ) (hsize : r.clampingSize = some size) (csc : F) (hcsc : mapGet (.clamping size) ch = some csc) (hone : mapGet .range ch = some 1)
    (lk : List (TableType × List (List ℤ))) (hlk : nodeLookups e.bl (.requant r) [x] [y] = some lk) (hin : ∀ z ∈ lk, ∀ r ∈ z.2, r ∈ tableRows e.contents e.bl z.1) :
    InStepIf (NetInv e g c ch) NetGood (NetFacts e c ch lk) (netProve e trace (.requant r) a [x.toFields e.p]) (fun p claims s => netVerify e (.requant r) p claims sh s)
      [x.toFields e.p] [y.toFields e.p] := by
  obtain ⟨⟨n, hn, hx⟩, hs, hdvd, hf0, hfp, size', hsize', hz1, hz31, hzp, hv⟩ := hfit
  rw [hsize, Option.some.injEq] at hsize'
  subst hsize'
  obtain ⟨R, rfl⟩ : ∃ R, n = R + 2 := ⟨n - 2, by omega⟩
  simp only [netEval, Option.map_eq_some_iff, List.cons.injEq, and_true] at hev
  obtain ⟨output, hev, rfl⟩ := hev
  simp only [nodeLookups, hsize, Option.bind_eq_bind, Option.bind_some, Option.some.injEq] at hlk
  have hinv : (r.fpm : F) ≠ 0 := by
    rw [show r.fpm = ((r.fpm.toNat : ℕ) : ℤ) by omega, Int.cast_natCast]
    intro h0
    rw [CharP.cast_eq_zero_iff F e.p] at h0
    have := Nat.le_of_dvd (by omega) h0
    omega
  have hw1 : ∀ v, (r.witness e.bl v).1 = (v * r.fpm + 2 ^ (r.shift - 1)) / 2 ^ r.shift := by
    intro v
    simp only [Requant.witness, Int.shiftRight_eq_div_pow]
    push_cast
    rfl
  have hsmall : ∀ v ∈ x.data, (r.witness e.bl v).1.natAbs ≤ e.p := by
    intro v hv'
    obtain ⟨h1, h2⟩ := hv v hv'
    rw [hw1]
    have h3 : (2 : ℤ) ^ (size - 1) ≤ 2 ^ size := pow_le_pow_right₀ (by norm_num) (by omega)
    have h4 : (2 : ℤ) ^ size ≤ e.p := by exact_mod_cast hzp
    omega
  have hyl : output.length = 2 ^ (R + 2) := by rw [mapM_length _ _ _ hev, hx]
  intro claims s hI hholds
  match claims, hholds with
  | [last], .cons hh .nil =>
    obtain ⟨hh1, hh2⟩ := hh
    simp only [Tensor.toFields, List.length_map] at hh1 hh2
    have hr : last.point.length = R + 2 := by
      rw [hyl] at hh1
      exact (Nat.pow_right_injective (le_refl 2) hh1).symm
    have hchal : s.challenge (.clamping size) = some (c, csc) := by simp [NetState.challenge, hI.1, hI.2.1, hcsc]
    obtain ⟨cin, cout, chunks, hcols⟩ : ∃ cin cout chunks, (requantColumns e.p e.bl r x.data : List F × List F × List (List F)) = (cin, cout, chunks) := ⟨_, _, _, rfl⟩
    have hlens : ∀ f ∈ cin :: cout :: chunks, f.length = 2 ^ (R + 2) := by
      simp only [requantColumns, Prod.mk.injEq] at hcols
      obtain ⟨rfl, rfl, rfl⟩ := hcols
      intro f hf
      simp only [List.mem_cons, List.mem_map] at hf
      rcases hf with rfl | rfl | ⟨j, -, rfl⟩ <;> simp [hx]
    have hcl : chunks.length = r.shift / e.bl := by
      simp only [requantColumns, Prod.mk.injEq] at hcols
      obtain ⟨-, -, rfl⟩ := hcols
      simp
    obtain ⟨proof, q, ts', h1, h2, h3, h4⟩ := C94_requant T e.threads hthreads (fun k h h' => hchar k h (by omega)) e.p e.bl hbl r hs hdvd (by omega) hinv hp
      ((cin :: cout :: chunks).map e.commit) (by simp [hcl]; omega) R last x.data output hx hev hsmall hr hh2.symm c csc s.ts cin cout chunks hcols
    rw [← map_toField_eq_cast e.p x.data hxp] at h1 h4
    refine ⟨[trueClaim q (x.data.map (toField e.p))], .requant proof, { s with ts := ts', witnessClaims := s.witnessClaims ++ ((cin :: cout :: chunks).map e.commit).zip ((cin :: cout :: chunks).map (trueClaim q)) }, ?_, ?_, ?_, ?_⟩
    · simp only [netProve, htr, hsize, hchal, hcols, h1, Option.bind_eq_bind, Option.bind_some]
    · exact netInv_witness _ _ _ _ _ hI _ _ (wit_claims _ _ _ (by rw [h2]; exact hlens))
    · intro j t hj
      match j, hj with
      | 0, hj =>
        simp only [List.getElem?_cons_zero, Option.some.injEq] at hj
        subst hj
        exact ⟨_, rfl, by simp [Tensor.toFields, hx, trueClaim, h2], rfl⟩
      | j + 1, hj => simp at hj
    · intro hg
      obtain ⟨h5, claims, num, den, claims', frac, ts1, ts2, h6, h7, h8, h9, h10⟩ := h4 fun sp hsp y hy k hk => hg sp (by simpa [layerSumchecks] using hsp) y hy k (by omega)
      refine ⟨?_, ?_⟩
      · intro hnp
        subst hlk
        have hnp1 := hnp _ (List.mem_cons_self)
        have hnp2 := hnp _ (List.mem_cons_of_mem _ (List.mem_singleton.2 rfl))
        have hin1 := hin _ (List.mem_cons_self)
        have hin2 := hin _ (List.mem_cons_of_mem _ (List.mem_singleton.2 rfl))
        simp only [hone, hcsc, Option.getD_some] at hnp1 hnp2
        simp only at hin1 hin2
        simp only [netLookupData, verifyLogup_fractions proof.clampingLookup 1 c csc s.ts ts1 _ _ h6, verifyLogup_fractions proof.shiftedLookup _ c 1 ts1 ts2 _ _ h7]
        simp only [requantColumns, Prod.mk.injEq] at hcols
        obtain ⟨e1, e2, e3⟩ := hcols
        have hcc : [cin, cout] = intCols (toField e.p) 2 ((x.data.map (r.witness e.bl)).map fun v => [v.1, v.2.1]) := by
          simp [intCols, List.range_succ, ← e1, ← e2]
        rw [hcc] at h8
        obtain ⟨h11, h12⟩ := one_group e.p e.bl (R + 2) 2 e.contents c csc _ _ (by simp [hx]) (by
          intro r hr
          rw [List.mem_map] at hr
          obtain ⟨z, -, rfl⟩ := hr
          rfl) hin2 hnp2 num den h8
        have hgr := frac_groups e.p c 1 frac ((List.range (r.shift / e.bl)).map fun j => (x.data.map (r.witness e.bl)).map fun v => [v.2.2.getD j 0]) (by
          rw [List.forall₂_iff_get]
          refine ⟨by simp [h9, hcl], ?_⟩
          intro i i1 i2
          have hi : i < r.shift / e.bl := by simpa using i2
          simp only [List.get_eq_getElem, List.getElem_map, List.getElem_range]
          have := h10 i (by omega) i1
          have hcc : [chunks[i]'(by omega)] = intCols (toField e.p) 1 ((x.data.map (r.witness e.bl)).map fun v => [v.2.2.getD i 0]) := by
            simp [intCols, ← e3]
          rw [hcc] at this
          refine one_group e.p e.bl (R + 2) 1 e.contents c 1 .range _ (by simp [hx]) ?_ ?_ hnp1 _ _ this
          · intro r hr
            rw [List.mem_map] at hr
            obtain ⟨z, -, rfl⟩ := hr
            rfl
          · intro r' hr
            exact hin1 r' (List.mem_flatMap.2 ⟨i, List.mem_range.2 hi, hr⟩))
        refine ⟨?_, ?_⟩
        · intro z hz
          rw [List.mem_append] at hz
          rcases hz with hz | hz
          · rw [List.mem_singleton] at hz
            rw [hz]
            exact h11
          · exact hgr.1 z hz
        · rw [fracSum_append, hgr.2]
          simp only [fracSum, List.map_cons, List.map_nil, List.sum_cons, List.sum_nil, h12, lookSum, hone, hcsc, Option.getD_some, List.flatMap]
          ring
      · simp only [netVerify, hsize, hchal, h5, Option.bind_eq_bind, Option.bind_some]

/-- The differences of a pooling layer: those the prover computes, where they are, and as field elements. -/
theorem pooling_diffs (p bl : ℕ) [CharP F p] (hbl : 1 ≤ bl) (hp : 2 ^ bl ≤ p) (a b g n : ℕ) (hn : a + b + g = n) (X : List ℤ) (hX : X.length = [2 ^ a, 2 ^ (b + 1), 2 ^ (g + 1)].prod)
    (hv : ∀ v ∈ X, -(2 ^ (bl - 1)) ≤ v ∧ v < 2 ^ (bl - 1)) (y : Tensor ℤ) (hmax : (⟨[2 ^ a, 2 ^ (b + 1), 2 ^ (g + 1)], X⟩ : Tensor ℤ).maxpool2d 2 2 = some y) :
    ∃ polys, computePolys ⟨[2 ^ a, 2 ^ (b + 1), 2 ^ (g + 1)], X⟩ = some polys ∧ polys.length = 4 ∧ y.data.length = 2 ^ n ∧ (∀ d ∈ polys, d.length = 2 ^ n ∧ ∀ v ∈ d, 0 ≤ v ∧ v < 2 ^ bl) ∧
      (y.data.map (toField p) : List F) = y.data.map (fun x : ℤ => (x : F)) ∧
      polys.map (fun d => (d.map (toField p) : List F)) = [(0, 0), (0, 1), (1, 0), (1, 1)].map fun cr : ℕ × ℕ =>
        List.zipWith (· - ·) (y.data.map fun x : ℤ => (x : F)) (windowEntries n g cr.1 cr.2 (X.map fun x : ℤ => (x : F))) := by
  subst hn
  obtain ⟨out, m1, m2, m3⟩ := maxpool_windows a b g X hX
  rw [hmax, Option.some.injEq] at m1
  subst m1
  have hpos : (0 : ℤ) < 2 ^ (bl - 1) := by positivity
  have hdouble : (2 : ℤ) ^ bl = 2 * 2 ^ (bl - 1) := by
    obtain ⟨k, rfl⟩ : ∃ k, bl = k + 1 := ⟨bl - 1, by omega⟩
    rw [pow_succ, Nat.add_sub_cancel]
    ring
  have hpz : (2 : ℤ) ^ bl ≤ p := by exact_mod_cast hp
  have hgetX : ∀ i, -(2 ^ (bl - 1)) ≤ X.getD i 0 ∧ X.getD i 0 < 2 ^ (bl - 1) := by
    intro i
    rw [List.getD_eq_getElem?_getD]
    cases h : X[i]? with
    | none => simp only [Option.getD_none]; omega
    | some v => exact hv v (List.mem_of_getElem? h)
  have hmem : ∀ w, w < 2 ^ (a + b + g) → ∃ i, out.getD w 0 = X.getD i 0 := by
    intro w hw
    obtain ⟨h, -⟩ := m3 w hw
    simp only [List.mem_cons, List.not_mem_nil, or_false] at h
    rcases h with h | h | h | h <;> exact ⟨_, h⟩
  have hge : ∀ w, w < 2 ^ (a + b + g) → ∀ cr ∈ [((0 : ℕ), (0 : ℕ)), (0, 1), (1, 0), (1, 1)], X.getD (windowIndex g cr.1 cr.2 w) 0 ≤ out.getD w 0 := by
    intro w hw cr hcr
    obtain ⟨-, h⟩ := m3 w hw
    simp only [List.mem_cons, List.not_mem_nil, or_false] at hcr
    rcases hcr with rfl | rfl | rfl | rfl <;> exact h _ (by simp)
  have hocast : ∀ i, (out.map fun x : ℤ => (x : F)).getD i 0 = ((out.getD i 0 : ℤ) : F) := getD_cast_list out
  refine ⟨_, computePolys_spec a b g X hX out hmax m2, by simp, m2, ?_, ?_, ?_⟩
  · intro d hd
    obtain ⟨cr, hcr, rfl⟩ := List.mem_map.1 hd
    refine ⟨by simp, ?_⟩
    intro v hv'
    obtain ⟨w, hw, rfl⟩ := List.mem_map.1 hv'
    have hw' := List.mem_range.1 hw
    have h1 := hge w hw' cr hcr
    obtain ⟨i, hi⟩ := hmem w hw'
    have h2 := hgetX i
    have h3 := hgetX (windowIndex g cr.1 cr.2 w)
    omega
  · apply map_toField_eq_cast
    intro v hv'
    obtain ⟨i, hi, rfl⟩ := List.getElem_of_mem hv'
    simp only at hi
    obtain ⟨j, hj⟩ := hmem i (by omega)
    rw [List.getD_eq_getElem _ _ hi] at hj
    have := hgetX j
    simp only
    omega
  · rw [List.map_map]
    apply List.map_congr_left
    intro cr hcr
    simp only [Function.comp]
    apply List.ext_getElem
    · simp [windowEntries, m2]
    · intro w w1 w2
      have hw : w < 2 ^ (a + b + g) := by simpa using w1
      simp only [List.getElem_map, List.getElem_range, List.getElem_zipWith, windowEntries, getD_cast_list]
      rw [← Int.cast_sub, ← List.getD_eq_getElem out 0 (by omega)]
      obtain ⟨i, hi⟩ := hmem w hw
      have h2 := hgetX i
      have h3 := hgetX (windowIndex g cr.1 cr.2 w)
      exact toField_eq_cast p _ (by omega)

theorem net_pooling (e : NetEnv F C CP T) [CharP F e.p] (hthreads : 0 < e.threads) (hchar : ∀ k : ℕ, 0 < k → k ≤ 5 → (k : F) ≠ 0) (hbl : 1 ≤ e.bl) (hp : 2 ^ e.bl ≤ e.p)
    (sh : List (List ℕ × List ℕ)) (g : Graph NetLayer) (c : F) (ch : List (TableType × F)) (trace : ℕ → List (Tensor ℤ) × List (Tensor ℤ)) (a n : ℕ) (x y : Tensor ℤ) (htr : trace a = ([x], [y]))
    (hfit : NetFits e.adicity e.p e.bl a (.pooling n) [x]) (hev : netEval e.convOp e.bl (.pooling n) [x] = some [y]) (csc : F) (hcsc : mapGet .range ch = some csc)
    (lk : List (TableType × List (List ℤ))) (hlk : nodeLookups e.bl (.pooling n) [x] [y] = some lk) (hin : ∀ z ∈ lk, ∀ r ∈ z.2, r ∈ tableRows e.contents e.bl z.1) :
    InStepIf (NetInv e g c ch) NetGood (NetFacts e c ch lk) (netProve e trace (.pooling n) a [x.toFields e.p]) (fun p claims s => netVerify e (.pooling n) p claims sh s)
      [x.toFields e.p] [y.toFields e.p] := by
  obtain ⟨hn, ⟨a', b', g', habg, hshape⟩, hlen, hv⟩ := hfit
  obtain ⟨R, rfl⟩ : ∃ R, n = R + 2 := ⟨n - 2, by omega⟩
  obtain ⟨sh, X⟩ := x
  simp only at hshape hlen hv
  subst hshape
  simp only [netEval, Option.map_eq_some_iff, List.cons.injEq, and_true] at hev
  obtain ⟨y', hev, rfl⟩ := hev
  obtain ⟨polys, hpolys, hp4, hyl, hd, hyF, hF⟩ := pooling_diffs (F := F) e.p e.bl hbl hp a' b' g' (R + 2) habg X hlen hv y' hev
  simp only [nodeLookups, hpolys, Option.bind_eq_bind, Option.bind_some, Option.some.injEq] at hlk
  have hpos : (0 : ℤ) < 2 ^ (e.bl - 1) := by positivity
  have hdouble : (2 : ℤ) ^ e.bl = 2 * 2 ^ (e.bl - 1) := by
    obtain ⟨k, hk⟩ : ∃ k, e.bl = k + 1 := ⟨e.bl - 1, by omega⟩
    rw [hk, pow_succ, Nat.add_sub_cancel]
    ring
  have hpz : (2 : ℤ) ^ e.bl ≤ e.p := by exact_mod_cast hp
  have hXs : ∀ v ∈ X, 2 * v.natAbs ≤ e.p := by
    intro v hv'
    have := hv v hv'
    omega
  have hX : X.length = 2 ^ (R + 4) := by
    rw [hlen]
    simp only [List.prod_cons, List.prod_nil, mul_one]
    rw [← pow_add, ← pow_add]
    congr 1
    omega
  intro claims s hI hholds
  match claims, hholds with
  | [last], .cons hh .nil =>
    obtain ⟨hh1, hh2⟩ := hh
    simp only [Tensor.toFields, List.length_map] at hh1 hh2
    have hr : last.point.length = R + 2 := by
      rw [hyl] at hh1
      exact (Nat.pow_right_injective (le_refl 2) hh1).symm
    have hchal : s.challenge .range = some (c, csc) := by simp [NetState.challenge, hI.1, hI.2.1, hcsc]
    obtain ⟨diffs, hdiffs⟩ : ∃ diffs : List (List F), diffs = polys.map fun d => d.map (toField e.p) := ⟨_, rfl⟩
    obtain ⟨o, ho⟩ : ∃ o : List F, o = y'.data.map (toField e.p) := ⟨_, rfl⟩
    have hcols : ((polys ++ [y'.data]).map fun d => (d.map (toField e.p) : List F)) = diffs ++ [o] := by simp [hdiffs, ho]
    have hlens : ∀ f ∈ diffs ++ [o], f.length = 2 ^ (R + 2) := by
      intro f hf
      rw [List.mem_append, List.mem_singleton, hdiffs] at hf
      rcases hf with hf | rfl
      · obtain ⟨d, hd', rfl⟩ := List.mem_map.1 hf
        simpa using (hd d hd').1
      · simpa [ho] using hyl
    obtain ⟨proof, point, q, ts', h1, h2, h3, -, h4⟩ := C95_pooling T e.threads hthreads hchar e.p a' b' g' R habg X (by rw [hlen]; simp [mul_assoc]) hXs y' hev
      ((diffs ++ [o]).map e.commit) (by simp [hdiffs, hp4]) last hr hh2.symm c csc s.ts o diffs (by rw [ho, hyF]) (by rw [hdiffs, hF, ho, hyF])
    rw [← map_toField_eq_cast e.p X (fun v hv' => by have := hXs v hv'; omega)] at h1 h4
    refine ⟨[trueClaim point (X.map (toField e.p))], .pooling proof, { s with ts := ts', witnessClaims := s.witnessClaims ++ ((diffs ++ [o]).map e.commit).zip ((diffs ++ [o]).map (trueClaim q)) },
      ?_, ?_, ?_, ?_⟩
    · simp only [netProve, htr, hchal, hpolys, hcols, h1, Option.bind_eq_bind, Option.bind_some]
    · exact netInv_witness _ _ _ _ _ hI _ _ (wit_claims _ _ _ (by rw [h2]; exact hlens))
    · intro j t hj
      match j, hj with
      | 0, hj =>
        simp only [List.getElem?_cons_zero, Option.some.injEq] at hj
        subst hj
        exact ⟨_, rfl, by simp [Tensor.toFields, hX, trueClaim, h3], rfl⟩
      | j + 1, hj => simp at hj
    · intro hg
      obtain ⟨h5, claims, frac, ts1, h6, h7, h8⟩ := h4 fun sp hsp y hy k hk => hg sp (by simpa [layerSumchecks] using hsp) y hy k hk
      refine ⟨?_, ?_⟩
      · intro hnp
        subst hlk
        have hnp' := hnp _ (List.mem_singleton.2 rfl)
        have hin' := hin _ (List.mem_singleton.2 rfl)
        simp only [hcsc, Option.getD_some] at hnp'
        simp only [netLookupData, verifyLogup_fractions proof.lookup 4 c csc s.ts ts1 _ _ h6]
        have hgr := frac_groups e.p c csc frac (polys.map fun d => d.map fun v => [v]) (by
          rw [List.forall₂_iff_get]
          refine ⟨by simp [h7, hp4], ?_⟩
          intro i i1 i2
          have hi : i < polys.length := by simpa using i2
          simp only [List.get_eq_getElem, List.getElem_map]
          have := h8 i (by simpa [hdiffs] using hi) i1
          have hcc : [diffs[i]'(by simpa [hdiffs] using hi)] = intCols (toField e.p) 1 (polys[i].map fun v => [v]) := by
            simp [intCols, hdiffs]
          rw [hcc] at this
          refine one_group e.p e.bl (R + 2) 1 e.contents c csc .range _ (by simpa using (hd _ (List.getElem_mem hi)).1) ?_ ?_ hnp' _ _ this
          · intro r hr
            rw [List.mem_map] at hr
            obtain ⟨z, -, rfl⟩ := hr
            rfl
          · intro r' hr
            exact hin' r' (List.mem_flatMap.2 ⟨_, List.getElem_mem hi, hr⟩))
        refine ⟨hgr.1, ?_⟩
        rw [hgr.2]
        simp only [lookSum, List.map_cons, List.map_nil, List.sum_cons, List.sum_nil, hcsc, Option.getD_some, List.flatMap, add_zero]
      · simp only [netVerify, hchal, h5, Option.bind_eq_bind, Option.bind_some]

/-! ### All layers -/

/-- What a layer looks up is in its tables. -/
theorem nodeLookups_spec (F : Type) [Field F] [DecidableEq F] (convOp : Conv → Tensor ℤ → List ℕ → Option (Tensor ℤ)) (A p bl : ℕ) [CharP F p] (hbl : 1 ≤ bl) (hp : 2 ^ bl ≤ p) (env : TableType → ℤ → ℤ) (id : ℕ) (l : NetLayer) (xs ys : List (Tensor ℤ)) (hfit : NetFits A p bl id l xs)
    (hev : netEval convOp bl l xs = some ys) :
    ∃ lk, nodeLookups bl l xs ys = some lk ∧ (∀ t, t ∈ l.tables ↔ ∃ rows, (t, rows) ∈ lk) ∧ ∀ z ∈ lk, NetTable p z.1 ∧ ∀ r ∈ z.2, r ∈ tableRows env bl z.1 := by
  match l, xs, hfit, hev with
  | .dense _ _ _ _ _, [x], _, hev => exact ⟨[], rfl, by simp [NetLayer.tables], by simp⟩
  | .flatten, _, _, hev => exact ⟨[], rfl, by simp [NetLayer.tables], by simp⟩
  | .conv _ _ _, [x], _, hev => exact ⟨[], rfl, by simp [NetLayer.tables], by simp⟩
  | .relu n, [x], ⟨h1, h2, h3⟩, hev =>
    simp only [netEval, Option.some.injEq] at hev
    subst hev
    refine ⟨_, rfl, by simp [NetLayer.tables], ?_⟩
    intro z hz
    rw [List.mem_singleton] at hz
    subst hz
    refine ⟨Or.inl rfl, ?_⟩
    intro r hr
    simp only [reluOp] at hr
    rw [List.zipWith_map_right, List.zipWith_self, List.mem_map] at hr
    obtain ⟨v, hv, rfl⟩ := hr
    refine (C24_rows env bl _ _).1.2 ⟨(h3 v hv).1, (h3 v hv).2, ?_⟩
    unfold reluApply
    split <;> omega
  | .requant r, [x], ⟨_, hs, hdvd, hf0, hfp, size, hsize, hz1, hz31, hzp, hv⟩, hev =>
    simp only [netEval, Option.map_eq_some_iff] at hev
    obtain ⟨out, hev, rfl⟩ := hev
    refine ⟨_, by simp only [nodeLookups, hsize, Option.bind_eq_bind, Option.bind_some]; rfl, ?_, ?_⟩
    · intro t
      simp only [NetLayer.tables, hsize, List.mem_cons, List.not_mem_nil, or_false, Prod.mk.injEq]
      exact ⟨fun h => h.elim (fun h => ⟨_, Or.inl ⟨h, rfl⟩⟩) fun h => ⟨_, Or.inr ⟨h, rfl⟩⟩, fun ⟨_, h⟩ => h.elim (fun h => Or.inl h.1) fun h => Or.inr h.1⟩
    intro z hz
    simp only [List.mem_cons, List.not_mem_nil, or_false] at hz
    rcases hz with rfl | rfl
    · refine ⟨Or.inr (Or.inl rfl), ?_⟩
      intro r' hr
      simp only [List.mem_flatMap, List.mem_range, List.mem_map] at hr
      obtain ⟨j, hj, v, ⟨u, -, rfl⟩, rfl⟩ := hr
      refine (C24_rows env bl _ 0).2.2.1.2 ?_
      have hpos : (0 : ℤ) < 2 ^ bl := by positivity
      simp only [Requant.witness]
      rw [List.getD_eq_getElem _ _ (by simpa using hj)]
      simp only [List.getElem_map, List.getElem_range]
      exact ⟨Int.emod_nonneg _ (by omega), Int.emod_lt_of_pos _ hpos⟩
    · refine ⟨Or.inr (Or.inr ⟨size, rfl, hz1, hz31, hzp⟩), ?_⟩
      intro r' hr
      simp only [List.mem_map] at hr
      obtain ⟨v, ⟨u, hu, rfl⟩, rfl⟩ := hr
      obtain ⟨b1, b2⟩ := hv u hu
      refine ((C24_rows env bl _ _).2.1 size).2 ?_
      have hw1 : (r.witness bl u).1 = (u * r.fpm + 2 ^ (r.shift - 1)) / 2 ^ r.shift := by
        simp only [Requant.witness, Int.shiftRight_eq_div_pow]
        push_cast
        rfl
      refine ⟨by rw [hw1]; exact b1, by rw [hw1]; exact b2, ?_⟩
      exact clampTo_eq bl _
  | .pooling n, [x], ⟨hn, ⟨a, b, g, habg, hshape⟩, hlen, hv⟩, hev =>
    obtain ⟨sh, X⟩ := x
    simp only at hshape hlen hv
    subst hshape
    simp only [netEval, Option.map_eq_some_iff] at hev
    obtain ⟨y, hev', rfl⟩ := hev
    obtain ⟨polys, hpolys, -, -, hd, -⟩ := pooling_diffs (F := F) p bl hbl hp a b g n habg X hlen hv y hev'
    refine ⟨_, by simp only [nodeLookups, hpolys, Option.bind_eq_bind, Option.bind_some]; rfl, by simp [NetLayer.tables], ?_⟩
    intro z hz
    rw [List.mem_singleton] at hz
    subst hz
    refine ⟨Or.inr (Or.inl rfl), ?_⟩
    intro r hr
    simp only [List.mem_flatMap, List.mem_map] at hr
    obtain ⟨d, hd', v, hv', rfl⟩ := hr
    exact (C24_rows env bl _ 0).2.2.1.2 ((hd d hd').2 v hv')

end

end Lemmas
