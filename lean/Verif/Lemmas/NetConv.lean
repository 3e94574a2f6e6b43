import Verif.Lemmas.NetLayers
import Verif.Lemmas.ConvAssemble

/-!
Convolutions in a feed-forward network: prover and verifier stay in step unless the prover has to divide by zero.
-/

namespace Lemmas

open Model Spec Props

variable {F C CP : Type} [Field F] [DecidableEq F] {T : Transcript F}

omit [DecidableEq F] in
theorem toField_isCast (p : ℕ) (v : ℤ) : ∃ z : ℤ, (toField p v : F) = (z : F) := by
  unfold toField
  split
  · exact ⟨((p - v.natAbs : ℕ) : ℤ), by rw [Int.cast_natCast]⟩
  · exact ⟨(v.toNat : ℤ), by rw [Int.cast_natCast]⟩

theorem net_conv (e : NetEnv F C CP T) [CharP F e.p] (hthreads : 0 < e.threads) (hchar : ∀ k : ℕ, 0 < k → k ≤ 5 → (k : F) ≠ 0) (hF : ConvField e) (g : Graph NetLayer) (c : F)
    (ch : List (TableType × F)) (trace : ℕ → List (Tensor ℤ) × List (Tensor ℤ)) (a : ℕ) (nd : Node NetLayer) (hnd : (a, nd) ∈ g) (id : ℕ) (layer : Conv) (u : List ℕ)
    (hop : nd.op = .conv id layer u) (x y : Tensor ℤ) (htr : trace a = ([x], [y])) (hfit : NetFits e.adicity e.p e.bl a (.conv id layer u) [x])
    (hev : netEval e.convOp e.bl (.conv id layer u) [x] = some [y]) :
    InStepUnless (ConvDivides e trace (.conv id layer u) a) (NetInv e g c ch) NetGood (NetFacts e c ch []) (netProve e trace (.conv id layer u) a [x.toFields e.p])
      (fun p claims s => netVerify e (.conv id layer u) p claims [(u, x.shape)] s) [x.toFields e.p] [y.toFields e.p] := by
  obtain ⟨rfl, i, j, k, m, hm1, hm, hk, hfs, hfo, hfl, hb, hxs, hxl, hbp⟩ := hfit
  simp only [netEval, Option.map_eq_some_iff, List.cons.injEq, and_true] at hev
  obtain ⟨y', hev, rfl⟩ := hev
  obtain ⟨hroot, hE, hE2⟩ := hF
  obtain ⟨w, hw, -⟩ := primitive_of_square e.adicity e.root hroot (2 * m + 1) hm
  have hkm : 2 ^ k ≤ 2 ^ m := Nat.pow_le_pow_right (by omega) (by omega)
  have hT : ∀ f, ∀ v ∈ layer.bias, (toField e.p (e.toE f + v) : F) = ((e.toE f : ℤ) : F) + toField e.p v := by
    intro f v hv
    have h1 := hE2 f
    have h2 := hbp v hv
    rw [toField_eq_cast e.p _ (by omega), toField_eq_cast e.p v (by omega), Int.cast_add]
  have h0 : (toField e.p 0 : F) = 0 := by simp [toField]
  obtain ⟨d, d1, d2, d3, d4, d5⟩ := conv_data (toField e.p) (toField_isCast e.p) e.adicity e.root hroot e.toE hE m hm w hw layer x (2 ^ i) (2 ^ j) (2 ^ k) hxs hxl hfs hfo hfl hkm hb hT
  obtain ⟨og, ho, hcl⟩ := d5 u y' hev
  obtain ⟨hys, t, t1, t2, t3⟩ := clear_data (toField e.p : ℤ → F) h0 (2 ^ i) (2 ^ m) (2 ^ m) d.outputAsElement og y' d3 hcl
  have hyl : y'.data.length = 2 ^ (2 * m + i) := by
    have := congrArg List.length t3
    rw [List.length_map, List.length_zipWith, List.length_map, d3, t2, Nat.min_self] at this
    rw [this, ← pow_add, ← pow_add]
    congr 1; omega
  have hxl' : x.data.length = 2 ^ (2 * m + j) := by
    rw [hxl, ← pow_add, ← pow_add]
    congr 1; omega
  have hctx : layer.verifyCtx = some ⟨2 ^ j, 2 ^ m, 2 ^ k, 2 ^ m * 2 ^ m, layer.unpadded, layer.filter.ogShape⟩ := by
    unfold Conv.verifyCtx
    rw [hfs, hfo]
    rfl
  intro claims s hbad hI hholds
  match claims, hholds with
  | [last], .cons hh .nil =>
    obtain ⟨hh1, hh2⟩ := hh
    simp only [Tensor.toFields, List.length_map] at hh1 hh2
    have hr : last.point.length = 2 * m + i := by
      rw [hyl] at hh1
      exact (Nat.pow_right_injective (le_refl 2) hh1).symm
    obtain ⟨pt, ev⟩ := last
    dsimp only at hh1 hh2 hr
    obtain ⟨proof, fpt, bpt, ts', q1, q2, q3, ipt, q4, q5, q6⟩ := conv_run (toField e.p) T e.threads hthreads (fun k h h' => hchar k h (by omega)) e.adicity e.root hroot m hm1 hm w hw layer x
      i j k hxl hfs hfo hfl hk hb d d2 d3 d4 u og ho t t2 t1 pt hr s.ts
    rw [← t3, hh2] at q1 q6
    rw [← hys] at q1
    have hcp : netConvProof e layer u x y' ⟨pt, ev⟩ s.ts
        = some (proof, ⟨fpt, mle (layer.filter.data.map (toField e.p)) fpt⟩, ⟨bpt, mle (layer.bias.map (toField e.p)) bpt⟩, ts') := bind_step ho (bind_step d1 q1)
    have hin := q5 fun hlast => hbad ⟨_, _, _, x, y', _, _, rfl, htr, rfl, hcp, hlast⟩
    refine ⟨[⟨ipt, mle (x.data.map (toField e.p)) ipt⟩], .conv proof, { s with ts := ts', modelClaims := s.modelClaims ++ [(id, "ConvFilter", ⟨fpt, mle (layer.filter.data.map (toField e.p)) fpt⟩), (id, "ConvBias", ⟨bpt, mle (layer.bias.map (toField e.p)) bpt⟩)] }, ?_, ?_, ?_, ?_⟩
    · simp only [netProve, htr]
      exact bind_step hctx (bind_step hcp (bind_step hin rfl))
    · obtain ⟨i1, i2, i3, i4⟩ := hI
      refine ⟨i1, i2, ?_, i4⟩
      intro z hz
      rw [List.mem_append] at hz
      rcases hz with hz | hz
      · exact i3 z hz
      · simp only [List.mem_cons, List.not_mem_nil, or_false] at hz
        rcases hz with rfl | rfl
        · refine ⟨_, Or.inl ⟨nd, _, _, _, hnd, hop, Or.inl ⟨rfl, rfl⟩⟩, ?_, rfl⟩
          rw [List.length_map, hfl]
          dsimp only
          rw [q2, ← pow_add, ← pow_add, ← pow_add]
          congr 1; omega
        · refine ⟨_, Or.inl ⟨nd, _, _, _, hnd, hop, Or.inr ⟨rfl, rfl⟩⟩, ?_, rfl⟩
          rw [List.length_map, hb]
          dsimp only
          rw [q3]
    · intro n t hn
      match n, hn with
      | 0, hn =>
        simp only [List.getElem?_cons_zero, Option.some.injEq] at hn
        subst hn
        exact ⟨_, rfl, by simp [Tensor.toFields, hxl', q4], rfl⟩
      | n + 1, hn => simp at hn
    · intro hg
      refine ⟨fun _ => ⟨by simp [netLookupData], by simp [netLookupData, fracSum, lookSum]⟩, ?_⟩
      have := q6 fun sp hsp v hv n hn => hg sp hsp v hv n (by omega)
      rw [← hxs] at this
      exact bind_step hctx (bind_step this rfl)

end Lemmas
