import Verif.Lemmas.Sumcheck

namespace Lemmas
open Model Spec Polynomial

variable {F : Type} [Field F] [DecidableEq F]

/-! ### the verifier's checks, round by round -/

/-- The deferred checks in the order of the rounds. -/
def checkRec (D : ℕ) : List (List F) → List F → F → Option F
  | [], _, s => some s
  | _ :: _, [], _ => none
  | m :: ms, c :: cs, s =>
    if m.length = D + 1 ∧ 2 ≤ m.length ∧ m.getD 0 0 + m.getD 1 0 = s then
      (interpolateUniPoly m c).bind fun e => checkRec D ms cs e
    else none

theorem checkSubclaim_eq (D : ℕ) (msgs : List (List F)) (cs : List F) (s : F)
    (h : msgs.length = cs.length) :
    checkSubclaim msgs.length D msgs cs s = (checkRec D msgs cs s).map fun e => ⟨cs, e⟩ := by
  unfold checkSubclaim
  rw [if_neg (by simp)]
  have gen : ∀ (msgs : List (List F)) (cs : List F) (s : F), msgs.length = cs.length → ∀ pt : List F,
      (do
        let exps ← (msgs.zip cs).mapM fun mc =>
          if mc.1.length ≠ D + 1 then none else interpolateUniPoly mc.1 mc.2
        let expected := s :: exps
        let _ ← ((msgs.zip expected).take msgs.length).mapM fun me => do
          let e0 ← me.1[0]?
          let e1 ← me.1[1]?
          if e0 + e1 ≠ me.2 then none else some ()
        let e ← expected[msgs.length]?
        some (⟨pt, e⟩ : SubClaim F)) = (checkRec D msgs cs s).map fun e => ⟨pt, e⟩ := by
    intro msgs
    induction msgs with
    | nil => intro cs s _ pt; simp [checkRec]
    | cons m ms ih =>
      intro cs s h pt
      obtain ⟨c, cs, rfl⟩ : ∃ c cs', cs = c :: cs' := List.exists_cons_of_ne_nil (by
        intro hn; rw [hn] at h; simp at h)
      have ihh := ih cs
      simp only [checkRec, List.zip_cons_cons, List.mapM_cons, List.length_cons, List.take_succ_cons,
        List.getElem?_cons_succ, Option.bind_eq_bind]
      by_cases hl : m.length = D + 1
      swap
      · simp [hl]
      simp only [hl, ne_eq, not_true_eq_false, if_false, true_and]
      cases hi : interpolateUniPoly m c with
      | none => simp
      | some e =>
        simp only [Option.bind_some, Option.bind_assoc, Option.pure_def]
        have ih2 := ihh e (by simpa using h) pt
        simp only [Option.bind_eq_bind] at ih2
        by_cases h2 : 2 ≤ D + 1
        · rw [List.getElem?_eq_getElem (by omega), List.getElem?_eq_getElem (by omega)]
          simp only [Option.bind_some]
          have e0 : m.getD 0 0 = m[0] := by simp [List.getD_eq_getElem?_getD, List.getElem?_eq_getElem (show 0 < m.length by omega)]
          have e1 : m.getD 1 0 = m[1] := by simp [List.getD_eq_getElem?_getD, List.getElem?_eq_getElem (show 1 < m.length by omega)]
          rw [e0, e1]
          by_cases hs : m[0] + m[1] = s
          · simp only [hs, not_true_eq_false, if_false, Option.bind_some, h2, and_self, if_true]
            rw [← ih2]
          · simp [hs]
        · have : m[1]? = none := by rw [List.getElem?_eq_none]; omega
          rw [this]
          simp [h2]
  exact gen msgs cs s h cs

/-! ### honest prover against verifier -/

/-- The tables the next message will be computed from. -/
def effMles (ch : Option F) (ms : List (Mle F)) : List (Mle F) :=
  match ch with
  | none => ms
  | some r => ms.map (bindMle r)

theorem proveRound_eq (ex : Exec) (hex : Exec.ok ex) (t : ℕ) (ht : 0 < t) (st : ProverState F)
    (ch : Option F) (n : ℕ) (hn : st.maxNumVars = n + 1 + st.round)
    (hch : ch = none ↔ st.round = 0) (hlen : st.challenges.length = st.round - 1)
    (htab : ∀ m ∈ st.mles, m.evals.length = 2 ^ m.numVars)
    (hconst : st.round = 1 → ∀ m ∈ st.mles, 0 < m.numVars)
    (hwf : ProverWF st.maxDegree (n + 1) st.products (effMles ch st.mles))
    (hprod : st.products ≠ [])
    (hchar : ∀ k, 0 < k → k ≤ st.maxDegree → (k : F) ≠ 0)
    (haux : ∀ k, k < st.maxDegree - 1 → ∃ w,
      st.aux[k]? = some ((List.range (k + 2)).map (fun i : ℕ => (i : F)), w) ∧
      barycentricWeights (.parallel t) ((List.range (k + 2)).map (fun i : ℕ => (i : F))) = some w) :
    proveRound ex st ch = some
      (roundMsg st.maxDegree n (polyVal st.products (effMles ch st.mles)),
       { st with challenges := st.challenges ++ ch.toList, round := st.round + 1,
                 mles := effMles ch st.mles }) := by
  unfold proveRound
  rw [if_pos (by omega)]
  have hstep : bindChallenge ex st ch
      = some { st with challenges := st.challenges ++ ch.toList, mles := effMles ch st.mles } := by
    unfold bindChallenge
    cases ch with
    | none =>
      have h0 : st.round = 0 := hch.mp rfl
      rw [if_pos h0]
      simp [effMles]
    | some r =>
      have h0 : st.round ≠ 0 := fun h => by simpa using hch.mpr h
      simp only [effMles, h0, if_false]
      rw [mapM_some _ (bindMle r)]
      · rfl
      · intro m hm
        split
        · rename_i h1
          rw [List.length_append, List.length_singleton, hlen] at h1
          exact fixFirst_eq ex r m (htab m hm) (hconst (by omega) m hm)
        · exact fixNext_eq ex r m (htab m hm)
  rw [hstep]
  simp only [Option.bind_eq_bind, Option.bind_some]
  rw [mapM_some _ (fun p => roundMsg st.maxDegree n fun pt => p.1 * (p.2.map fun i =>
      mle ((effMles ch st.mles).getD i ⟨0, []⟩).evals
        (pt.take ((effMles ch st.mles).getD i ⟨0, []⟩).numVars)).prod)]
  · rw [Option.bind_some, ← roundMsg_zero st.maxDegree n, foldl_addVec]
    obtain ⟨p, ps, hps⟩ := List.exists_cons_of_ne_nil hprod
    have hfin : (roundMsg st.maxDegree n fun pt => 0 + (st.products.map fun p => p.1 * (p.2.map fun i =>
      mle ((effMles ch st.mles).getD i ⟨0, []⟩).evals
        (pt.take ((effMles ch st.mles).getD i ⟨0, []⟩).numVars)).prod).sum)
        = roundMsg st.maxDegree n (polyVal st.products (effMles ch st.mles)) := by
      congr 1
      funext pt
      rw [zero_add]; rfl
    rw [hfin, hps]
    cases ex <;> rfl
  · intro p hp
    exact productMessage_eq ex hex t ht
      { st with challenges := st.challenges ++ ch.toList, mles := effMles ch st.mles,
                round := st.round + 1 } n (by simp) (by simp only; omega) hwf hchar haux p hp

omit [DecidableEq F] in
theorem roundMsg_getD (D n : ℕ) (g : List F → F) (i : ℕ) (hi : i < D + 1) :
    (roundMsg D n g).getD i 0 = cubeSum n fun b => g ((i : F) :: b) := by
  unfold roundMsg
  rw [List.getD_eq_getElem?_getD, List.getElem?_map, List.getElem?_range hi]; rfl

omit [DecidableEq F] in
theorem roundMsg_sum (D n : ℕ) (hD : 1 ≤ D) (g : List F → F) :
    (roundMsg D n g).getD 0 0 + (roundMsg D n g).getD 1 0 = cubeSum (n + 1) g := by
  rw [roundMsg_getD D n g 0 (by omega), roundMsg_getD D n g 1 (by omega), cubeSum_succ]
  simp

theorem roundMsg_interp (D n : ℕ) (g : List F → F) (hchar : ∀ k, 0 < k → k ≤ D → (k : F) ≠ 0)
    (hdeg : ∀ b, b.length = n → ∃ P : F[X], P.natDegree ≤ D ∧ ∀ x, g (x :: b) = P.eval x)
    (r : F) (hr : ∀ k, k ≤ D → r ≠ (k : F)) :
    interpolateUniPoly (roundMsg D n g) r = some (cubeSum n fun b => g (r :: b)) := by
  obtain ⟨P, hP, hPe⟩ := cubeSum_poly n D (fun x b => g (x :: b)) hdeg
  rw [hPe r]
  apply interpolateUniPoly_eq _ (D + 1) (by simp [roundMsg]) (by omega)
    (fun k h1 h2 => hchar k h1 (by omega)) P
    (lt_of_le_of_lt degree_le_natDegree (by exact_mod_cast Nat.lt_succ_of_le hP))
  · intro i hi
    rw [roundMsg_getD D n g i hi, hPe]
  · intro k hk; exact hr k (by omega)

/-- The honest prover as a function of the polynomial: `n` rounds of a sumcheck with `n + e` variables. -/
def honestLoop (T : Transcript F) (D e : ℕ) : ℕ → (List F → F) → T.State → List (List F) × List F × T.State
  | 0, _, ts => ([], [], ts)
  | n + 1, g, ts =>
    let msg := roundMsg D (n + e) g
    let ct := T.challenge (T.appendExts ts msg)
    let r := honestLoop T D e n (fun b => g (ct.1 :: b)) ct.2
    (msg :: r.1, ct.1 :: r.2.1, r.2.2)

/-- The whole interaction from an arbitrary intermediate round. -/
theorem proveLoop_spec (ex : Exec) (hex : Exec.ok ex) (t : ℕ) (ht : 0 < t) (T : Transcript F) (n : ℕ) :
    ∀ (st : ProverState F) (ch : Option F) (ts : T.State) (pre : List (List F)),
    st.maxNumVars = n + st.round →
    (ch = none ↔ st.round = 0) → st.challenges.length = st.round - 1 →
    (∀ m ∈ st.mles, m.evals.length = 2 ^ m.numVars) →
    (2 ≤ st.maxNumVars → st.round ≤ 1 → ∀ m ∈ st.mles, 0 < m.numVars) →
    ProverWF st.maxDegree n st.products (effMles ch st.mles) →
    st.products ≠ [] → 1 ≤ st.maxDegree →
    (∀ k, 0 < k → k ≤ st.maxDegree → (k : F) ≠ 0) →
    (∀ k, k < st.maxDegree - 1 → ∃ w,
      st.aux[k]? = some ((List.range (k + 2)).map (fun i : ℕ => (i : F)), w) ∧
      barycentricWeights (.parallel t) ((List.range (k + 2)).map (fun i : ℕ => (i : F))) = some w) →
    ∃ (msgs : List (List F)) (cs : List F) (st' : ProverState F) (ts' : T.State),
      proveLoop ex T n st ch ts
        = some (msgs, st', (ch.toList ++ cs).getLast?, ts') ∧
      verifyLoop T (pre ++ msgs) n pre.length ts = some (msgs, cs, ts') ∧
      msgs.length = n ∧ cs.length = n ∧
      st'.challenges = st.challenges ++ (ch.toList ++ cs).dropLast ∧
      st'.maxNumVars = st.maxNumVars ∧
      (∃ ms, st'.mles = ms ∧ (∀ m ∈ ms, m.evals.length = 2 ^ m.numVars) ∧
        effMles (ch.toList ++ cs).getLast? ms = (ch.toList ++ cs).foldl (fun ms r => ms.map (bindMle r)) st.mles) ∧
      ((∀ r ∈ cs, ∀ k, k ≤ st.maxDegree → r ≠ (k : F)) →
        checkRec st.maxDegree msgs cs (cubeSum n (polyVal st.products (effMles ch st.mles)))
          = some (polyVal st.products (effMles ch st.mles) cs)) ∧
      honestLoop T st.maxDegree 0 n (polyVal st.products (effMles ch st.mles)) ts = (msgs, cs, ts') := by
  induction n with
  | zero =>
    intro st ch ts pre hn hch hlen htab hconst hwf hprod hD hchar haux
    refine ⟨[], [], st, ts, ?_, ?_, rfl, rfl, ?_, rfl, ⟨st.mles, rfl, htab, ?_⟩, ?_, rfl⟩
    · simp only [proveLoop]; cases ch <;> simp
    · simp [verifyLoop]
    · cases ch <;> simp
    · cases ch <;> simp [effMles]
    · intro _; simp [checkRec, cubeSum_zero]
  | succ n ih =>
    intro st ch ts pre hn hch hlen htab hconst hwf hprod hD hchar haux
    have hround := proveRound_eq ex hex t ht st ch n (by omega) hch hlen htab
      (fun h1 => hconst (by omega) (by omega)) hwf hprod hchar haux
    set ms := effMles ch st.mles with hms
    set g := polyVal st.products ms with hg
    set msg := roundMsg st.maxDegree n g with hmsg
    obtain ⟨c, ts1, hct⟩ : ∃ (c : F) (s : T.State), T.challenge (T.appendExts ts msg) = (c, s) :=
      ⟨_, _, rfl⟩
    have hwf' : ProverWF st.maxDegree n st.products (effMles (some c) ms) := hwf.bind c
    obtain ⟨msgs, cs, st', ts', h1, h2, h3, h4, h5, h6, ⟨ms', h7a, h7b, h7c⟩, h8, h9⟩ := ih
      { st with challenges := st.challenges ++ ch.toList, round := st.round + 1, mles := ms } (some c) ts1 (pre ++ [msg])
      (by simp only; omega) (by simp) (by
        simp only [List.length_append, Nat.add_sub_cancel]
        cases ch with
        | none => have := hch.mp rfl; simp; omega
        | some r =>
          have h0 : st.round ≠ 0 := fun h => by simpa using hch.mpr h
          simp; omega)
      (by intro m hm; exact (hwf.tables m hm).1)
      (by
        intro h2 h1 m hm
        have hr0 : st.round = 0 := by simp only at h1; omega
        have hcn : ch = none := hch.mpr hr0
        have : ms = st.mles := by rw [hms, hcn]; rfl
        simp only [this] at hm
        exact hconst h2 (by omega) m hm)
      hwf' hprod hD hchar haux
    refine ⟨msg :: msgs, c :: cs, st', ts', ?_, ?_, by simp [h3], by simp [h4], ?_, h6, ⟨ms', h7a, h7b, ?_⟩, ?_, ?_⟩
    · rw [proveLoop, hround]
      simp only [Option.bind_eq_bind, Option.bind_some, hct]
      rw [h1]
      simp only [Option.bind_some, Option.toList_some, List.singleton_append]
      cases ch <;> simp
    · rw [verifyLoop]
      have : (pre ++ msg :: msgs)[pre.length]? = some msg := by simp
      rw [this]
      simp only [Option.bind_eq_bind, Option.bind_some, hct]
      rw [List.append_assoc, List.singleton_append, List.length_append, List.length_singleton] at h2
      rw [h2]
      rfl
    · rw [h5]
      simp only [Option.toList_some, List.singleton_append]
      cases ch with
      | none => simp
      | some r => simp
    · simp only [Option.toList_some, List.singleton_append] at h7c
      cases ch with
      | none =>
        simp only [Option.toList_none, List.nil_append]
        rw [h7c]
        simp [hms, effMles]
      | some r =>
        simp only [Option.toList_some, List.singleton_append]
        have : (r :: c :: cs).getLast? = (c :: cs).getLast? := by simp
        rw [this, h7c]
        simp [hms, effMles]
    · intro hcs
      rw [checkRec, if_pos ⟨by simp [hmsg, roundMsg], by simp [hmsg, roundMsg]; omega,
        roundMsg_sum st.maxDegree n hD g⟩, roundMsg_interp st.maxDegree n g hchar
          (fun b _ => polyVal_degree hwf b) c (hcs c (by simp)), Option.bind_some]
      have h8' := h8 (fun r hr => hcs r (by simp [hr]))
      simp only [effMles] at h8'
      have e : cubeSum n (fun b => g (c :: b)) = cubeSum n (polyVal st.products (ms.map (bindMle c))) := by
        congr 1; funext b; rw [polyVal_bind hwf]
      rw [e, h8', polyVal_bind hwf]
    · rw [honestLoop]
      simp only [Nat.add_zero]
      have e : (fun b => g (c :: b)) = polyVal st.products (effMles (some c) ms) := by
        funext b; simp only [effMles]; rw [polyVal_bind hwf]
      rw [← hmsg, hct]
      simp only
      rw [e, h9]

end Lemmas
