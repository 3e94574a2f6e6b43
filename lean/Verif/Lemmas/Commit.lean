import Verif.Spec.Commit
import Mathlib.Data.List.Perm.Basic
import Mathlib.Tactic

namespace Lemmas

open Model Spec

section maps
variable {α β : Type} [DecidableEq α]

theorem mapGet_eq_lookup (k : α) : ∀ m : List (α × β), mapGet k m = m.lookup k
  | [] => rfl
  | (k', v) :: m => by
    simp only [mapGet, List.lookup]
    by_cases h : k' = k
    · subst h; simp
    · have : (k == k') = false := by simpa using fun e => h e.symm
      rw [if_neg h, this, mapGet_eq_lookup k m]

theorem lookup_some_mem {k : α} {v : β} : ∀ {m : List (α × β)}, m.lookup k = some v → (k, v) ∈ m
  | (k', v') :: m, h => by
    simp only [List.lookup] at h
    by_cases e : k = k'
    · subst e; simp at h; simp [h]
    · have : (k == k') = false := by simpa using e
      rw [this] at h
      exact List.mem_cons_of_mem _ (lookup_some_mem h)

theorem lookup_of_mem {k : α} {v : β} : ∀ {m : List (α × β)}, (m.map (·.1)).Nodup → (k, v) ∈ m → m.lookup k = some v
  | (k', v') :: m, hn, h => by
    simp only [List.map_cons, List.nodup_cons] at hn
    simp only [List.lookup]
    rcases List.mem_cons.mp h with e | hm
    · cases e; simp
    · have : (k == k') = false := by
        simp only [beq_eq_false_iff_ne, ne_eq]
        rintro rfl
        exact hn.1 (List.mem_map.mpr ⟨(k, v), hm, rfl⟩)
      rw [this]
      exact lookup_of_mem hn.2 hm

theorem lookup_none_iff {k : α} : ∀ {m : List (α × β)}, m.lookup k = none ↔ k ∉ m.map (·.1)
  | [] => by simp
  | (k', v') :: m => by
    simp only [List.lookup, List.map_cons, List.mem_cons, not_or]
    by_cases e : k = k'
    · subst e; simp
    · have : (k == k') = false := by simpa using e
      rw [this]
      simp only [lookup_none_iff (m := m), e, not_false_eq_true, true_and]

/-- Removing a key succeeds exactly when it is there, returns its value, and leaves the other keys. -/
theorem mapRemove_spec {k : α} {v : β} : ∀ {m m' : List (α × β)}, mapRemove k m = some (v, m') →
    m.lookup k = some v ∧ m'.Sublist m ∧ (∀ j, j ≠ k → m'.lookup j = m.lookup j) ∧
    ((m.map (·.1)).Nodup → k ∉ m'.map (·.1))
  | (k', v') :: m, m', h => by
    simp only [mapRemove] at h
    by_cases e : k' = k
    · subst e
      rw [if_pos rfl] at h
      cases h
      refine ⟨by simp [List.lookup], List.sublist_cons_self _ _, fun j hj => ?_, fun hn => ?_⟩
      · have : (j == k') = false := by simpa using hj
        simp [List.lookup, this]
      · simpa using (List.nodup_cons.mp hn).1
    · rw [if_neg e] at h
      cases hr : mapRemove k m with
      | none => rw [hr] at h; simp at h
      | some r =>
        obtain ⟨v₁, m₁⟩ := r
        rw [hr] at h
        simp at h
        obtain ⟨rfl, rfl⟩ := h
        obtain ⟨h₁, h₂, h₃, h₄⟩ := mapRemove_spec hr
        have hk : (k == k') = false := by simpa using fun q => e q.symm
        refine ⟨by simp [List.lookup, hk, h₁], h₂.cons_cons _, fun j hj => ?_, fun hn => ?_⟩
        · simp only [List.lookup, h₃ j hj]
        · simp only [List.map_cons, List.mem_cons, not_or]
          exact ⟨fun q => e q.symm, h₄ (List.nodup_cons.mp hn).2⟩

theorem mapRemove_isSome {k : α} : ∀ {m : List (α × β)} {v : β}, m.lookup k = some v → ∃ m', mapRemove k m = some (v, m')
  | (k', v') :: m, v, h => by
    simp only [List.lookup] at h
    simp only [mapRemove]
    by_cases e : k' = k
    · subst e
      simp at h
      exact ⟨m, by simp [h]⟩
    · have hk : (k == k') = false := by simpa using fun q => e q.symm
      rw [hk] at h
      obtain ⟨m', hm⟩ := mapRemove_isSome h
      exact ⟨(k', v') :: m', by simp [e, hm]⟩

end maps

variable {C K F : Type} [DecidableEq K]

/-- The claims recorded so far. -/
def recorded (st : CommitVerifier C K F) : List (C × Claim F) := st.claims ++ st.trivial

theorem addWitness_recorded (tv : ℕ) (st : CommitVerifier C K F) (c : C) (cl : Claim F) :
    (recorded (st.addWitness tv c cl)).Perm (recorded st ++ [(c, cl)]) ∧ (st.addWitness tv c cl).model = st.model ∧
      (st.addWitness tv c cl).tables = st.tables := by
  unfold CommitVerifier.addWitness recorded
  split
  · simp
  · refine ⟨?_, rfl, rfl⟩
    simp only [List.append_assoc]
    exact List.Perm.append_left _ List.perm_append_comm

theorem addPolys_spec (tv : ℕ) : ∀ (ps : List (String × C)) (claims : List (String × Claim F)) (st st' : CommitVerifier C K F),
    (ps.map (·.1)).Nodup → st.addPolys tv ps claims = some st' →
    st'.model = st.model ∧ st'.tables = st.tables ∧ (∀ p ∈ ps, (claims.lookup p.1).isSome) ∧
    (recorded st').Perm (recorded st ++ ps.filterMap fun p => (claims.lookup p.1).map fun cl => (p.2, cl))
  | [], claims, st, st', _, h => by
    simp only [CommitVerifier.addPolys] at h
    cases h
    simp
  | p :: ps, claims, st, st', hn, h => by
    simp only [List.map_cons, List.nodup_cons] at hn
    simp only [CommitVerifier.addPolys] at h
    cases hr : mapRemove p.1 claims with
    | none => rw [hr] at h; simp at h
    | some r =>
      obtain ⟨cl, rest⟩ := r
      rw [hr] at h
      simp only [Option.bind_eq_bind, Option.bind_some] at h
      obtain ⟨h₁, h₂, h₃, -⟩ := mapRemove_spec hr
      obtain ⟨i₁, i₂, i₃, i₄⟩ := addPolys_spec tv ps rest _ st' hn.2 h
      obtain ⟨w₁, w₂, w₃⟩ := addWitness_recorded tv st p.2 cl
      have hl : ∀ q ∈ ps, rest.lookup q.1 = claims.lookup q.1 := fun q hq =>
        h₃ _ (fun e => hn.1 (e ▸ List.mem_map.mpr ⟨q, hq, rfl⟩))
      refine ⟨i₁.trans w₂, i₂.trans w₃, ?_, ?_⟩
      · intro q hq
        rcases List.mem_cons.mp hq with rfl | hq
        · rw [h₁]; rfl
        · rw [← hl q hq]; exact i₃ q hq
      · rw [List.filterMap_cons, h₁]
        simp only [Option.map_some]
        refine i₄.trans ?_
        have : (ps.filterMap fun p => (rest.lookup p.1).map fun cl => (p.2, cl)) =
            ps.filterMap fun p => (claims.lookup p.1).map fun cl => (p.2, cl) := by
          apply List.filterMap_congr
          intro q hq
          rw [hl q hq]
        rw [this]
        refine (w₁.append_right _).trans ?_
        simp

/-- The state is what is left of the context's maps. -/
structure LeftOf (ctx : CommitCtx C K) (st : CommitVerifier C K F) : Prop where
  nodes : (st.model.map (·.1)).Nodup
  tableKeys : (st.tables.map (·.1)).Nodup
  polys : ∀ (n : ℕ) (ps : List (String × C)), st.model.lookup n = some ps →
    ∃ ps', ctx.model.lookup n = some ps' ∧ (ps'.map (·.1)).Nodup ∧ ps = ps'.map fun p => (p.1, p.2.comm)
  tables : ∀ (k : K) (c : C), st.tables.lookup k = some c → ∃ p, ctx.tables.lookup k = some p ∧ c = p.comm

theorem lookup_map_snd {α β γ : Type} [DecidableEq α] (f : β → γ) (k : α) : ∀ m : List (α × β),
    (m.map fun x => (x.1, f x.2)).lookup k = (m.lookup k).map f
  | [] => rfl
  | (k', v) :: m => by
    simp only [List.map_cons, List.lookup]
    cases k == k' <;> simp [lookup_map_snd f k m]

theorem new_leftOf (ctx : CommitCtx C K) (h : DistinctKeys ctx) : LeftOf ctx (CommitVerifier.new (F := F) ctx) := by
  refine ⟨?_, ?_, ?_, ?_⟩
  · simpa [CommitVerifier.new, List.map_map, Function.comp_def] using h.nodes
  · simpa [CommitVerifier.new, List.map_map, Function.comp_def] using h.tables
  · intro n ps hl
    rw [CommitVerifier.new] at hl
    dsimp only at hl
    rw [lookup_map_snd (fun x : List (String × Committed C) => x.map fun p => (p.1, p.2.comm))] at hl
    cases hc : ctx.model.lookup n with
    | none => rw [hc] at hl; simp at hl
    | some ps' =>
      rw [hc] at hl
      simp only [Option.map_some, Option.some.injEq] at hl
      exact ⟨ps', rfl, h.polys _ (lookup_some_mem hc), hl.symm⟩
  · intro k c hl
    rw [CommitVerifier.new] at hl
    dsimp only at hl
    rw [lookup_map_snd (fun p : Committed C => p.comm)] at hl
    cases hc : ctx.tables.lookup k with
    | none => rw [hc] at hl; simp at hl
    | some p =>
      rw [hc] at hl
      simp only [Option.map_some, Option.some.injEq] at hl
      exact ⟨p, rfl, hl.symm⟩

/-- What a successful call does. -/
structure StepSpec (ctx : CommitCtx C K) (st st' : CommitVerifier C K F) (call : CommitCall C K F) : Prop where
  left : LeftOf ctx st'
  record : (recorded st').Perm (recorded st ++ (opened ctx call).map fun x => (x.1.comm, x.2))
  nodes : ∀ n, isCommon n call = true → n ∈ st.model.map (·.1) ∧ n ∉ st'.model.map (·.1)
  keepNodes : ∀ n, isCommon n call = false → (n ∈ st'.model.map (·.1) ↔ n ∈ st.model.map (·.1))
  tables : ∀ k, isTable k call = true → k ∈ st.tables.map (·.1) ∧ k ∉ st'.tables.map (·.1)
  keepTables : ∀ k, isTable k call = false → (k ∈ st'.tables.map (·.1) ↔ k ∈ st.tables.map (·.1))
  complete : ∀ n cls, call = .common n cls → cls ≠ [] → ∀ ps, ctx.model.lookup n = some ps → ∀ p ∈ ps, (cls.lookup p.1).isSome

theorem mem_keys_iff {α β : Type} [DecidableEq α] (k : α) (m : List (α × β)) : k ∈ m.map (·.1) ↔ (m.lookup k).isSome := by
  rw [← Option.ne_none_iff_isSome, ne_eq, lookup_none_iff, not_not]

theorem leftOf_witness {tv : ℕ} {ctx : CommitCtx C K} {st : CommitVerifier C K F} {c : C} {cl : Claim F} (h : LeftOf ctx st) :
    LeftOf ctx (st.addWitness tv c cl) := by
  obtain ⟨-, h₂, h₃⟩ := addWitness_recorded tv st c cl
  exact ⟨h₂ ▸ h.nodes, h₃ ▸ h.tableKeys, by rw [h₂]; exact h.polys, by rw [h₃]; exact h.tables⟩

theorem step_spec (tv : ℕ) (ctx : CommitCtx C K) (st st' : CommitVerifier C K F) (call : CommitCall C K F) (hl : LeftOf ctx st)
    (h : st.step tv call = some st') : StepSpec ctx st st' call := by
  cases call with
  | witness p cl =>
    simp only [CommitVerifier.step, Option.some.injEq] at h
    subst h
    obtain ⟨h₁, h₂, h₃⟩ := addWitness_recorded tv st p.comm cl
    exact ⟨leftOf_witness hl, by simpa [opened] using h₁, by simp [isCommon], by simp [h₂], by simp [isTable], by simp [h₃], by simp⟩
  | table k cl =>
    simp only [CommitVerifier.step, CommitVerifier.addTable] at h
    cases hr : mapRemove k st.tables with
    | none => rw [hr] at h; simp at h
    | some r =>
      obtain ⟨c, rest⟩ := r
      rw [hr] at h
      simp only [Option.bind_eq_bind, Option.bind_some, Option.some.injEq] at h
      obtain ⟨r₁, r₂, r₃, r₄⟩ := mapRemove_spec hr
      obtain ⟨h₁, h₂, h₃⟩ := addWitness_recorded tv { st with tables := rest } c cl
      subst h
      have hleft : LeftOf ctx { st with tables := rest } := by
        refine ⟨hl.nodes, hl.tableKeys.sublist (r₂.map _), hl.polys, ?_⟩
        intro j c' hj
        refine hl.tables j c' ?_
        rw [← r₃ j]
        · exact hj
        · rintro rfl
          exact r₄ hl.tableKeys ((mem_keys_iff _ _).mpr (by rw [hj]; rfl))
      obtain ⟨p, hp, rfl⟩ := hl.tables k c r₁
      refine ⟨leftOf_witness hleft, ?_, by simp [isCommon], by simp [h₂], ?_, ?_, by simp⟩
      · refine h₁.trans ?_
        simp [opened, hp, recorded]
      · intro j hj
        simp only [isTable, beq_iff_eq] at hj
        subst hj
        rw [h₃]
        exact ⟨(mem_keys_iff _ _).mpr (by rw [r₁]; rfl), r₄ hl.tableKeys⟩
      · intro j hj
        simp only [isTable, beq_eq_false_iff_ne] at hj
        rw [h₃, mem_keys_iff, mem_keys_iff, r₃ j (Ne.symm hj)]
  | common n cls =>
    simp only [CommitVerifier.step, CommitVerifier.addCommon] at h
    by_cases hc : cls = []
    · rw [if_pos hc] at h
      cases h
      subst hc
      exact ⟨hl, by simp [opened], by simp [isCommon], by simp, by simp [isTable], by simp, fun n cls h => by cases h; simp⟩
    · rw [if_neg hc] at h
      cases hr : mapRemove n st.model with
      | none => rw [hr] at h; simp at h
      | some r =>
        obtain ⟨ps, rest⟩ := r
        rw [hr] at h
        simp only [Option.bind_eq_bind, Option.bind_some] at h
        obtain ⟨r₁, r₂, r₃, r₄⟩ := mapRemove_spec hr
        have hleft : LeftOf ctx { st with model := rest } := by
          refine ⟨hl.nodes.sublist (r₂.map _), hl.tableKeys, ?_, hl.tables⟩
          intro j c' hj
          refine hl.polys j c' ?_
          rw [← r₃ j]
          · exact hj
          · rintro rfl
            exact r₄ hl.nodes ((mem_keys_iff _ _).mpr (by rw [hj]; rfl))
        obtain ⟨ps', hp, hnd, rfl⟩ := hl.polys n ps r₁
        obtain ⟨a₁, a₂, a₃, a₄⟩ := addPolys_spec tv _ cls _ st' (by simpa [List.map_map, Function.comp_def] using hnd) h
        dsimp only at a₁ a₂
        have he : cls.isEmpty = false := by simpa using hc
        refine ⟨⟨a₁ ▸ hleft.nodes, a₂ ▸ hleft.tableKeys, by rw [a₁]; exact hleft.polys, by rw [a₂]; exact hleft.tables⟩,
          ?_, ?_, ?_, by simp [isTable], by simp [a₂], ?_⟩
        · refine a₄.trans ?_
          apply List.Perm.of_eq
          simp only [recorded, opened, he, hp, Option.getD_some, List.filterMap_map, List.map_filterMap, Function.comp_def,
            Option.map_map, Bool.false_eq_true, if_false]
        · intro j hj
          simp only [isCommon, Bool.and_eq_true, beq_iff_eq] at hj
          obtain ⟨rfl, -⟩ := hj
          rw [a₁]
          exact ⟨(mem_keys_iff _ _).mpr (by rw [r₁]; rfl), r₄ hl.nodes⟩
        · intro j hj
          have hjn : j ≠ n := by
            rintro rfl
            simp [isCommon, he] at hj
          rw [a₁, mem_keys_iff, mem_keys_iff, r₃ j hjn]
        · intro n' cls' hcall _ ps₂ hps p hpm
          cases hcall
          rw [hp] at hps
          cases hps
          exact a₃ (p.1, p.2.comm) (List.mem_map.mpr ⟨p, hpm, rfl⟩)

/-- What a successful history does. -/
theorem run_spec (tv : ℕ) (ctx : CommitCtx C K) : ∀ (calls : List (CommitCall C K F)) (st st' : CommitVerifier C K F),
    LeftOf ctx st → calls.foldlM (fun s c => s.step tv c) st = some st' →
    (recorded st').Perm (recorded st ++ (calls.flatMap (opened ctx)).map fun x => (x.1.comm, x.2)) ∧
    (∀ n, calls.countP (isCommon n) + (st'.model.map (·.1)).count n = (st.model.map (·.1)).count n) ∧
    (∀ k, calls.countP (isTable k) + (st'.tables.map (·.1)).count k = (st.tables.map (·.1)).count k) ∧
    (∀ n cls, CommitCall.common n cls ∈ calls → cls ≠ [] → ∀ ps, ctx.model.lookup n = some ps → ∀ p ∈ ps, (cls.lookup p.1).isSome)
  | [], st, st', _, h => by
    simp only [List.foldlM_nil] at h
    cases h
    simp
  | call :: calls, st, st', hl, h => by
    simp only [List.foldlM_cons, Option.bind_eq_bind] at h
    cases hs : st.step tv call with
    | none => rw [hs] at h; simp at h
    | some s₁ =>
      rw [hs] at h
      simp only [Option.bind_some] at h
      have sp := step_spec tv ctx st s₁ call hl hs
      obtain ⟨i₁, i₂, i₃, i₄⟩ := run_spec tv ctx calls s₁ st' sp.left h
      refine ⟨?_, ?_, ?_, ?_⟩
      · refine i₁.trans ((sp.record.append_right _).trans ?_)
        simp
      · intro n
        rw [List.countP_cons]
        have := i₂ n
        cases hb : isCommon n call with
        | true =>
          obtain ⟨m₁, m₂⟩ := sp.nodes n hb
          rw [List.count_eq_zero_of_not_mem m₂] at this
          rw [List.count_eq_one_of_mem hl.nodes m₁]
          simp; omega
        | false =>
          have hk := sp.keepNodes n hb
          have : (s₁.model.map (·.1)).count n = (st.model.map (·.1)).count n := by
            by_cases hm : n ∈ st.model.map (·.1)
            · rw [List.count_eq_one_of_mem hl.nodes hm, List.count_eq_one_of_mem sp.left.nodes (hk.mpr hm)]
            · rw [List.count_eq_zero_of_not_mem hm, List.count_eq_zero_of_not_mem (fun e => hm (hk.mp e))]
          simp; omega
      · intro n
        rw [List.countP_cons]
        have := i₃ n
        cases hb : isTable n call with
        | true =>
          obtain ⟨m₁, m₂⟩ := sp.tables n hb
          rw [List.count_eq_zero_of_not_mem m₂] at this
          rw [List.count_eq_one_of_mem hl.tableKeys m₁]
          simp; omega
        | false =>
          have hk := sp.keepTables n hb
          have : (s₁.tables.map (·.1)).count n = (st.tables.map (·.1)).count n := by
            by_cases hm : n ∈ st.tables.map (·.1)
            · rw [List.count_eq_one_of_mem hl.tableKeys hm, List.count_eq_one_of_mem sp.left.tableKeys (hk.mpr hm)]
            · rw [List.count_eq_zero_of_not_mem hm, List.count_eq_zero_of_not_mem (fun e => hm (hk.mp e))]
          simp; omega
      · intro n cls hm hc
        rcases List.mem_cons.mp hm with e | hm
        · exact sp.complete n cls e.symm hc
        · exact i₄ n cls hm hc

/-- Prover and verifier hold the same claims, in the same order. -/
structure InSync (pst : CommitProver C F) (st : CommitVerifier C K F) : Prop where
  claims : pst.claims.map (fun x => (x.1.comm, x.2)) = st.claims
  trivial : pst.trivial.map (fun x => (x.1.comm, x.2)) = st.trivial

theorem sync_witness {tv : ℕ} {pst : CommitProver C F} {st : CommitVerifier C K F} (h : InSync pst st) (p : Committed C) (cl : Claim F)
    (hs : cl.point.length = p.numVars) : InSync (pst.addWitness tv p cl) (st.addWitness tv p.comm cl) := by
  unfold CommitProver.addWitness CommitVerifier.addWitness
  rw [hs]
  split
  · exact ⟨h.claims, by simp [h.trivial]⟩
  · exact ⟨by simp [h.claims], h.trivial⟩

theorem sync_polys {tv : ℕ} : ∀ (ps : List (String × Committed C)) (claims : List (String × Claim F)) (pst : CommitProver C F)
    (st st' : CommitVerifier C K F), (ps.map (·.1)).Nodup → InSync pst st →
    (∀ x ∈ ps.filterMap (fun p => (claims.lookup p.1).map fun cl => (p.2, cl)), x.2.point.length = x.1.numVars) →
    st.addPolys tv (ps.map fun p => (p.1, p.2.comm)) claims = some st' → ∃ pst', pst.addPolys tv ps claims = some pst' ∧ InSync pst' st'
  | [], claims, pst, st, st', _, h, _, hv => by
    simp only [List.map_nil, CommitVerifier.addPolys, Option.some.injEq] at hv
    subst hv
    exact ⟨pst, rfl, h⟩
  | p :: ps, claims, pst, st, st', hn, h, hs, hv => by
    simp only [List.map_cons, List.nodup_cons] at hn
    simp only [List.map_cons, CommitVerifier.addPolys] at hv
    cases hr : mapRemove p.1 claims with
    | none => rw [hr] at hv; simp at hv
    | some r =>
      obtain ⟨cl, rest⟩ := r
      rw [hr] at hv
      simp only [Option.bind_eq_bind, Option.bind_some] at hv
      obtain ⟨h₁, -, h₃, -⟩ := mapRemove_spec hr
      rw [List.filterMap_cons, h₁] at hs
      simp only [Option.map_some, List.mem_cons, forall_eq_or_imp] at hs
      have hl : ∀ q ∈ ps, rest.lookup q.1 = claims.lookup q.1 := fun q hq =>
        h₃ _ (fun e => hn.1 (e ▸ List.mem_map.mpr ⟨q, hq, rfl⟩))
      have hc : (ps.filterMap fun p => (rest.lookup p.1).map fun cl => (p.2, cl)) =
          ps.filterMap fun p => (claims.lookup p.1).map fun cl => (p.2, cl) :=
        List.filterMap_congr fun q hq => by rw [hl q hq]
      obtain ⟨pst', hp, hsy⟩ := sync_polys ps rest _ _ st' hn.2 (sync_witness h p.2 cl hs.1) (by rw [hc]; exact hs.2) hv
      exact ⟨pst', by simp [CommitProver.addPolys, hr, hp], hsy⟩

theorem sync_step (tv : ℕ) (ctx : CommitCtx C K) (pst : CommitProver C F) (st st' : CommitVerifier C K F) (call : CommitCall C K F)
    (hl : LeftOf ctx st) (h : InSync pst st) (hs : ∀ x ∈ opened ctx call, x.2.point.length = x.1.numVars)
    (hv : st.step tv call = some st') : ∃ pst', pst.step tv ctx call = some pst' ∧ InSync pst' st' := by
  cases call with
  | witness p cl =>
    simp only [CommitVerifier.step, Option.some.injEq] at hv
    subst hv
    exact ⟨_, rfl, sync_witness h p cl (hs (p, cl) (by simp [opened]))⟩
  | table k cl =>
    simp only [CommitVerifier.step, CommitVerifier.addTable] at hv
    cases hr : mapRemove k st.tables with
    | none => rw [hr] at hv; simp at hv
    | some r =>
      obtain ⟨c, rest⟩ := r
      rw [hr] at hv
      simp only [Option.bind_eq_bind, Option.bind_some, Option.some.injEq] at hv
      obtain ⟨p, hp, rfl⟩ := hl.tables k c (mapRemove_spec hr).1
      subst hv
      refine ⟨pst.addWitness tv p cl, by simp [CommitProver.step, CommitProver.addTable, mapGet_eq_lookup, hp], ?_⟩
      exact sync_witness (st := { st with tables := rest }) ⟨h.claims, h.trivial⟩ p cl (hs (p, cl) (by simp [opened, hp]))
  | common n cls =>
    simp only [CommitVerifier.step, CommitVerifier.addCommon] at hv
    by_cases hc : cls = []
    · rw [if_pos hc] at hv
      cases hv
      exact ⟨pst, by simp [CommitProver.step, CommitProver.addCommon, hc], h⟩
    · rw [if_neg hc] at hv
      cases hr : mapRemove n st.model with
      | none => rw [hr] at hv; simp at hv
      | some r =>
        obtain ⟨ps, rest⟩ := r
        rw [hr] at hv
        simp only [Option.bind_eq_bind, Option.bind_some] at hv
        obtain ⟨ps', hp, hnd, rfl⟩ := hl.polys n ps (mapRemove_spec hr).1
        have he : cls.isEmpty = false := by simpa using hc
        obtain ⟨pst', h₁, h₂⟩ := sync_polys (st := { st with model := rest }) ps' cls pst st' hnd ⟨h.claims, h.trivial⟩
          (by simpa [opened, he, hp] using hs) hv
        exact ⟨pst', by simp [CommitProver.step, CommitProver.addCommon, hc, mapGet_eq_lookup, hp, h₁], h₂⟩

theorem sync_run (tv : ℕ) (ctx : CommitCtx C K) : ∀ (calls : List (CommitCall C K F)) (pst : CommitProver C F) (st st' : CommitVerifier C K F),
    LeftOf ctx st → InSync pst st → (∀ x ∈ calls.flatMap (opened ctx), x.2.point.length = x.1.numVars) →
    calls.foldlM (fun s c => s.step tv c) st = some st' →
    ∃ pst', calls.foldlM (fun s c => s.step tv ctx c) pst = some pst' ∧ InSync pst' st'
  | [], pst, st, st', _, h, _, hv => by
    simp only [List.foldlM_nil] at hv
    cases hv
    exact ⟨pst, rfl, h⟩
  | call :: calls, pst, st, st', hl, h, hs, hv => by
    simp only [List.foldlM_cons, Option.bind_eq_bind] at hv
    cases hst : st.step tv call with
    | none => rw [hst] at hv; simp at hv
    | some s₁ =>
      rw [hst] at hv
      simp only [Option.bind_some] at hv
      obtain ⟨p₁, hp₁, hy₁⟩ := sync_step tv ctx pst st s₁ call hl h (fun x hx => hs x (by simp [hx])) hst
      obtain ⟨p₂, hp₂, hy₂⟩ := sync_run tv ctx calls p₁ s₁ st' (step_spec tv ctx st s₁ call hl hst).left hy₁
        (fun x hx => hs x (by rw [List.flatMap_cons]; exact List.mem_append_right _ hx)) hv
      exact ⟨p₂, by simp [List.foldlM_cons, hp₁, hp₂], hy₂⟩

theorem addPolys_isSome (tv : ℕ) : ∀ (ps : List (String × C)) (claims : List (String × Claim F)) (st : CommitVerifier C K F),
    (ps.map (·.1)).Nodup → (∀ p ∈ ps, (claims.lookup p.1).isSome) → ∃ st', st.addPolys tv ps claims = some st'
  | [], claims, st, _, _ => ⟨st, rfl⟩
  | p :: ps, claims, st, hn, h => by
    simp only [List.map_cons, List.nodup_cons] at hn
    obtain ⟨cl, hcl⟩ := Option.isSome_iff_exists.mp (h p (by simp))
    obtain ⟨rest, hr⟩ := mapRemove_isSome hcl
    have h₃ := (mapRemove_spec hr).2.2.1
    obtain ⟨st', hst⟩ := addPolys_isSome tv ps rest (st.addWitness tv p.2 cl) hn.2 (fun q hq => by
      rw [h₃ _ (fun e => hn.1 (e ▸ List.mem_map.mpr ⟨q, hq, rfl⟩))]
      exact h q (by simp [hq]))
    exact ⟨st', by simp [CommitVerifier.addPolys, hr, hst]⟩

theorem run_isSome (tv : ℕ) (ctx : CommitCtx C K) : ∀ (calls : List (CommitCall C K F)) (st : CommitVerifier C K F), LeftOf ctx st →
    (∀ n, calls.countP (isCommon n) = (st.model.map (·.1)).count n) → (∀ k, calls.countP (isTable k) = (st.tables.map (·.1)).count k) →
    (∀ n claims, CommitCall.common n claims ∈ calls → claims ≠ [] → ∀ ps, ctx.model.lookup n = some ps → ∀ p ∈ ps, (claims.lookup p.1).isSome) →
    ∃ st', calls.foldlM (fun s c => s.step tv c) st = some st'
  | [], st, _, _, _, _ => ⟨st, rfl⟩
  | call :: calls, st, hl, hn, ht, hc => by
    have hstep : ∃ s₁, st.step tv call = some s₁ := by
      cases call with
      | witness p cl => exact ⟨_, rfl⟩
      | table k cl =>
        have := ht k
        rw [List.countP_cons] at this
        simp only [isTable, beq_self_eq_true, if_true] at this
        have hm : k ∈ st.tables.map (·.1) := by
          by_contra hm
          rw [List.count_eq_zero_of_not_mem hm] at this
          omega
        obtain ⟨c, hcl⟩ := Option.isSome_iff_exists.mp ((mem_keys_iff _ _).mp hm)
        obtain ⟨rest, hr⟩ := mapRemove_isSome hcl
        exact ⟨_, by simp only [CommitVerifier.step, CommitVerifier.addTable, hr]; rfl⟩
      | common n cls =>
        by_cases he : cls = []
        · exact ⟨st, by simp [CommitVerifier.step, CommitVerifier.addCommon, he]⟩
        · have := hn n
          have hce : cls.isEmpty = false := by simpa using he
          rw [List.countP_cons] at this
          simp only [isCommon, beq_self_eq_true, hce, Bool.not_false, Bool.and_true, if_true] at this
          have hm : n ∈ st.model.map (·.1) := by
            by_contra hm
            rw [List.count_eq_zero_of_not_mem hm] at this
            omega
          obtain ⟨ps, hps⟩ := Option.isSome_iff_exists.mp ((mem_keys_iff _ _).mp hm)
          obtain ⟨rest, hr⟩ := mapRemove_isSome hps
          obtain ⟨ps', hp, hnd, rfl⟩ := hl.polys n ps hps
          obtain ⟨s₁, hs₁⟩ := addPolys_isSome tv (ps'.map fun p => (p.1, p.2.comm)) cls { st with model := rest }
            (by simpa [List.map_map, Function.comp_def] using hnd) (by
              intro p hpm
              obtain ⟨q, hq, rfl⟩ := List.mem_map.mp hpm
              exact hc n cls (by simp) he ps' hp q hq)
          exact ⟨s₁, by simp [CommitVerifier.step, CommitVerifier.addCommon, he, hr, hs₁]⟩
    obtain ⟨s₁, hs₁⟩ := hstep
    have sp := step_spec tv ctx st s₁ call hl hs₁
    have r := run_spec tv ctx [call] st s₁ hl (by simp [hs₁])
    obtain ⟨st', hst'⟩ := run_isSome tv ctx calls s₁ sp.left
      (fun n => by
        have a := r.2.1 n
        have b := hn n
        rw [List.countP_cons] at b
        rw [List.countP_singleton] at a
        omega)
      (fun k => by
        have a := r.2.2.1 k
        have b := ht k
        rw [List.countP_cons] at b
        rw [List.countP_singleton] at a
        omega)
      (fun n claims hm => hc n claims (by simp [hm]))
    exact ⟨st', by simp [List.foldlM_cons, hs₁, hst']⟩

theorem eq_nil_of_count {α β : Type} [DecidableEq α] (m : List (α × β)) (h : ∀ k, (m.map (·.1)).count k = 0) : m = [] := by
  cases m with
  | nil => rfl
  | cons x m => have := h x.1; simp at this

end Lemmas
