import Verif.Model.Worker
import Verif.Lemmas.Graph

namespace Lemmas

open Model

variable {B P M : Type}

/-! ### The store without a cache -/

theorem cacheFill_none (k : List String) (b : B) (s : S3State B) (h : s.cache = none) : cacheFill k b s = (s, true) := by
  simp [cacheFill, h]

theorem s3Put_cache (o : PutOutcome) (k : List String) (b : B) (s : S3State B) : (s3Put o k b s).1.cache = s.cache := by
  cases o <;> rfl

theorem s3Put_other (o : PutOutcome) (k : List String) (b : B) (s : S3State B) (k' : List String) (h : k' ≠ k) :
    mapGet k' (s3Put o k b s).1.objects = mapGet k' s.objects := by
  cases o <;> simp [s3Put, mapGet_mapSet, h]

theorem s3Put_ok (o : PutOutcome) (k : List String) (b : B) (s : S3State B) (h : (s3Put o k b s).2 = true) :
    mapGet k (s3Put o k b s).1.objects = some b := by
  cases o <;> simp_all [s3Put, mapGet_mapSet]

theorem s3Step_cache_none (cp : Codec P B) (cm : Codec M B) (s : S3State B) (h : s.cache = none) (op : StoreOp P M) : (s3Step cp cm s op).1.cache = none := by
  cases op with
  | getParams k fault =>
    simp only [s3Step, s3GetParams, cacheGet, h]
    cases fault with
    | true => simpa using h
    | false =>
      simp only [Bool.false_eq_true, if_false]
      cases mapGet k s.objects with
      | none => exact h
      | some b =>
        cases hd : cp.dec b with
        | none => simpa [hd] using h
        | some v => simp [hd, cacheFill_none k b s h, h]
  | insertParams k v hf put =>
    simp only [s3Step, s3InsertParams, s3InsertCache, h]
    simp only [Bool.not_true, Bool.false_eq_true, if_false]
    cases s3InsertCheck k hf s with
    | true => simp [s3Put_cache, h]
    | false => simpa using h
  | getOrInit k init fault put =>
    simp only [s3Step, s3GetOrInit, cacheGet, h]
    cases fault with
    | true => simpa using h
    | false =>
      simp only [Bool.false_eq_true, if_false]
      cases mapGet k s.objects with
      | none =>
        cases init with
        | none => exact h
        | some v => simp [cacheFill_none k _ s h, s3Put_cache, h]
      | some b =>
        cases hd : cm.dec b with
        | none => simpa [hd] using h
        | some v => simp [hd, cacheFill_none k b s h, h]

/-- What one operation does to the objects when there is no cache. -/
theorem s3Step_objects (cp : Codec P B) (cm : Codec M B) (s : S3State B) (h : s.cache = none) (op : StoreOp P M) (k : List String) :
    mapGet k (s3Step cp cm s op).1.objects = mapGet k s.objects ∨
    (∃ v hf put, op = .insertParams k v hf put ∧ s3InsertCheck k hf s = true) ∨
    (∃ init fault put, op = .getOrInit k init fault put ∧ mapGet k s.objects = none) := by
  cases op with
  | getParams k' fault =>
    left
    simp only [s3Step, s3GetParams, cacheGet, h]
    cases fault with
    | true => simp
    | false =>
      simp only [Bool.false_eq_true, if_false]
      cases mapGet k' s.objects with
      | none => rfl
      | some b =>
        cases hd : cp.dec b with
        | none => simp [hd]
        | some v => simp [hd, cacheFill_none k' b s h]
  | insertParams k' v hf put =>
    simp only [s3Step, s3InsertParams, s3InsertCache, h]
    simp only [Bool.not_true, Bool.false_eq_true, if_false]
    cases hc : s3InsertCheck k' hf s with
    | true =>
      by_cases hk : k = k'
      · subst hk
        exact Or.inr (Or.inl ⟨v, hf, put, rfl, hc⟩)
      · left
        simp [s3Put_other _ _ _ _ _ hk]
    | false => left; simp
  | getOrInit k' init fault put =>
    simp only [s3Step, s3GetOrInit, cacheGet, h]
    cases fault with
    | true => left; simp
    | false =>
      simp only [Bool.false_eq_true, if_false]
      cases hg : mapGet k' s.objects with
      | none =>
        by_cases hk : k = k'
        · subst hk
          exact Or.inr (Or.inr ⟨init, false, put, rfl, hg⟩)
        · left
          cases init with
          | none => rfl
          | some v => simp [cacheFill_none k' _ s h, s3Put_other _ _ _ _ _ hk]
      | some b =>
        left
        cases hd : cm.dec b with
        | none => simp [hd]
        | some v => simp [hd, cacheFill_none k' b s h]

/-- A present object stays as it is unless a `head` request of an insertion under its key fails. -/
theorem s3Run_keeps (cp : Codec P B) (cm : Codec M B) (k : List String) (b : B) : ∀ (ops : List (StoreOp P M)) (s : S3State B), s.cache = none →
    mapGet k s.objects = some b → (∀ v put, StoreOp.insertParams k v true put ∉ ops) →
    (s3Run cp cm s ops).1.cache = none ∧ mapGet k (s3Run cp cm s ops).1.objects = some b
  | [], s, h, hk, _ => ⟨h, hk⟩
  | op :: ops, s, h, hk, hno => by
    have hc := s3Step_cache_none cp cm s h op
    have hk' : mapGet k (s3Step cp cm s op).1.objects = some b := by
      rcases s3Step_objects cp cm s h op k with e | ⟨v, hf, put, rfl, hchk⟩ | ⟨init, fault, put, rfl, hnone⟩
      · rw [e, hk]
      · simp only [s3InsertCheck, hk, Option.isNone_some, Bool.or_false] at hchk
        subst hchk
        exact absurd (List.mem_cons_self ..) (hno v put)
      · rw [hk] at hnone; cases hnone
    simp only [s3Run]
    exact s3Run_keeps cp cm k b ops _ hc hk' (fun v put hm => hno v put (List.mem_cons_of_mem _ hm))

/-! ### The store with a cache -/

/-- A file system with directories only. -/
def NoFiles (fs : Fs B) : Prop := ∀ p b, mapGet p fs ≠ some (.file b)

theorem fsCreateDir_spec {fs : Fs B} (h : NoFiles fs) (p : List String) :
    ∃ fs', fsCreateDir fs p = some fs' ∧ NoFiles fs' ∧ mapGet p fs' = some .dir ∧ ∀ q, mapGet q fs = some .dir → mapGet q fs' = some .dir := by
  unfold fsCreateDir
  cases hg : mapGet p fs with
  | none =>
    refine ⟨_, rfl, ?_, by rw [mapGet_mapSet, if_pos rfl], ?_⟩
    · intro q b
      rw [mapGet_mapSet]
      split
      · simp
      · exact h q b
    · intro q hq
      rw [mapGet_mapSet]
      split
      · rfl
      · exact hq
  | some x =>
    cases x with
    | dir => exact ⟨fs, rfl, h, hg, fun _ hq => hq⟩
    | file b => exact absurd hg (h p b)

theorem fsCreateDirs_spec : ∀ (ps : List (List String)) (fs : Fs B), NoFiles fs →
    ∃ fs', ps.foldlM fsCreateDir fs = some fs' ∧ NoFiles fs' ∧ (∀ p ∈ ps, mapGet p fs' = some .dir) ∧ ∀ q, mapGet q fs = some .dir → mapGet q fs' = some .dir
  | [], fs, h => ⟨fs, rfl, h, by simp, fun _ hq => hq⟩
  | p :: ps, fs, h => by
    obtain ⟨fs₁, a₁, a₂, a₃, a₄⟩ := fsCreateDir_spec h p
    obtain ⟨fs₂, b₁, b₂, b₃, b₄⟩ := fsCreateDirs_spec ps fs₁ a₂
    refine ⟨fs₂, by simp [List.foldlM_cons, a₁, b₁], b₂, ?_, fun q hq => b₄ q (a₄ q hq)⟩
    intro q hq
    rcases List.mem_cons.mp hq with rfl | hq
    · exact b₄ _ a₃
    · exact b₃ q hq

theorem mem_inits_drop (p : List String) (hp : p ≠ []) : p ∈ p.inits.drop 1 := by
  cases p with
  | nil => exact absurd rfl hp
  | cons a l =>
    rw [List.inits_cons]
    simp only [List.drop_succ_cons, List.drop_zero, List.mem_map]
    exact ⟨l, by rw [List.mem_inits], rfl⟩

/-- The write to the cache always fails: the directory just created is in the way. -/
theorem cacheFill_fails {s : S3State B} {fs : Fs B} (hs : s.cache = some fs) (h : NoFiles fs) (k : List String) (hk : k ≠ []) (b : B) :
    ∃ fs', cacheFill k b s = ({ s with cache := some fs' }, false) ∧ NoFiles fs' ∧ mapGet k fs' = some .dir := by
  obtain ⟨fs', a₁, a₂, a₃, -⟩ := fsCreateDirs_spec (k.inits.drop 1) fs h
  refine ⟨fs', ?_, a₂, a₃ k (mem_inits_drop k hk)⟩
  simp only [cacheFill, hs, fsCreateDirAll, a₁, fsWrite, a₃ k (mem_inits_drop k hk)]

theorem cacheGet_noFiles {V : Type} (c : Codec V B) {s : S3State B} {fs : Fs B} (hs : s.cache = some fs) (h : NoFiles fs) (k : List String) :
    cacheGet c k s = if fsExists k fs then some none else none := by
  simp only [cacheGet, hs]
  have : fsRead k fs = none := by
    unfold fsRead
    cases hg : mapGet k fs with
    | none => rfl
    | some x =>
      cases x with
      | dir => rfl
      | file b => exact absurd hg (h k b)
  rw [this]
  rfl

/-- One operation with a cache without files: there are still no files, and no value is returned. -/
theorem s3Step_cached (cp : Codec P B) (cm : Codec M B) {s : S3State B} {fs : Fs B} (hs : s.cache = some fs) (h : NoFiles fs) (op : StoreOp P M)
    (hk : op.key ≠ []) :
    (∃ fs', (s3Step cp cm s op).1.cache = some fs' ∧ NoFiles fs') ∧
    (∀ v, (s3Step cp cm s op).2 ≠ .params (some (some v))) ∧ (∀ m, (s3Step cp cm s op).2 ≠ .model (some m)) := by
  cases op with
  | getParams k fault =>
    simp only [s3Step, s3GetParams, cacheGet_noFiles cp hs h k]
    by_cases he : fsExists k fs
    · simp only [he, if_true, Option.map_none]
      exact ⟨⟨fs, hs, h⟩, by simp, by simp⟩
    · simp only [he, Bool.false_eq_true, if_false]
      cases fault with
      | true => exact ⟨⟨fs, hs, h⟩, by simp, by simp⟩
      | false =>
        simp only [Bool.false_eq_true, if_false]
        cases mapGet k s.objects with
        | none => exact ⟨⟨fs, hs, h⟩, by simp, by simp⟩
        | some b =>
          cases hd : cp.dec b with
          | none => simp only [hd]; exact ⟨⟨fs, hs, h⟩, by simp, by simp⟩
          | some v =>
            obtain ⟨fs', e, h', -⟩ := cacheFill_fails hs h k hk b
            simp only [hd, e]
            exact ⟨⟨fs', rfl, h'⟩, by simp, by simp⟩
  | insertParams k v hf put =>
    simp only [s3Step, s3InsertParams, s3InsertCache, hs]
    refine ⟨?_, by simp, by simp⟩
    by_cases he : fsExists k fs
    · simp only [he, if_true, Bool.not_true, Bool.false_eq_true, if_false]
      split
      · exact ⟨fs, by rw [s3Put_cache, hs], h⟩
      · exact ⟨fs, hs, h⟩
    · obtain ⟨fs', e, h', -⟩ := cacheFill_fails hs h k hk (cp.enc v)
      simp only [he, Bool.false_eq_true, if_false, e, Bool.not_false, if_true]
      exact ⟨fs', rfl, h'⟩
  | getOrInit k init fault put =>
    simp only [s3Step, s3GetOrInit, cacheGet_noFiles cm hs h k]
    by_cases he : fsExists k fs
    · simp only [he, if_true]
      exact ⟨⟨fs, hs, h⟩, by simp, by simp⟩
    · simp only [he, Bool.false_eq_true, if_false]
      cases fault with
      | true => exact ⟨⟨fs, hs, h⟩, by simp, by simp⟩
      | false =>
        simp only [Bool.false_eq_true, if_false]
        cases mapGet k s.objects with
        | none =>
          cases init with
          | none => exact ⟨⟨fs, hs, h⟩, by simp, by simp⟩
          | some v =>
            obtain ⟨fs', e, h', -⟩ := cacheFill_fails hs h k hk (cm.enc v)
            simp only [e, Bool.not_false, if_true]
            exact ⟨⟨fs', rfl, h'⟩, by simp, by simp⟩
        | some b =>
          cases hd : cm.dec b with
          | none => simp only [hd]; exact ⟨⟨fs, hs, h⟩, by simp, by simp⟩
          | some v =>
            obtain ⟨fs', e, h', -⟩ := cacheFill_fails hs h k hk b
            simp only [hd, e]
            exact ⟨⟨fs', rfl, h'⟩, by simp, by simp⟩

theorem s3Run_cached (cp : Codec P B) (cm : Codec M B) : ∀ (ops : List (StoreOp P M)) (s : S3State B) (fs : Fs B), s.cache = some fs → NoFiles fs →
    (∀ op ∈ ops, op.key ≠ []) →
    (∃ fs', (s3Run cp cm s ops).1.cache = some fs' ∧ NoFiles fs') ∧
    ∀ r ∈ (s3Run cp cm s ops).2, (∀ v, r ≠ .params (some (some v))) ∧ ∀ m, r ≠ .model (some m)
  | [], s, fs, hs, h, _ => ⟨⟨fs, hs, h⟩, by simp [s3Run]⟩
  | op :: ops, s, fs, hs, h, hk => by
    obtain ⟨⟨fs₁, a₁, a₂⟩, a₃, a₄⟩ := s3Step_cached cp cm hs h op (hk op (by simp))
    obtain ⟨b₁, b₂⟩ := s3Run_cached cp cm ops _ fs₁ a₁ a₂ (fun op' h' => hk op' (List.mem_cons_of_mem _ h'))
    refine ⟨b₁, ?_⟩
    intro r hr
    simp only [s3Run, List.mem_cons] at hr
    rcases hr with rfl | hr
    · exact ⟨a₃, a₄⟩
    · exact b₂ r hr

end Lemmas
