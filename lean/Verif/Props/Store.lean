import Verif.Lemmas.Store

/-! C51, C52, C53: the store for parameters and scaled models. -/

namespace Props

open Model Lemmas

variable {B P M : Type}

/-! ### C51: what is stored is what is returned -/

/-- C51. Without the file cache: once an insertion has succeeded, whatever operations follow (on any keys, with any failures, but no failing `head` request of another
insertion under this key), a read that reaches S3 returns the inserted value. -/
theorem C51_insert_then_get_partial (cp : Codec P B) (cm : Codec M B) (hround : ∀ v, cp.dec (cp.enc v) = some v) (s : S3State B) (hc : s.cache = none)
    (k : List String) (v : P) (hf : Bool) (put : PutOutcome) (hok : (s3Step cp cm s (.insertParams k v hf put)).2 = .inserted true)
    (ops : List (StoreOp P M)) (hno : ∀ v' put', StoreOp.insertParams k v' true put' ∉ ops) :
    (s3Step cp cm (s3Run cp cm (s3Step cp cm s (.insertParams k v hf put)).1 ops).1 (.getParams k false)).2 = .params (some (some v)) := by
  have hc' := s3Step_cache_none cp cm s hc (.insertParams k v hf put)
  have hobj : mapGet k (s3Step cp cm s (.insertParams k v hf put)).1.objects = some (cp.enc v) := by
    simp only [s3Step, s3InsertParams, s3InsertCache, hc, Bool.not_true, Bool.false_eq_true, if_false, StoreRes.inserted.injEq] at hok ⊢
    cases hchk : s3InsertCheck k hf s with
    | false => simp [hchk] at hok
    | true =>
      simp only [hchk, if_true] at hok ⊢
      exact s3Put_ok put k _ s hok
  obtain ⟨h₁, h₂⟩ := s3Run_keeps cp cm k (cp.enc v) ops _ hc' hobj hno
  generalize (s3Run cp cm (s3Step cp cm s (.insertParams k v hf put)).1 ops).1 = t at h₁ h₂ ⊢
  simp [s3Step, s3GetParams, cacheGet, h₁, h₂, hround, cacheFill_none _ _ _ h₁]

/-- C51, for models. Without the file cache: once `get_or_init_model_with` has returned a model, a later call that reaches S3 returns the same one, whatever its own
initialiser would give. -/
theorem C51_model_then_model_partial (cp : Codec P B) (cm : Codec M B) (hround : ∀ v, cm.dec (cm.enc v) = some v) (s : S3State B) (hc : s.cache = none)
    (k : List String) (m : M) (init : Option M) (put : PutOutcome) (hok : (s3Step cp cm s (.getOrInit k init false put)).2 = .model (some m))
    (ops : List (StoreOp P M)) (hno : ∀ v' put', StoreOp.insertParams k v' true put' ∉ ops) (init' : Option M) (put' : PutOutcome) :
    (s3Step cp cm (s3Run cp cm (s3Step cp cm s (.getOrInit k init false put)).1 ops).1 (.getOrInit k init' false put')).2 = .model (some m) := by
  have hc' := s3Step_cache_none cp cm s hc (.getOrInit k init false put)
  have hobj : ∃ b, mapGet k (s3Step cp cm s (.getOrInit k init false put)).1.objects = some b ∧ cm.dec b = some m := by
    simp only [s3Step, s3GetOrInit, cacheGet, hc, Bool.false_eq_true, if_false, StoreRes.model.injEq] at hok ⊢
    cases hg : mapGet k s.objects with
    | some b =>
      cases hd : cm.dec b with
      | none => simp [hg, hd] at hok
      | some v =>
        simp only [hg, hd, cacheFill_none k b s hc, if_true, Option.some.injEq] at hok ⊢
        exact ⟨b, rfl, hok ▸ hd⟩
    | none =>
      cases init with
      | none => simp [hg] at hok
      | some v =>
        simp only [hg, cacheFill_none k _ s hc, Bool.not_true, Bool.false_eq_true, if_false] at hok ⊢
        by_cases hput : (s3Put put k (cm.enc v) s).2 = true
        · simp only [hput, if_true, Option.some.injEq] at hok
          exact ⟨_, s3Put_ok put k _ s hput, hok ▸ hround v⟩
        · simp [hput] at hok
  obtain ⟨b, hb, hd⟩ := hobj
  obtain ⟨h₁, h₂⟩ := s3Run_keeps cp cm k b ops _ hc' hb hno
  generalize (s3Run cp cm (s3Step cp cm s (.getOrInit k init false put)).1 ops).1 = t at h₁ h₂ ⊢
  simp [s3Step, s3GetOrInit, cacheGet, h₁, h₂, hd, cacheFill_none _ _ _ h₁]

/-- C51. An operation under another key does not change what is stored under this one. -/
theorem C51_other_keys (cp : Codec P B) (cm : Codec M B) (s : S3State B) (hc : s.cache = none) (op : StoreOp P M) (k : List String) (hk : op.key ≠ k) :
    mapGet k (s3Step cp cm s op).1.objects = mapGet k s.objects := by
  rcases s3Step_objects cp cm s hc op k with h | ⟨v, hf, put, rfl, -⟩ | ⟨init, fault, put, rfl, -⟩
  · exact h
  · exact absurd rfl hk
  · exact absurd rfl hk

/-- C51. An insertion under a key that is present fails and changes nothing, if its `head` request gets through. -/
theorem C51_no_overwrite_partial (cp : Codec P B) (cm : Codec M B) (s : S3State B) (hc : s.cache = none) (k : List String) (b : B) (hk : mapGet k s.objects = some b)
    (v : P) (put : PutOutcome) : s3Step cp cm s (.insertParams k v false put) = (s, .inserted false) := by
  simp [s3Step, s3InsertParams, s3InsertCache, hc, s3InsertCheck, hk]

/-- The identity as a serialisation format. -/
def plain (V : Type) : Codec V V := ⟨id, some⟩

/-- The hypotheses are met: an insertion into the empty store succeeds, another insertion under the same key and one under another key follow, the read gives the first. -/
example : (s3Step (plain ℕ) (plain ℕ) ⟨[], none⟩ (.insertParams ["Params", "1", "A"] 7 false .stored)).2 = .inserted true ∧
    (s3Run (plain ℕ) (plain ℕ) ⟨[], none⟩ [.insertParams ["Params", "1", "A"] 7 false .stored, .insertParams ["Params", "1", "A"] 8 false .stored,
      .insertParams ["Params", "1", "B"] 9 false .stored, .getParams ["Params", "1", "A"] false]).2 =
      [.inserted true, .inserted false, .inserted true, .params (some (some 7))] := ⟨by rfl, by rfl⟩

/-- The hypotheses are met: a model is initialised, and found again although the second initialiser would give another one. -/
example : (s3Run (plain ℕ) (plain ℕ) ⟨[], none⟩ [.getOrInit ["Model", "A"] (some 1) false .stored, .getOrInit ["Model", "A"] (some 2) false .stored]).2 =
    [.model (some 1), .model (some 1)] := by rfl

/-- C51 is false when requests can fail: a `head` request that fails for any reason (a timeout, missing permission) is taken for the absence of the key, so that an insertion
over a present value reports success and the value is gone. -/
theorem C51_head_failure_overwrites_false (cp : Codec P B) (cm : Codec M B) (hround : ∀ v, cp.dec (cp.enc v) = some v) (s : S3State B) (hc : s.cache = none) (k : List String)
    (v₁ v₂ : P) (hk : mapGet k s.objects = some (cp.enc v₁)) :
    (s3Run cp cm s [.getParams k false, .insertParams k v₂ true .stored, .getParams k false]).2 = [.params (some (some v₁)), .inserted true, .params (some (some v₂))] := by
  have e₁ : s3Step cp cm s (.getParams k false) = (s, .params (some (some v₁))) := by
    simp [s3Step, s3GetParams, cacheGet, hc, hk, hround, cacheFill_none _ _ _ hc]
  have e₂ : s3Step cp cm s (.insertParams k v₂ true .stored) = ({ s with objects := mapSet k (cp.enc v₂) s.objects }, .inserted true) := by
    simp [s3Step, s3InsertParams, s3InsertCache, hc, s3InsertCheck, s3Put]
  simp only [s3Run, e₁, e₂]
  have hc' : (⟨mapSet k (cp.enc v₂) s.objects, s.cache⟩ : S3State B).cache = none := hc
  simp [s3Step, s3GetParams, cacheGet, hc, mapGet_mapSet, hround, cacheFill]

/-- C51 is false for two workers: the presence check and the `put` are two requests. Both workers find the key absent, both `put`, both report success, and the value of the
first is gone. -/
theorem C51_race_false (cp : Codec P B) (hround : ∀ v, cp.dec (cp.enc v) = some v) (s : S3State B) (hc : s.cache = none) (k : List String) (v₁ v₂ : P)
    (hk : mapGet k s.objects = none) :
    s3InsertCheck k false s = true ∧ s3InsertCheck k false s = true ∧
    (s3Put .stored k (cp.enc v₁) s).2 = true ∧ (s3Put .stored k (cp.enc v₂) (s3Put .stored k (cp.enc v₁) s).1).2 = true ∧
    (s3GetParams cp k false (s3Put .stored k (cp.enc v₂) (s3Put .stored k (cp.enc v₁) s).1).1).2 = some (some v₂) := by
  refine ⟨by simp [s3InsertCheck, hk], by simp [s3InsertCheck, hk], rfl, rfl, ?_⟩
  simp [s3GetParams, s3Put, cacheGet, hc, mapGet_mapSet, hround, cacheFill]

/-- C51 is false with failing requests in another way: an insertion that reports an error may have stored its value, so that the retry fails for ever. -/
theorem C51_failed_insert_stored_false (cp : Codec P B) (cm : Codec M B) (s : S3State B) (hc : s.cache = none) (k : List String) (v : P) (hk : mapGet k s.objects = none) (put : PutOutcome) :
    (s3Run cp cm s [.insertParams k v false .storedButFailed, .insertParams k v false put]).2 = [.inserted false, .inserted false] := by
  simp [s3Run, s3Step, s3InsertParams, s3InsertCache, hc, s3InsertCheck, hk, s3Put, mapGet_mapSet]

theorem memRun_keeps_params (k : List String) (v : P) : ∀ (ops : List (StoreOp P M)) (s : MemState P M), mapGet k s.pps = some v →
    (∀ v' hf put, StoreOp.insertParams k v' hf put ∉ ops) → mapGet k (memRun s ops).1.pps = some v
  | [], _, h, _ => h
  | op :: ops, s, h, hno => by
    simp only [memRun]
    refine memRun_keeps_params k v ops _ ?_ (fun v' hf put hm => hno v' hf put (List.mem_cons_of_mem _ hm))
    cases op with
    | getParams k' f => exact h
    | insertParams k' v' hf put =>
      simp only [memStep, mapGet_mapSet]
      by_cases hk : k = k'
      · subst hk
        exact absurd (List.mem_cons_self ..) (hno v' hf put)
      · rw [if_neg hk]; exact h
    | getOrInit k' init f put =>
      simp only [memStep]
      cases mapGet k' s.models with
      | some m => exact h
      | none => cases init <;> exact h

theorem memRun_keeps_models (k : List String) (m : M) : ∀ (ops : List (StoreOp P M)) (s : MemState P M), mapGet k s.models = some m →
    mapGet k (memRun s ops).1.models = some m
  | [], _, h => h
  | op :: ops, s, h => by
    simp only [memRun]
    refine memRun_keeps_models k m ops _ ?_
    cases op with
    | getParams k' f => exact h
    | insertParams k' v' hf put => exact h
    | getOrInit k' init f put =>
      simp only [memStep]
      cases hg : mapGet k' s.models with
      | some m' => exact h
      | none =>
        cases init with
        | none => exact h
        | some v =>
          have hk : k ≠ k' := by
            rintro rfl
            rw [h] at hg; cases hg
          simp only [mapGet_mapSet, if_neg hk]
          exact h

/-- C51 for the in-memory store: a read gives the last value inserted under its key. -/
theorem C51_mem_get (s : MemState P M) (k : List String) (v : P) (hf : Bool) (put : PutOutcome) (ops : List (StoreOp P M))
    (hlast : ∀ v' hf' put', StoreOp.insertParams k v' hf' put' ∉ ops) (f : Bool) :
    (memStep (memRun (memStep s (.insertParams k v hf put)).1 ops).1 (.getParams k f)).2 = .params (some (some v)) := by
  have := memRun_keeps_params k v ops (memStep s (.insertParams k v hf put)).1 (by simp [memStep, mapGet_mapSet]) hlast
  generalize (memRun (memStep s (.insertParams k v hf put)).1 ops).1 = t at this ⊢
  simp [memStep, this]

/-- C51 for the in-memory store: once a model has been returned, it is always returned. -/
theorem C51_mem_model (s : MemState P M) (k : List String) (m : M) (init : Option M) (f : Bool) (put : PutOutcome)
    (hok : (memStep s (.getOrInit k init f put)).2 = .model (some m)) (ops : List (StoreOp P M)) (init' : Option M) (f' : Bool) (put' : PutOutcome) :
    (memStep (memRun (memStep s (.getOrInit k init f put)).1 ops).1 (.getOrInit k init' f' put')).2 = .model (some m) := by
  have h₀ : mapGet k (memStep s (.getOrInit k init f put)).1.models = some m := by
    simp only [memStep] at hok ⊢
    cases hg : mapGet k s.models with
    | some v => simp_all
    | none =>
      cases init with
      | none => simp [hg] at hok
      | some v =>
        simp only [hg, StoreRes.model.injEq, Option.some.injEq] at hok
        simp [mapGet_mapSet, hok]
  have := memRun_keeps_models k m ops _ h₀
  simp [memStep] at this ⊢
  simp [this]

/-- C51 is false for the in-memory store: an insertion overwrites silently. -/
theorem C51_mem_overwrites_false (s : MemState P M) (k : List String) (v₁ v₂ : P) (hf : Bool) (put : PutOutcome) :
    (memRun s [.insertParams k v₁ hf put, .insertParams k v₂ hf put, .getParams k false]).2 = [.inserted true, .inserted true, .params (some (some v₂))] := by
  simp [memRun, memStep, mapGet_mapSet]

example : (memRun (⟨[], []⟩ : MemState ℕ ℕ) [.insertParams ["a"] 1 false .stored, .insertParams ["b"] 2 false .stored, .getParams ["a"] false,
    .getOrInit ["m"] (some 5) false .stored, .getOrInit ["m"] none false .stored]).2 =
    [.inserted true, .inserted true, .params (some (some 1)), .model (some 5), .model (some 5)] := by rfl

/-! ### C52: the file cache -/

/-- C52 is false: with the file cache enabled the store never returns a value. Starting from an empty cache directory and any bucket, over every history of operations and
failures, no read returns parameters and no call returns a model: the path of the file is first created as a directory, and then written to. -/
theorem C52_cache_returns_nothing_false (cp : Codec P B) (cm : Codec M B) (objects : List (List String × B)) (ops : List (StoreOp P M)) (hkeys : ∀ op ∈ ops, op.key ≠ []) :
    ∀ r ∈ (s3Run cp cm ⟨objects, some []⟩ ops).2, (∀ v, r ≠ .params (some (some v))) ∧ ∀ m, r ≠ .model (some m) :=
  (s3Run_cached cp cm ops ⟨objects, some []⟩ [] rfl (by intro p b; simp [mapGet]) hkeys).2

/-- C52 is false already for one insertion and one read: without the cache they succeed, with it both fail, for every key and value. -/
theorem C52_insert_get_false (cp : Codec P B) (cm : Codec M B) (hround : ∀ v, cp.dec (cp.enc v) = some v) (k : List String) (hk : k ≠ []) (v : P) :
    (s3Run cp cm ⟨[], none⟩ [.insertParams k v false .stored, .getParams k false]).2 = [.inserted true, .params (some (some v))] ∧
    (s3Run cp cm ⟨[], some []⟩ [.insertParams k v false .stored, .getParams k false]).2 = [.inserted false, .params none] := by
  constructor
  · simp [s3Run, s3Step, s3InsertParams, s3InsertCache, s3InsertCheck, s3Put, s3GetParams, cacheGet, cacheFill, mapGet_mapSet, hround, mapGet]
  · obtain ⟨fs', e, hn, hd⟩ := cacheFill_fails (s := (⟨[], some []⟩ : S3State B)) rfl (by intro p b; simp [mapGet]) k hk (cp.enc v)
    have e₁ : s3Step cp cm ⟨[], some []⟩ (.insertParams k v false .stored) = (⟨[], some fs'⟩, .inserted false) := by
      simp [s3Step, s3InsertParams, s3InsertCache, fsExists, mapGet, e]
    have e₂ : s3Step cp cm ⟨[], some fs'⟩ (.getParams k false) = (⟨[], some fs'⟩, .params none) := by
      simp [s3Step, s3GetParams, cacheGet, fsExists, hd, fsRead]
    simp only [s3Run, e₁, e₂]

/-- C52 is false in a third way: a retried insertion stores the value in S3, but this worker still cannot read it. -/
theorem C52_retry_false (cp : Codec P B) (cm : Codec M B) (hround : ∀ v, cp.dec (cp.enc v) = some v) (k : List String) (hk : k ≠ []) (v : P) :
    (s3Run cp cm ⟨[], some []⟩ [.insertParams k v false .stored, .insertParams k v false .stored, .getParams k false]).2 =
      [.inserted false, .inserted true, .params none] ∧
    (s3GetParams cp k false ⟨(s3Run cp cm ⟨[], some []⟩ [.insertParams k v false .stored, .insertParams k v false .stored]).1.objects, none⟩).2 = some (some v) := by
  obtain ⟨fs', e, hn, hd⟩ := cacheFill_fails (s := (⟨[], some []⟩ : S3State B)) rfl (by intro p b; simp [mapGet]) k hk (cp.enc v)
  have e₁ : s3Step cp cm ⟨[], some []⟩ (.insertParams k v false .stored) = (⟨[], some fs'⟩, .inserted false) := by
    simp [s3Step, s3InsertParams, s3InsertCache, fsExists, mapGet, e]
  have e₂ : s3Step cp cm ⟨[], some fs'⟩ (.insertParams k v false .stored) = (⟨[(k, cp.enc v)], some fs'⟩, .inserted true) := by
    simp [s3Step, s3InsertParams, s3InsertCache, s3InsertCheck, s3Put, mapGet, fsExists, hd, mapSet]
  have e₃ : s3Step cp cm ⟨[(k, cp.enc v)], some fs'⟩ (.getParams k false) = (⟨[(k, cp.enc v)], some fs'⟩, .params none) := by
    simp [s3Step, s3GetParams, cacheGet, fsExists, hd, fsRead]
  constructor
  · simp only [s3Run, e₁, e₂, e₃]
  · simp only [s3Run, e₁, e₂]
    simp [s3GetParams, cacheGet, mapGet, hround, cacheFill]

/-- Whether a result is an error. -/
def isError : StoreRes P M → Prop
  | .params r => r = none
  | .inserted ok => ok = false
  | .model r => r = none

/-- C52, the part that holds: in every state a store with a cache can get into, an operation either fails or gives the result, and the change of the bucket, that it would
without the cache. -/
theorem C52_same_or_error_partial (cp : Codec P B) (cm : Codec M B) (objects : List (List String × B)) (ops : List (StoreOp P M)) (hkeys : ∀ op ∈ ops, op.key ≠ [])
    (op : StoreOp P M) (hk : op.key ≠ []) (s : S3State B) (hs : s = (s3Run cp cm ⟨objects, some []⟩ ops).1) :
    isError (s3Step cp cm s op).2 ∨
      ((s3Step cp cm s op).2 = (s3Step cp cm ⟨s.objects, none⟩ op).2 ∧ (s3Step cp cm s op).1.objects = (s3Step cp cm ⟨s.objects, none⟩ op).1.objects) := by
  obtain ⟨⟨fs, h₁, h₂⟩, -⟩ := s3Run_cached cp cm ops ⟨objects, some []⟩ [] rfl (by intro p b; simp [mapGet]) hkeys
  rw [← hs] at h₁
  obtain ⟨-, hp, hm⟩ := s3Step_cached cp cm h₁ h₂ op hk
  cases op with
  | getParams k fault =>
    simp only [s3Step, s3GetParams, cacheGet_noFiles cp h₁ h₂ k] at hp ⊢
    by_cases he : fsExists k fs
    · left; simp [he, isError]
    · simp only [he, Bool.false_eq_true, if_false] at hp ⊢
      cases fault with
      | true => left; simp [isError]
      | false =>
        simp only [Bool.false_eq_true, if_false] at hp ⊢
        cases hg : mapGet k s.objects with
        | none => right; simp [cacheGet, hg]
        | some b =>
          left
          cases hd : cp.dec b with
          | none => simp [isError, hd]
          | some v =>
            obtain ⟨fs', e, -⟩ := cacheFill_fails h₁ h₂ k hk b
            simp [isError, hd, e]
  | insertParams k v hf put =>
    by_cases he : fsExists k fs
    · right
      cases hf <;> cases hg : mapGet k s.objects <;> cases put <;> simp [s3Step, s3InsertParams, s3InsertCache, h₁, he, s3InsertCheck, hg, s3Put]
    · left
      obtain ⟨fs', e, -⟩ := cacheFill_fails h₁ h₂ k hk (cp.enc v)
      simp [s3Step, s3InsertParams, s3InsertCache, h₁, he, e, isError]
  | getOrInit k init fault put =>
    left
    cases hr : (s3Step cp cm s (.getOrInit k init fault put)).2 with
    | params r => simp [s3Step] at hr
    | inserted r => simp [s3Step] at hr
    | model r =>
      cases r with
      | none => simp [isError]
      | some m => exact absurd hr (hm m)

/-- The hypothesis is met, and both cases occur: a read of an absent key agrees with the store without a cache, an insertion fails. -/
example : (s3Run (plain ℕ) (plain ℕ) ⟨[], some []⟩ [.getParams ["Params", "1", "A"] false, .insertParams ["Params", "1", "A"] 7 false .stored]).2 =
    [.params (some none), .inserted false] := by rfl

/-! ### C53: keys -/

/-- C53. Model keys: requests whose model file hash, scaling strategy or input hash differ have different keys, if the hashes are not empty and the percent encoding of path
segments is injective. -/
theorem C53_model_keys_partial (encode : String → String) (hinj : Function.Injective encode) (hempty : ∀ s, encode s = "" ↔ s = "") (h₁ h₂ : String) (n₁ : h₁ ≠ "") (n₂ : h₂ ≠ "")
    (s₁ s₂ : ScalingKind) (i₁ i₂ : Option String) (e₁ : i₁ ≠ some "") (e₂ : i₂ ≠ some "") (h : modelKey encode h₁ s₁ i₁ = modelKey encode h₂ s₂ i₂) :
    h₁ = h₂ ∧ s₁ = s₂ ∧ i₁ = i₂ := by
  have hne : ∀ s, s ≠ "" → encode s ≠ "" := fun s hs he => hs ((hempty s).mp he)
  have hd : ∀ s : ScalingKind, encode s.display ≠ "" := fun s => hne _ (by cases s <;> decide)
  have hm : encode "Model" ≠ "" := hne _ (by decide)
  have hdisp : ∀ a b : ScalingKind, a.display = b.display → a = b := by
    intro a b; cases a <;> cases b <;> simp [ScalingKind.display]
  cases i₁ with
  | none =>
    cases i₂ with
    | none =>
      simp [modelKey, storePath, hm, hne _ n₁, hne _ n₂, hd] at h
      exact ⟨hinj h.1, hdisp _ _ (hinj h.2), rfl⟩
    | some b =>
      have hb : b ≠ "" := fun e => e₂ (by rw [e])
      simp [modelKey, storePath, hm, hne _ n₁, hne _ n₂, hd, hne _ hb] at h
  | some a =>
    have ha : a ≠ "" := fun e => e₁ (by rw [e])
    cases i₂ with
    | none => simp [modelKey, storePath, hm, hne _ n₁, hne _ n₂, hd, hne _ ha] at h
    | some b =>
      have hb : b ≠ "" := fun e => e₂ (by rw [e])
      simp [modelKey, storePath, hm, hne _ n₁, hne _ n₂, hd, hne _ ha, hne _ hb] at h
      exact ⟨hinj h.1, hdisp _ _ (hinj h.2.1), by rw [hinj h.2.2]⟩

/-- C53. Parameter keys: different package versions or model file hashes have different keys. -/
theorem C53_params_keys (encode : String → String) (hinj : Function.Injective encode) (hempty : ∀ s, encode s = "" ↔ s = "") (m₁ m₂ h₁ h₂ : String) (hm₁ : m₁ ≠ "") (hm₂ : m₂ ≠ "")
    (n₁ : h₁ ≠ "") (n₂ : h₂ ≠ "") (h : paramsKey encode m₁ h₁ = paramsKey encode m₂ h₂) : m₁ = m₂ ∧ h₁ = h₂ := by
  have hne : ∀ s, s ≠ "" → encode s ≠ "" := fun s hs he => hs ((hempty s).mp he)
  simp [paramsKey, storePath, hne _ hm₁, hne _ hm₂, hne _ n₁, hne _ n₂, hne "Params" (by decide)] at h
  exact ⟨hinj h.1, hinj h.2⟩

/-- C53. A parameter key is never a model key, whatever the hashes. -/
theorem C53_kinds (encode : String → String) (hinj : Function.Injective encode) (hempty : ∀ s, encode s = "" ↔ s = "") (major h₁ h₂ : String) (s : ScalingKind) (i : Option String) :
    paramsKey encode major h₁ ≠ modelKey encode h₂ s i := by
  have hne : ∀ s, s ≠ "" → encode s ≠ "" := fun s hs he => hs ((hempty s).mp he)
  intro h
  have hh := congrArg List.head? h
  have e₁ : (paramsKey encode major h₁).head? = some (encode "Params") := by
    simp [paramsKey, storePath, hne "Params" (by decide)]
  have e₂ : (modelKey encode h₂ s i).head? = some (encode "Model") := by
    cases i <;> simp [modelKey, storePath, hne "Model" (by decide)]
  rw [e₁, e₂, Option.some.injEq] at hh
  exact absurd (hinj hh) (by decide)

/-- The hypotheses are met by an encoding and by keys of two requests. -/
example : Function.Injective (id : String → String) ∧ (∀ s : String, id s = "" ↔ s = "") ∧ modelKey id "A1" .absoluteMax (some "B2") = ["Model", "A1", "AbsoluteMax", "B2"] ∧
    modelKey id "A1" .absoluteMax none = ["Model", "A1", "AbsoluteMax"] ∧ paramsKey id "1" "A1" = ["Params", "1", "A1"] :=
  ⟨fun _ _ h => h, fun _ => Iff.rfl, by decide, by decide, by decide⟩

/-- C53 is false for requests that differ in the scaling input hash being absent or empty. -/
theorem C53_empty_hash_false (encode : String → String) (hempty : encode "" = "") (h : String) (s : ScalingKind) : modelKey encode h s (some "") = modelKey encode h s none := by
  simp [modelKey, storePath, hempty, List.filter_cons]

end Props
