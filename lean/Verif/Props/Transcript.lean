import Verif.Lemmas.Transcript
import Verif.Props.LogUp

/-! Properties C56 and C57: what the challenges depend on. -/

namespace Props

open Model Spec Lemmas

/-! ### C56: the same challenges for the same history -/

section Basic

variable {F : Type} [Zero F]

/-- C56, one direction: two transcripts in the same state that absorb the same field elements and draw at the same places draw the same challenges and end in the same state,
however the history is divided into calls. -/
theorem C56_same_history (perm : List F → List F) (ofU64 : ℕ → F) (s : Duplex F) (a b : List (TranscriptOp F)) (h : absorbed ofU64 a = absorbed ofU64 b) :
    basicRun perm ofU64 s a = basicRun perm ofU64 s b := by
  rw [basicRun_flat, basicRun_flat, h]

example : absorbed (F := ℕ) id [.ext (1, 2), .challenge [65], .base [3]] = absorbed id [.base [1], .message [2], .base [65], .read, .message [3]] := by decide

/-- C56, the other direction: two histories of the same shape from a new transcript, after both of which something is absorbed since the last draw. If they differ in what was
absorbed then the next challenge is read from the images of two different inputs of the permutation, unless two different inputs met in the two runs have images that agree on
the four elements of the capacity. Missing: histories of different shapes, see `C56_padding_false`, and byte strings, see `C56_message_false`. -/
theorem C56_binding_partial (perm : List F → List F) (hp : ∀ l : List F, l.length = 8 → (perm l).length = 8) (ofU64 : ℕ → F) (label : List ℕ)
    (a b : List (TranscriptOp F)) (hshape : shape (absorbed ofU64 a) = shape (absorbed ofU64 b)) (hdiff : absorbed ofU64 a ≠ absorbed ofU64 b)
    (s t : Duplex F) (hs : (basicRun perm ofU64 (basicNew perm ofU64 label) a).1 = s) (ht : (basicRun perm ofU64 (basicNew perm ofU64 label) b).1 = t)
    (hsn : s.input ≠ []) (htn : t.input ≠ []) :
    (readChallenge perm s).1 = ((perm (nextInput s)).getD 3 0, (perm (nextInput s)).getD 2 0) ∧
    (readChallenge perm t).1 = ((perm (nextInput t)).getD 3 0, (perm (nextInput t)).getD 2 0) ∧
    (nextInput s ≠ nextInput t ∨
      CapCollision perm (permInputs perm (basicNew perm ofU64 label) (absorbed ofU64 a)) (permInputs perm (basicNew perm ofU64 label) (absorbed ofU64 b))) := by
  have h0 : DuplexOk (basicNew perm ofU64 label) := by
    have : ∀ (xs : List F) (s : Duplex F), DuplexOk s → DuplexOk (xs.foldl (duplexObserve perm) s) := by
      intro xs
      induction xs with
      | nil => intro s h; exact h
      | cons x xs ih => intro s h; exact ih _ (observe_ok perm hp s h x)
    exact this _ _ new_ok
  rw [basicRun_flat] at hs ht
  dsimp only at hs ht
  have hso := flat_ok perm hp (absorbed ofU64 a) _ h0
  have hto := flat_ok perm hp (absorbed ofU64 b) _ h0
  have hst := flat_same perm hp _ _ _ _ hshape h0 h0 ⟨rfl, rfl⟩
  have hbind := flat_binding perm hp _ h0 (absorbed ofU64 a) (absorbed ofU64 b) hshape
  rw [hs] at hso hst hbind
  rw [ht] at hto hst hbind
  have hread : ∀ u : Duplex F, DuplexOk u → u.input ≠ [] → (readChallenge perm u).1 = ((perm (nextInput u)).getD 3 0, (perm (nextInput u)).getD 2 0) := by
    intro u hu hn
    have hnd : needsDuplexing u = true := by
      cases hi : u.input with
      | nil => exact absurd hi hn
      | cons a l => simp [needsDuplexing, hi]
    have hl : (perm (nextInput u)).length = 8 := hp _ (by simp [nextInput]; have := hu.1; have := hu.2; omega)
    match hq : perm (nextInput u), hl with
    | [a₀, a₁, a₂, a₃, a₄, a₅, a₆, a₇], _ =>
      have e : duplexing perm u = ⟨[a₀, a₁, a₂, a₃, a₄, a₅, a₆, a₇], [], [a₀, a₁, a₂, a₃]⟩ := by
        have : perm (u.input ++ u.state.drop u.input.length) = [a₀, a₁, a₂, a₃, a₄, a₅, a₆, a₇] := hq
        simp [duplexing, this]
      have e1 : duplexSample perm u = (a₃, ⟨[a₀, a₁, a₂, a₃, a₄, a₅, a₆, a₇], [], [a₀, a₁, a₂]⟩) := by
        simp [duplexSample, hnd, e]
      have e2 : duplexSample perm (⟨[a₀, a₁, a₂, a₃, a₄, a₅, a₆, a₇], [], [a₀, a₁, a₂]⟩ : Duplex F) =
          (a₂, ⟨[a₀, a₁, a₂, a₃, a₄, a₅, a₆, a₇], [], [a₀, a₁]⟩) := by
        simp [duplexSample, needsDuplexing]
      simp [readChallenge, e1, e2]
  refine ⟨hread s hso hsn, hread t hto htn, ?_⟩
  by_contra hc
  push Not at hc
  obtain ⟨hc1, hc2⟩ := hc
  obtain ⟨g1, g2⟩ := List.append_inj hc1 hst.1
  have g3 := congrArg (List.drop (4 - t.input.length)) g2
  rw [List.drop_drop, List.drop_drop, hst.1, show t.input.length + (4 - t.input.length) = 4 by have := hto.2; omega] at g3
  rcases hbind g1 g3 with r | r
  · exact hdiff r
  · exact hc2 r

/-- Two histories to which the theorem applies, with a permutation that rotates. -/
example : let perm : List ℕ → List ℕ := fun l => l.rotate 3
    let a : List (TranscriptOp ℕ) := [.base [1, 2, 3, 4, 5], .read, .ext (6, 7)]
    let b : List (TranscriptOp ℕ) := [.base [1, 2, 9, 4, 5], .read, .ext (6, 7)]
    shape (absorbed id a) = shape (absorbed id b) ∧ absorbed id a ≠ absorbed id b ∧
    (basicRun perm id (basicNew perm id [109, 50]) a).1.input ≠ [] ∧ (basicRun perm id (basicNew perm id [109, 50]) b).1.input ≠ [] := by
  decide +kernel

/-- C56 fails across shapes: the sponge pads nothing, so absorbing the element the state already holds at the next position is not noticed by the next draw, nor by anything after it. -/
theorem C56_padding_false (perm : List F → List F) (hp : ∀ l : List F, l.length = 8 → (perm l).length = 8) (ofU64 : ℕ → F) (s : Duplex F)
    (hs : s.state.length = 8) (hi : s.input.length < 4) (hn : s.input ≠ []) (rest : List (TranscriptOp F)) :
    basicRun perm ofU64 s (.base [s.state.getD s.input.length 0] :: .read :: rest) = basicRun perm ofU64 s (.read :: rest) := by
  have hnd : needsDuplexing s = true := by
    cases h : s.input with
    | nil => exact absurd h hn
    | cons a l => simp [needsDuplexing, h]
  have := sample_observe_self perm hp s ⟨hs, hi⟩ hnd
  have e : readChallenge perm (duplexObserve perm s (s.state.getD s.input.length 0)) = readChallenge perm s := by
    unfold readChallenge
    rw [this]
  simp only [basicRun, basicStep, List.foldl_cons, List.foldl_nil, e]
  rfl

/-- In particular for the transcript every proof starts from, with the label `m2vec`: absorbing one to three zeros before the first challenge is not noticed. -/
theorem C56_padding_default_false (perm : List F → List F) (hp : ∀ l : List F, l.length = 8 → (perm l).length = 8) (ofU64 : ℕ → F) (n : ℕ) (hn : n ≤ 3)
    (rest : List (TranscriptOp F)) :
    basicRun perm ofU64 (basicNew perm ofU64 (labelBytes "m2vec")) (.base (List.replicate n 0) :: .read :: rest) =
      basicRun perm ofU64 (basicNew perm ofU64 (labelBytes "m2vec")) (.read :: rest) := by
  have hlab : bytesToField ofU64 (labelBytes "m2vec") = [ofU64 (leValue (labelBytes "m2vec"))] := by
    have : labelBytes "m2vec" = [109, 50, 118, 101, 99] := by decide +kernel
    rw [this]
    rfl
  have hnew : basicNew perm ofU64 (labelBytes "m2vec") = ⟨List.replicate 8 0, [ofU64 (leValue (labelBytes "m2vec"))], []⟩ := by
    unfold basicNew
    rw [hlab]
    simp [duplexObserve, duplexNew]
  rw [hnew]
  generalize ofU64 (leValue (labelBytes "m2vec")) = v
  have key : ∀ (l : List F), l ≠ [] → l.length < 4 →
      duplexSample perm (duplexObserve perm ⟨List.replicate 8 0, l, []⟩ 0) = duplexSample perm ⟨List.replicate 8 0, l, []⟩ := by
    intro l hl hl4
    have := sample_observe_self perm hp ⟨List.replicate 8 0, l, []⟩ ⟨by simp, hl4⟩ (by cases l <;> simp_all [needsDuplexing])
    rwa [show (List.replicate 8 (0 : F)).getD l.length 0 = 0 by
      rw [List.getD_eq_getElem?_getD, List.getElem?_replicate]; split <;> rfl] at this
  have step : ∀ (l : List F) (m : ℕ), l ≠ [] → l.length + m ≤ 4 →
      duplexSample perm ((List.replicate m 0).foldl (duplexObserve perm) ⟨List.replicate 8 0, l, []⟩) = duplexSample perm ⟨List.replicate 8 0, l, []⟩ := by
    intro l m
    induction m generalizing l with
    | zero => intro _ _; rfl
    | succ m ih =>
      intro hl hlm
      rw [show List.replicate (m + 1) (0 : F) = 0 :: List.replicate m 0 from rfl, List.foldl_cons]
      cases m with
      | zero => exact key l hl (by omega)
      | succ m =>
        have hobs : duplexObserve perm (⟨List.replicate 8 0, l, []⟩ : Duplex F) 0 = ⟨List.replicate 8 0, l ++ [0], []⟩ := by
          simp [duplexObserve]
          omega
        rw [← key l hl (by omega), hobs, ih (l ++ [0]) (by simp) (by simp; omega)]
  have e : readChallenge perm ((List.replicate n 0).foldl (duplexObserve perm) ⟨List.replicate 8 0, [v], []⟩) = readChallenge perm ⟨List.replicate 8 0, [v], []⟩ := by
    unfold readChallenge
    rw [step [v] n (by simp) (by simp; omega)]
  simp only [basicRun, basicStep, e]
  rfl

omit [Zero F] in
/-- C56 fails for byte strings: appending a zero byte to a message that does not fill its last block of eight is not noticed, nor is replacing a block by another with the same value in
the field. -/
theorem C56_message_false (ofU64 : ℕ → F) (bs : List ℕ) (h : bs.length % 8 ≠ 0) (ops : List (TranscriptOp F)) :
    absorbed ofU64 (.message (bs ++ [0]) :: ops) = absorbed ofU64 (.message bs :: ops) ∧
    absorbed ofU64 (.challenge (bs ++ [0]) :: ops) = absorbed ofU64 (.challenge bs :: ops) ∧
    ∀ cs : List ℕ, cs.length ≤ 8 → cs ≠ [] → ∀ ds : List ℕ, ds.length ≤ 8 → ds ≠ [] → ofU64 (leValue cs) = ofU64 (leValue ds) →
      absorbed ofU64 (.message cs :: ops) = absorbed ofU64 (.message ds :: ops) := by
  have e := bytesToField_zero ofU64 _ bs le_rfl h
  refine ⟨by simp [absorbed, e], by simp [absorbed, e], ?_⟩
  intro cs hc hc0 ds hd hd0 hv
  have one : ∀ l : List ℕ, l.length ≤ 8 → l ≠ [] → bytesToField ofU64 l = [ofU64 (leValue l)] := by
    intro l hl hl0
    rw [bytesToField_cons ofU64 l hl0, List.take_of_length_le hl, List.drop_of_length_le hl]
    rfl
  simp [absorbed, one cs hc hc0, one ds hd hd0, hv]

/-- Two blocks with the same value in the Goldilocks field: `1` and `1 + p`. -/
example : ((leValue [1] : ℕ) : ZMod 18446744069414584321) = ((leValue [2, 0, 0, 0, 255, 255, 255, 255] : ℕ) : ZMod 18446744069414584321) := by decide +kernel

omit [Zero F] in
/-- C56 for labels: two strings of ASCII characters other than the zero character that are absorbed in the same way are equal. -/
theorem C56_label (ofU64 : ℕ → F) (p : ℕ) (hp : 2 ^ 63 ≤ p) (hu : ∀ m n, m < p → n < p → ofU64 m = ofU64 n → m = n) (a b : List ℕ)
    (ha : ∀ c ∈ a, 0 < c ∧ c < 128) (hb : ∀ c ∈ b, 0 < c ∧ c < 128) (h : absorbed ofU64 [.message a] = absorbed ofU64 [.message b]) : a = b := by
  have : (bytesToField ofU64 a).map some = (bytesToField ofU64 b).map some := by simpa [absorbed] using h
  exact bytesToField_inj ofU64 p (by norm_num; omega) hu _ a b le_rfl ha hb (List.map_injective_iff.2 (Option.some_injective F) this)

example : (∀ c ∈ labelBytes "table_constant", 0 < c ∧ c < 128) ∧ (∀ c ∈ labelBytes "InverseSQRT", 0 < c ∧ c < 128) ∧
    absorbed (F := ℕ) id [.message (labelBytes "table_constant")] = [some 8026363850119078260, some 128017430246254] := by decide +kernel

end Basic

/-! ### C56 for the BLAKE3 transcript -/

/-- C56 fails for the BLAKE3 transcript: field elements are absorbed with as many bytes as they need and no length, so two different extension field elements are absorbed in the same
way, whatever the hash function, whatever came before and whatever comes after. -/
theorem C56_blake_ext_false {E : Type} (draw : List ℕ → E × List ℕ) (start : List ℕ) (pre post : List (TranscriptOp ℕ)) (a : ℕ) (h0 : 0 < a) (h1 : a < 256) :
    blakeRun draw start (pre ++ .ext (a, a + 256 * a) :: post) = blakeRun draw start (pre ++ .ext (a + 256 * a, a) :: post) ∧
    ((a, a + 256 * a) : ℕ × ℕ) ≠ (a + 256 * a, a) := by
  have e1 : leBytes a = [a] := by
    have := leBytes_leValue [a] (by simpa using h1) ⟨[], a, rfl, h0⟩
    simpa [leValue] using this
  have e2 : leBytes (a + 256 * a) = [a, a] := by
    have := leBytes_leValue [a, a] (by simpa using h1) ⟨[a], a, rfl, h0⟩
    simpa [leValue] using this
  refine ⟨?_, fun h => by have := (Prod.mk.inj h).1; omega⟩
  rw [blakeRun_append, blakeRun_append]
  simp [blakeRun, blakeStep, e1, e2]

example : leBytes 1 ++ leBytes 257 = leBytes 257 ++ leBytes 1 := by decide +kernel

/-- C56 fails for the BLAKE3 transcript between kinds of elements: one label is a prefix of the other, so a base field element is absorbed like an extension field element. The base field
element is smaller than `2^48`. -/
theorem C56_blake_kind_false {E : Type} (draw : List ℕ → E × List ℕ) (start : List ℕ) (pre post : List (TranscriptOp ℕ)) (a b : ℕ) (ha : 0 < a) (ha' : a < 256)
    (h0 : 0 < b) (h1 : b < 256) :
    blakeRun draw start (pre ++ .base [leValue (labelBytes "_ext" ++ [a, b])] :: post) = blakeRun draw start (pre ++ .ext (a, b) :: post) ∧
    leValue (labelBytes "_ext" ++ [a, b]) < 2 ^ 48 := by
  have hl : labelBytes "_ext" = [95, 101, 120, 116] := by decide +kernel
  have e0 : leBytes a = [a] := by
    have := leBytes_leValue [a] (by simpa using ha') ⟨[], a, rfl, ha⟩
    simpa [leValue] using this
  have e1 : leBytes b = [b] := by
    have := leBytes_leValue [b] (by simpa using h1) ⟨[], b, rfl, h0⟩
    simpa [leValue] using this
  have e2 : leBytes (leValue (labelBytes "_ext" ++ [a, b])) = labelBytes "_ext" ++ [a, b] := by
    refine leBytes_leValue _ ?_ ⟨labelBytes "_ext" ++ [a], b, by simp, h0⟩
    rw [hl]
    simp [ha', h1]
  have e3 : labelExt = labelBase ++ labelBytes "_ext" := by decide +kernel
  refine ⟨?_, ?_⟩
  · rw [blakeRun_append, blakeRun_append]
    simp [blakeRun, blakeStep, e0, e1, e2, e3]
  · rw [hl]
    simp [leValue]
    omega

/-! ### C57: the statement and the commitments -/

section Start

variable {F : Type}

/-- C57, the part that holds: the commitments to the weights are absorbed. Two contexts with equally many weights, whose digests have four elements, that are absorbed in the same way have
the same commitments to weights. Missing: everything else, see `C57_false` and `C57_forgery_false`. -/
theorem C57_weights_partial (ofU64 : ℕ → F) (ctx ctx' : StartCtx F) (io io' : PublicIO F) (proof proof' : StartProof F)
    (hd : ∀ r ∈ ctx.modelRoots, r.length = 4) (hd' : ∀ r ∈ ctx'.modelRoots, r.length = 4) (hn : ctx.modelRoots.length = ctx'.modelRoots.length)
    (h : absorbed ofU64 (verifierStart ctx io proof) = absorbed ofU64 (verifierStart ctx' io' proof')) : ctx.modelRoots = ctx'.modelRoots := by
  have pre : ∀ (rs : List (List F)) (ops : List (TranscriptOp F)), absorbed ofU64 (rs.map (fun r => TranscriptOp.base r) ++ ops) = rs.flatten.map some ++ absorbed ofU64 ops := by
    intro rs ops
    induction rs with
    | nil => rfl
    | cons r rs ih => simp [absorbed, ih]
  unfold verifierStart at h
  rw [List.append_assoc, List.append_assoc, pre, pre] at h
  have hlen : ∀ rs : List (List F), (∀ r ∈ rs, r.length = 4) → rs.flatten.length = 4 * rs.length := by
    intro rs hr
    induction rs with
    | nil => rfl
    | cons r rs ih => simp [hr r (by simp), ih fun x hx => hr x (by simp [hx])]; omega
  have h1 := (List.append_inj h (by simp only [List.length_map]; rw [hlen _ hd, hlen _ hd', hn])).1
  have h2 : ctx.modelRoots.flatten = ctx'.modelRoots.flatten := List.map_injective_iff.2 (Option.some_injective F) h1
  have flat : ∀ (as bs : List (List F)), (∀ r ∈ as, r.length = 4) → (∀ r ∈ bs, r.length = 4) → as.length = bs.length → as.flatten = bs.flatten → as = bs := by
    intro as
    induction as with
    | nil => intro bs _ _ hl _; exact (List.length_eq_zero_iff.1 hl.symm).symm
    | cons a as ih =>
      intro bs ha hb hl he
      cases bs with
      | nil => simp at hl
      | cons b bs =>
        simp only [List.flatten_cons] at he
        obtain ⟨g1, g2⟩ := List.append_inj he (by rw [ha a (by simp), hb b (by simp)])
        rw [g1, ih bs (fun x hx => ha x (by simp [hx])) (fun x hx => hb x (by simp [hx])) (by simpa using hl) g2]
  exact flat _ _ hd hd' hn h2

/-- C57, completeness of the start: if exactly the tables of the context are looked up, prover and verifier draw the same challenges before the first layer. -/
theorem C57_same_start [Zero F] (perm : List F → List F) (ofU64 : ℕ → F) (s : Duplex F) (ctx : StartCtx F) (io : PublicIO F) (proof : StartProof F) (used : List TableType)
    (hu : used = ctx.tables) :
    basicRun perm ofU64 s (verifierStart ctx io proof) = basicRun perm ofU64 s (proverStart ctx used io.output proof.witnessRoots) := by
  rw [hu]; rfl

/-- C57 fails: the state of the transcript and all challenges drawn when the first layer is verified are the same for every input, every output with the same numbers of elements, every
commitment to tables, every commitment to lookup witnesses and multiplicities, and everything else in the proof. -/
theorem C57_false [Zero F] (perm : List F → List F) (ofU64 : ℕ → F) (s : Duplex F) (ctx ctx' : StartCtx F) (io io' : PublicIO F) (proof proof' : StartProof F)
    (hroots : ctx.modelRoots = ctx'.modelRoots) (htables : ctx.tables = ctx'.tables) (hsize : io.output.map List.length = io'.output.map List.length) :
    basicRun perm ofU64 s (verifierStart ctx io proof) = basicRun perm ofU64 s (verifierStart ctx' io' proof') := by
  have : io.output.flatMap (fun out => List.replicate (Nat.log2 out.length) (TranscriptOp.read : TranscriptOp F)) =
      io'.output.flatMap (fun out => List.replicate (Nat.log2 out.length) (TranscriptOp.read : TranscriptOp F)) := by
    have h : ∀ l : List (List F), l.flatMap (fun out => List.replicate (Nat.log2 out.length) (TranscriptOp.read : TranscriptOp F)) =
        (l.map List.length).flatMap fun n => List.replicate (Nat.log2 n) TranscriptOp.read := by
      intro l; rw [List.flatMap_map]
    rw [h, h, hsize]
  unfold verifierStart
  rw [hroots, htables, this]

example : basicRun (fun l => l.rotate 3) id (basicNew (fun l => l.rotate 3) id (labelBytes "m2vec"))
      (verifierStart ⟨[[1, 2, 3, 4]], [], [.relu]⟩ ⟨[[1, 2]], [[3, 4, 5, 6]]⟩ ⟨[[5, 6, 7, 8]], []⟩) =
    basicRun (fun l => l.rotate 3) id (basicNew (fun l => l.rotate 3) id (labelBytes "m2vec"))
      (verifierStart ⟨[[1, 2, 3, 4]], [[9, 9, 9, 9]], [.relu]⟩ ⟨[[7, 7]], [[0, 0, 0, 1]]⟩ ⟨[[0, 0, 0, 0]], [1]⟩) := C57_false _ _ _ _ _ _ _ _ _ rfl rfl rfl

/-- The output column a dishonest prover commits to: with it every lookup has the fingerprint of the first row of the table. -/
def forgedColumn {E : Type} [Field E] (csc tin₀ tout₀ : E) (xs : List E) : List E := xs.map fun x => tout₀ + (tin₀ - x) / csc

/-- The multiplicities that go with it: all lookups at the first row. -/
def forgedMultiplicities {E : Type} [Field E] (n rows : ℕ) : List E := (n : E) :: List.replicate (rows - 1) 0

/-- C57 matters: a model with one two-column table. The two challenges of the lookup argument are known before anything is committed; whatever the input column of the lookups is, the
prover that knows them can commit to an output column and to multiplicities that pass the lookup test with these challenges, although no lookup whose input is not that of the first row
is in the table. (Compare `C15_sound`: for columns fixed before the challenges are drawn hardly any challenge passes.) The hypotheses say that the column challenge is not zero, that no row
of the table makes the test divide by zero, and that no other row has the fingerprint of the first. -/
theorem C57_forgery_false [Zero F] {E : Type} [Field E] [DecidableEq E] (toExt : F × F → E) (perm : List F → List F) (ofU64 : ℕ → F) (s : Duplex F)
    (ctx : StartCtx F) (hroots : ctx.modelRoots = []) (htab : ctx.tables = [.relu])
    (tin tout xs : List E) (k m : ℕ) (hx : xs.length = 2 ^ (k + 2)) (hin : tin.length = 2 ^ (m + 1)) (hout : tout.length = 2 ^ (m + 1)) :
    ∃ c csc : F × F, (∀ io proof, (basicRun perm ofU64 s (verifierStart ctx io proof)).2.take 2 = [c, csc]) ∧
      (toExt csc ≠ 0 → (∀ i < 2 ^ (m + 1), toExt c + fingerprint (toExt csc) (rowOf [tin, tout] i) ≠ 0) →
        (∀ i < 2 ^ (m + 1), fingerprint (toExt csc) (rowOf [tin, tout] i) = fingerprint (toExt csc) (rowOf [tin, tout] 0) → rowOf [tin, tout] i = rowOf [tin, tout] 0) →
        lookupTest [([xs, forgedColumn (toExt csc) (tin.getD 0 0) (tout.getD 0 0) xs], toExt csc)]
          [([tin, tout], forgedMultiplicities (2 ^ (k + 2)) (2 ^ (m + 1)), toExt csc)] (toExt c) = some true ∧
        ∀ j < 2 ^ (k + 2), xs.getD j 0 ≠ tin.getD 0 0 → ∀ i < 2 ^ (m + 1),
          rowOf [xs, forgedColumn (toExt csc) (tin.getD 0 0) (tout.getD 0 0) xs] j ≠ rowOf [tin, tout] i) := by
  have hdraw : ∃ c csc : F × F, ∀ io proof, (basicRun perm ofU64 s (verifierStart ctx io proof)).2.take 2 = [c, csc] := by
    refine ⟨(readChallenge perm ((bytesToField ofU64 (labelBytes "table_constant")).foldl (duplexObserve perm) s)).1,
      (readChallenge perm ((bytesToField ofU64 (labelBytes "Relu")).foldl (duplexObserve perm)
        (readChallenge perm ((bytesToField ofU64 (labelBytes "table_constant")).foldl (duplexObserve perm) s)).2)).1, fun io proof => ?_⟩
    simp only [verifierStart, hroots, htab, List.map_nil, List.nil_append, List.flatMap_cons, List.flatMap_nil, tableChallengeOp, List.append_nil, List.cons_append,
      basicRun, basicStep, if_neg (List.cons_ne_nil _ _), List.take_succ_cons, List.take_zero]
  obtain ⟨c, csc, hd⟩ := hdraw
  refine ⟨c, csc, hd, fun h0 hden hinj => ?_⟩
  generalize toExt c = α at *
  generalize toExt csc = β at *
  have hm : 0 < 2 ^ (m + 1) := Nat.two_pow_pos _
  obtain ⟨ys, hys⟩ : ∃ ys, ys = forgedColumn β (tin.getD 0 0) (tout.getD 0 0) xs := ⟨_, rfl⟩
  have hyl : ys.length = 2 ^ (k + 2) := by rw [hys]; simp [forgedColumn, hx]
  have hfp : ∀ j < 2 ^ (k + 2), fingerprint β (rowOf [xs, ys] j) = fingerprint β (rowOf [tin, tout] 0) := by
    intro j hj
    have hj' : j < xs.length := by omega
    have : ys.getD j 0 = tout.getD 0 0 + (tin.getD 0 0 - xs.getD j 0) / β := by
      rw [hys, forgedColumn]
      simp [List.getD, hj']
    simp only [rowOf, List.map_cons, List.map_nil, fingerprint, this, mul_zero, add_zero]
    field_simp
    ring
  rw [← hys]
  constructor
  · obtain ⟨b, h1, h2⟩ := lookupTest_iff [([xs, ys], β)] [([tin, tout], forgedMultiplicities (2 ^ (k + 2)) (2 ^ (m + 1)), β)] α
      (by
        intro x hx'
        rw [List.mem_singleton] at hx'
        subst hx'
        exact ⟨by simp, k, by simp [hx, hyl]⟩)
      (by
        intro x hx'
        rw [List.mem_singleton] at hx'
        subst hx'
        exact ⟨by simp, m, by simp [hin, hout], by simp [forgedMultiplicities]; omega⟩)
    rw [h1]
    congr 1
    rw [h2]
    have hle : lookupEntries ([xs, ys], β) = List.replicate (2 ^ (k + 2)) (-1, fingerprint β (rowOf [tin, tout] 0)) := by
      unfold lookupEntries
      simp only [List.headD_cons, hx]
      refine List.ext_getElem (by simp) fun j h1 h2 => ?_
      simp only [List.getElem_map, List.getElem_range, List.getElem_replicate]
      rw [hfp j (by simpa using h1)]
    obtain ⟨r, hr⟩ : ∃ r, 2 ^ (m + 1) = r + 1 := ⟨2 ^ (m + 1) - 1, by omega⟩
    have hte : tableEntries ([tin, tout], forgedMultiplicities (2 ^ (k + 2)) (2 ^ (m + 1)), β) =
        (((2 ^ (k + 2) : ℕ) : E), fingerprint β (rowOf [tin, tout] 0)) ::
          (List.range r).map fun i => (0, fingerprint β (rowOf [tin, tout] (i + 1))) := by
      unfold tableEntries forgedMultiplicities
      simp only [List.headD_cons, hin, hr, Nat.add_sub_cancel]
      rw [List.range_succ_eq_map, List.map_cons, List.zip_cons_cons, List.map_map]
      congr 1
      refine List.ext_getElem (by simp) fun j h1 h2 => ?_
      simp [Nat.succ_eq_add_one]
    have hall : allEntries [([xs, ys], β)] [([tin, tout], forgedMultiplicities (2 ^ (k + 2)) (2 ^ (m + 1)), β)] =
        List.replicate (2 ^ (k + 2)) (-1, fingerprint β (rowOf [tin, tout] 0)) ++ ((((2 ^ (k + 2) : ℕ) : E), fingerprint β (rowOf [tin, tout] 0)) ::
          (List.range r).map fun i => (0, fingerprint β (rowOf [tin, tout] (i + 1)))) := by
      simp [allEntries, hle, hte]
    rw [hall]
    refine ⟨?_, ?_⟩
    · intro e he
      rcases List.mem_append.1 he with h | h
      · rw [List.eq_of_mem_replicate h]; exact hden 0 hm
      · rcases List.mem_cons.1 h with rfl | h
        · exact hden 0 hm
        · obtain ⟨i, hi, rfl⟩ := List.mem_map.1 h
          exact hden (i + 1) (by have := List.mem_range.1 hi; omega)
    · have hz : ((List.range r).map fun i => (0 : E) / (α + fingerprint β (rowOf [tin, tout] (i + 1)))).sum = 0 := by simp
      have h00 := hden 0 hm
      simp only [withConst, fracSum, List.map_append, List.map_replicate, List.map_cons, List.map_map, Function.comp_def, List.sum_append, List.sum_cons, List.sum_replicate, hz,
        nsmul_eq_mul, add_zero]
      field_simp
      ring
  · intro j hj hne i hi heq
    have h1 := hinj i hi (by rw [← heq, hfp j hj])
    rw [← heq] at h1
    simp only [rowOf, List.map_cons, List.cons.injEq] at h1
    exact hne h1.1

/-- A four-row relu table and challenges 5 and 7: the column -1, 0, 1, 1 of inputs is given outputs that relu does not have. -/
example : lookupTest (F := ℚ) [([-1, 0, 1, 1], forgedColumn 7 (-2) 0 [-1, 0, 1, 1]) |> fun x => ([x.1, x.2], 7)]
    [([[-2, -1, 0, 1], [0, 0, 0, 1]], forgedMultiplicities 4 4, 7)] 5 = some true ∧
    (∀ i < 4, (5 : ℚ) + fingerprint 7 (rowOf [[-2, -1, 0, 1], [0, 0, 0, 1]] i) ≠ 0) ∧
    (∀ i < 4, fingerprint (7 : ℚ) (rowOf [[-2, -1, 0, 1], [0, 0, 0, 1]] i) = fingerprint 7 (rowOf [[-2, -1, 0, 1], [0, 0, 0, 1]] 0) →
      rowOf [[(-2 : ℚ), -1, 0, 1], [0, 0, 0, 1]] i = rowOf [[-2, -1, 0, 1], [0, 0, 0, 1]] 0) := by decide +kernel

end Start

end Props
