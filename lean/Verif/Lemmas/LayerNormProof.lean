import Verif.Model.LayerNormProof
import Verif.Spec.LayerNormProof
import Verif.Lemmas.SoftmaxProof

namespace Lemmas
open Model Spec

variable {F : Type} [Field F] [DecidableEq F] {C : Type}

theorem normSums_length (n v : ℕ) (X : List F) : (normSums n v X).length = 2 ^ n := by simp [normSums]

theorem mle_take (v : ℕ) (t p : List F) (hv : v ≤ p.length) : mle ((List.range (2 ^ p.length)).map fun w => t.getD (w % 2 ^ v) 0) p = mle t (p.take v) := by
  obtain ⟨a, b, rfl, ha⟩ : ∃ a b, p = a ++ b ∧ a.length = v := ⟨p.take v, p.drop v, (List.take_append_drop _ _).symm, by rw [List.length_take]; omega⟩
  subst ha
  rw [List.take_left, mle_append_sum]
  have : ∀ i ∈ Finset.range (2 ^ b.length), (∑ j ∈ Finset.range (2 ^ a.length), ((List.range (2 ^ (a ++ b).length)).map fun w => t.getD (w % 2 ^ a.length) 0).getD (i * 2 ^ a.length + j) 0 * chi a j)
      = mle t a := by
    intro i hi
    unfold mle
    apply Finset.sum_congr rfl
    intro j hj
    have hj' := Finset.mem_range.mp hj
    have hi' := Finset.mem_range.mp hi
    have hlt : i * 2 ^ a.length + j < 2 ^ (a ++ b).length := by
      rw [List.length_append, pow_add, mul_comm (2 ^ a.length) (2 ^ b.length)]
      have := Nat.mul_le_mul_right (2 ^ a.length) (Nat.succ_le_of_lt hi')
      rw [Nat.succ_mul] at this
      omega
    rw [getD_range_map' _ _ _ _ hlt, mul_add_mod' hj']
  rw [Finset.sum_congr rfl fun i hi => by rw [this i hi]]
  rw [← Finset.mul_sum, sum_chi b, mul_one]

theorem weightedSum_cubeSum (n : ℕ) : ∀ (w : List F) (l : List (List F → F)), cubeSum n (fun pt => weightedSum w (l.map fun g => g pt)) = weightedSum w (l.map fun g => cubeSum n g) := by
  intro w
  induction w with
  | nil => intro l; simp [weightedSum, cubeSum]
  | cons a w ih =>
    intro l
    cases l with
    | nil => simp [weightedSum, cubeSum]
    | cons g l =>
      have := ih l
      unfold weightedSum at this ⊢
      simp only [List.map_cons, List.zipWith_cons_cons, List.sum_cons]
      rw [cubeSum_add, cubeSum_mul, this]

theorem cubeSum_normAcc (w ip rp ein eout : List F) (rs : List (List F)) (n : ℕ) (hi : ip.length = n) (hr : rp.length = n) :
    cubeSum n (normAccSum w ip rp ein eout rs) = weightedSum w ([mle ein ip, mle eout ip] ++ rs.map fun t => mle t rp) := by
  have h := weightedSum_cubeSum n w ([fun pt => eqPoly ip pt * mle ein pt, fun pt => eqPoly ip pt * mle eout pt] ++ rs.map fun t => fun pt => eqPoly rp pt * mle t pt)
  have e1 : ∀ (r t : List F), r.length = n → cubeSum n (fun pt => eqPoly r pt * mle t pt) = mle t r := by
    intro r t h; rw [← h]; exact cubeSum_eqPoly_mle r t
  simp only [List.map_append, List.map_cons, List.map_nil, List.map_map, Function.comp_def, e1 _ _ hi, e1 _ _ hr] at h
  exact h

theorem mle_normSums (h2 : (2 : F) ≠ 0) (n v : ℕ) (X p : List F) (hp : p.length = n) (hv : v ≤ n) :
    mle (normSums n v X) p = 2 ^ v * mle X (List.replicate v (2 : F)⁻¹ ++ p.drop v) := by
  rw [← mle_blockSums h2, ← mle_drop v _ p (by omega)]
  unfold normSums
  rw [hp]
  congr 1
  apply List.map_congr_left
  intro w hw
  have hw' := List.mem_range.mp hw
  rw [blockSums, getD_range_map']
  · rfl
  · rw [List.length_drop, hp]
    apply Nat.div_lt_of_lt_mul
    rw [← pow_add]
    rwa [show v + (n - v) = n by omega]

/-- The sum of the third sumcheck. -/
theorem cubeSum_normInput (h2 : (2 : F) ≠ 0) (n v : ℕ) (hv : v ≤ n) (c : F) (iop X : List F) (hi : iop.length = n) :
    cubeSum n (normInputSum v c iop X) = (1 - c) * mle X iop + c * mle (normSums n v X) iop := by
  have e1 : ∀ (r t : List F), r.length = n → cubeSum n (fun pt => eqPoly r pt * mle t pt) = mle t r := by
    intro r t h; rw [← h]; exact cubeSum_eqPoly_mle r t
  unfold normInputSum
  rw [cubeSum_add, cubeSum_mul, cubeSum_mul, cubeSum_mul, e1 _ _ hi, e1 _ _ (by simp; omega), mle_normSums h2 n v X iop hi hv]

/-- The sum of the second sumcheck. -/
theorem cubeSum_normIo (h2 : (2 : F) ≠ 0) (n v m : ℕ) (hn : v + m = n) (A B G N mult : F) (sp lp X gamma beta eout : List F) (hs : sp.length = m) (hl : lp.length = n) :
    cubeSum n (normIoSum n v A B G N mult (List.replicate v (2 : F)⁻¹ ++ sp) lp X gamma beta eout)
      = A * mle (normVariance m v N mult X) sp + B * mle (normOutput n v N gamma beta X eout) lp + G * mle eout sp := by
  have hfl : (List.replicate v (2 : F)⁻¹ ++ sp).length = n := by rw [List.length_append, List.length_replicate, hs, hn]
  have e0 : ∀ (r : List F) (h : List F → F), r.length = n → cubeSum n (fun pt => eqPoly r pt * h pt) = mle ((List.range (2 ^ n)).map fun w => h (bitsPoint n w)) r := by
    intro r h hr
    subst hr
    exact cubeSum_eqPoly r h
  have h2v : (2 : F) ^ v ≠ 0 := pow_ne_zero _ h2
  have hmod : ∀ w, w < 2 ^ n → w / 2 ^ v < 2 ^ m := by
    intro w hw
    apply Nat.div_lt_of_lt_mul
    rw [← pow_add, hn]
    exact hw
  have hdrop : ∀ w < 2 ^ n, ∀ t : List F, mle t ((bitsPoint n w).drop v) = t.getD (w / 2 ^ v) 0 := by
    intro w hw t
    rw [← mle_drop v t _ (by rw [bitsPoint_length]; omega), bitsPoint_length, mle_bitsPoint _ _ w hw, getD_range_map' _ _ _ _ hw]
  have htake : ∀ w < 2 ^ n, ∀ t : List F, mle t ((bitsPoint n w).take v) = t.getD (w % 2 ^ v) 0 := by
    intro w hw t
    rw [← mle_take v t _ (by rw [bitsPoint_length]; omega), bitsPoint_length, mle_bitsPoint _ _ w hw, getD_range_map' _ _ _ _ hw]
  have hfull : ∀ t : List F, mle t (List.replicate v (2 : F)⁻¹ ++ sp) = mle ((List.range (2 ^ m)).map fun r => (∑ c ∈ Finset.range (2 ^ v), t.getD (r * 2 ^ v + c) 0) / 2 ^ v) sp := by
    intro t
    have h1 := mle_blockSums h2 v t sp
    rw [blockSums, mle_map_range _ _ _ rfl] at h1
    rw [mle_map_range _ _ _ hs]
    apply mul_left_cancel₀ h2v
    rw [← h1, hs, Finset.mul_sum]
    apply Finset.sum_congr rfl
    intro r _
    field_simp
  have hidx : ∀ r < 2 ^ m, ∀ c < 2 ^ v, r * 2 ^ v + c < 2 ^ n := by
    intro r hr c hc
    rw [← hn, pow_add, mul_comm (2 ^ v) (2 ^ m)]
    have := Nat.mul_le_mul_right (2 ^ v) (Nat.succ_le_of_lt hr)
    rw [Nat.succ_mul] at this
    omega
  unfold normIoSum
  rw [cubeSum_add, cubeSum_add, cubeSum_mul, cubeSum_mul, cubeSum_mul, cubeSum_mul, e0 _ (fun pt => N * 2 ^ v * mle X pt ^ 2 - mle (normSums n v X) pt ^ 2) hfl,
    e0 _ (fun pt => mle eout (pt.drop v) * mle gamma (pt.take v) * (N * mle X pt - mle (normSums n v X) pt) + mle beta (pt.take v)) hl, e0 _ (fun pt => mle eout (pt.drop v)) hfl, hfull, hfull]
  congr 1
  congr 1
  · congr 1
    rw [normVariance, mle_map_range _ _ _ hs, mle_map_range _ _ _ hs, Finset.mul_sum]
    apply Finset.sum_congr rfl
    intro r hr
    have hr' := Finset.mem_range.mp hr
    rw [← mul_assoc]
    congr 1
    congr 1
    rw [div_eq_iff h2v, Finset.sum_congr rfl (g := fun c => N * 2 ^ v * X.getD (r * 2 ^ v + c) 0 ^ 2 - normSum v X r ^ 2)]
    · rw [Finset.sum_sub_distrib, ← Finset.mul_sum, Finset.sum_const, Finset.card_range, nsmul_eq_mul]
      push_cast
      ring
    · intro c hc
      have hc' := Finset.mem_range.mp hc
      have hlt := hidx r hr' c hc'
      rw [getD_range_map' _ _ _ _ hlt, mle_bitsPoint _ _ _ hlt, mle_bitsPoint _ _ _ hlt, normSums, getD_range_map' _ _ _ _ hlt, mul_add_div' hc']
  · congr 2
    unfold normOutput
    apply List.map_congr_left
    intro w hw
    have hw' := List.mem_range.mp hw
    rw [hdrop w hw', htake w hw', htake w hw', mle_bitsPoint _ _ w hw', mle_bitsPoint _ _ w hw', normSums, getD_range_map' _ _ _ _ hw']
  · congr 1
    conv_rhs => unfold mle
    rw [mle_map_range _ _ _ hs, hs]
    apply Finset.sum_congr rfl
    intro r hr
    have hr' := Finset.mem_range.mp hr
    congr 1
    rw [div_eq_iff h2v, Finset.sum_congr rfl (g := fun _ => eout.getD r 0)]
    · rw [Finset.sum_const, Finset.card_range, nsmul_eq_mul]
      push_cast
      ring
    · intro c hc
      have hc' := Finset.mem_range.mp hc
      have hlt := hidx r hr' c hc'
      rw [getD_range_map' _ _ _ _ hlt, hdrop _ hlt, mul_add_div' hc']

theorem layerNormCalc_eq (k : ℕ) (eqs eqr e0 e1 : F) (rs rest rlc : List F) (hk : rs.length = k) (hrlc : 2 + k ≤ rlc.length) :
    layerNormCalc k eqs eqr rlc ([e0, e1] ++ rs ++ rest) = weightedSum rlc ([eqs * e0, eqs * e1] ++ rs.map fun e => eqr * e) := by
  have gen : ∀ (l w : List F) (k : ℕ) (a : F), l.length = k → ((((l ++ rest).zip (List.replicate k eqr)).zip w).foldl (fun acc x => acc + x.1.1 * x.1.2 * x.2) a)
      = a + weightedSum w (l.map fun e => eqr * e) := by
    intro l
    induction l with
    | nil => intro w k a hk; subst hk; simp [weightedSum]
    | cons x l ih =>
      intro w k a hk
      cases k with
      | zero => simp at hk
      | succ k =>
        cases w with
        | nil => simp [weightedSum]
        | cons y w =>
          have := ih w k (a + x * eqr * y) (by simpa using hk)
          simp only [List.cons_append, List.replicate_succ, List.zip_cons_cons, List.foldl_cons, this, weightedSum, List.map_cons, List.zipWith_cons_cons, List.sum_cons]
          ring
  unfold layerNormCalc
  match rlc, hrlc with
  | [], h => simp at h
  | [_], h => simp at h; omega
  | a :: b :: w, _ =>
    simp only [List.replicate_succ, List.replicate_zero, List.cons_append, List.nil_append, List.zip_cons_cons, List.foldl_cons]
    rw [gen rs w k _ hk]
    simp only [weightedSum, List.zipWith_cons_cons, List.sum_cons]
    ring

theorem claimsFold_eq : ∀ (l : List (Claim F)) (w : List F) (a : F), (l.zip w).foldl (fun acc x => acc + x.1.eval * x.2) a = a + weightedSum w (l.map Claim.eval) := by
  intro l
  induction l with
  | nil => intro w a; simp [weightedSum]
  | cons x l ih =>
    intro w a
    cases w with
    | nil => simp [weightedSum]
    | cons y w =>
      simp only [List.zip_cons_cons, List.foldl_cons, ih, weightedSum, List.map_cons, List.zipWith_cons_cons, List.sum_cons]
      ring

theorem weightedSum_sub (w : List F) : ∀ (a b : List F), a.length = b.length → weightedSum w (List.zipWith (· - ·) a b) = weightedSum w a - weightedSum w b := by
  induction w with
  | nil => intro a b _; simp [weightedSum]
  | cons x w ih =>
    intro a b h
    match a, b, h with
    | [], [], _ => simp [weightedSum]
    | y :: a, z :: b, h =>
      have := ih a b (by simpa using h)
      unfold weightedSum at this ⊢
      simp only [List.zipWith_cons_cons, List.sum_cons, this]
      ring

theorem labelledN_length (T : Transcript F) (label : String) : ∀ (n : ℕ) (ts : T.State), (T.labelledN label n ts).1.length = n := by
  intro n
  induction n with
  | zero => intro ts; rfl
  | succ n ih => intro ts; simp only [Transcript.labelledN, List.length_cons, ih]

theorem layerNormRecombine_eq (bl : ℕ) (ctx : LayerNormCtx) (h2 : (2 : F) ≠ 0) (e0 e1 z : F) (rs : List F) (mid : List F) :
    layerNormRecombine bl ctx (rs.length + 1) ([e0, e1] ++ rs ++ mid ++ [z]) = some (2 ^ ctx.rangeBits * e0 + powerSum (2 ^ bl) rs + (2 ^ bl) ^ rs.length * (z / 2 ^ ctx.topLog)) := by
  have hne : ((2 ^ ctx.topLog : ℕ) : F) ≠ 0 := by push_cast; exact pow_ne_zero _ h2
  unfold layerNormRecombine checkedSub checkedInv
  rw [if_pos (by omega), if_neg hne, List.getLast?_concat]
  simp only [Option.bind_eq_bind, Option.bind_some, Nat.add_sub_cancel, List.cons_append, List.nil_append, List.getElem?_cons_zero, List.drop_succ_cons, List.drop_zero, List.append_assoc]
  rw [List.take_left, powerFold_eq]
  push_cast
  simp only [Option.some.injEq]
  rw [div_eq_mul_inv]
  ring

theorem mle_normRecombined (m bits bl top : ℕ) (ein : List F) (rs : List (List F)) (rl p : List F) (hp : p.length = m) :
    mle (normRecombined m bits bl top ein rs rl) p = 2 ^ bits * mle ein p + powerSum (2 ^ bl) (rs.map fun t => mle t p) + (2 ^ bl) ^ rs.length * (mle rl p / 2 ^ top) := by
  have hps : powerSum (2 ^ bl) (rs.map fun z => mle z p) = ∑ w ∈ Finset.range (2 ^ m), powerSum (2 ^ bl) (rs.map fun z => z.getD w 0) * chi p w := by
    clear *- hp
    induction rs with
    | nil => simp [powerSum]
    | cons z l ih =>
      simp only [List.map_cons, powerSum, ih, add_mul, Finset.sum_add_distrib, Finset.mul_sum]
      congr 1
      · unfold mle; rw [hp]
      · apply Finset.sum_congr rfl; intro w _; ring
  rw [normRecombined, mle_map_range m _ p hp, hps, div_eq_mul_inv]
  unfold mle
  rw [hp, Finset.mul_sum, Finset.sum_mul, Finset.mul_sum, ← Finset.sum_add_distrib, ← Finset.sum_add_distrib]
  apply Finset.sum_congr rfl
  intro w _
  rw [div_eq_mul_inv]
  ring

theorem buildVP_layerNorm' (heap : ℕ → Mle F) (n k : ℕ) (h : ∀ a, (heap a).numVars = n) (rlc : List F) :
    ∃ vp, buildVP heap n (layerNormTerms rlc (k + 1)) = some vp ∧ vp.maxDegree = 2 ∧ vp.flattened = List.range (5 + k) ∧ vp.maxNumVars = n ∧
      (∀ a, 5 + k ≤ a → vp.lookup.lookup a = none) ∧ vp.lookup.lookup 4 = some 4 := by
  induction k with
  | zero =>
    refine ⟨⟨2, n, [(rlc.getD 0 0, [0, 1]), (rlc.getD 1 0, [2, 1]), (rlc.getD 2 0, [3, 4])], [0, 1, 2, 3, 4], [(4, 4), (3, 3), (2, 2), (1, 1), (0, 0)]⟩, ?_, rfl, rfl, rfl, ?_, rfl⟩
    · simp [layerNormTerms, buildVP, VirtualPoly.addMleList, VirtualPoly.new, VirtualPoly.internList, VirtualPoly.intern, h, List.lookup]
    · intro a ha
      match a, ha with
      | a + 5, _ => simp [List.lookup]
  | succ k ih =>
    obtain ⟨⟨d, nv, pr, fl, lk⟩, h1, rfl, rfl, rfl, h5, h6⟩ := ih
    simp only at h5 h6
    refine ⟨⟨2, nv, pr ++ [(rlc.getD (3 + k) 0, [5 + k, 4])], List.range (5 + (k + 1)), (5 + k, 5 + k) :: lk⟩, ?_, rfl, rfl, rfl, ?_, ?_⟩
    · have ht : layerNormTerms rlc (k + 1 + 1) = layerNormTerms rlc (k + 1) ++ [(rlc.getD (3 + k) 0, [5 + k, 4])] := by
        unfold layerNormTerms
        simp only [Nat.add_sub_cancel]
        rw [List.range_succ, List.map_append, ← List.append_assoc]
        rfl
      unfold buildVP at h1 ⊢
      rw [ht, List.foldlM_append, h1]
      have hne : ((4 : ℕ) == 5 + k) = false := by rw [beq_eq_false_iff_ne]; omega
      simp [VirtualPoly.addMleList, VirtualPoly.internList, VirtualPoly.intern, h, h5 (5 + k) le_rfl, List.lookup_cons, h6, hne, ← add_assoc, List.range_succ]
    · intro a ha
      have hne : (a == 5 + k) = false := by rw [beq_eq_false_iff_ne]; omega
      rw [List.lookup_cons, hne]
      exact h5 a (by omega)
    · have hne : ((4 : ℕ) == 5 + k) = false := by rw [beq_eq_false_iff_ne]; omega
      rw [List.lookup_cons, hne]
      exact h6

/-- The virtual polynomial of the first sumcheck. -/
theorem buildVP_layerNorm (heap : ℕ → Mle F) (n k : ℕ) (h : ∀ a, (heap a).numVars = n) (rlc : List F) :
    ∃ vp, buildVP heap n (layerNormTerms rlc (k + 1)) = some vp ∧ vp.maxDegree = 2 ∧ vp.flattened = List.range (5 + k) := by
  obtain ⟨vp, h1, h2, h3, -⟩ := buildVP_layerNorm' heap n k h rlc
  exact ⟨vp, h1, h2, h3⟩

theorem buildVP_layerNormIo (heap : ℕ → Mle F) (n : ℕ) (h : ∀ a, (heap a).numVars = n) (c0 c1 c2 c3 c4 c5 : F) :
    ∃ vp, buildVP heap n [(c0, [0, 1, 1]), (c1, [0, 2, 2]), (c2, [3, 4, 1, 5]), (c3, [3, 4, 2, 5]), (c4, [3, 6]), (c5, [0, 5])] = some vp ∧ vp.maxDegree = 4 ∧ vp.flattened = [0, 1, 2, 3, 4, 5, 6] := by
  simp [buildVP, VirtualPoly.addMleList, VirtualPoly.new, VirtualPoly.internList, VirtualPoly.intern, h, List.lookup]

theorem buildVP_layerNormInput (heap : ℕ → Mle F) (n : ℕ) (h : ∀ a, (heap a).numVars = n) (c0 c1 : F) :
    ∃ vp, buildVP heap n [(c0, [0, 1]), (c1, [0, 2])] = some vp ∧ vp.maxDegree = 2 ∧ vp.flattened = [0, 1, 2] := by
  simp [buildVP, VirtualPoly.addMleList, VirtualPoly.new, VirtualPoly.internList, VirtualPoly.intern, h, List.lookup]

theorem weightedSum_map {α : Type} (d : α) (f : α → F) : ∀ (l : List α) (w : List F), weightedSum w (l.map f) = ((List.range l.length).map fun i => w.getD i 0 * f (l.getD i d)).sum := by
  intro l
  induction l with
  | nil => intro w; simp [weightedSum]
  | cons a l ih =>
    intro w
    rw [List.length_cons, List.range_succ_eq_map]
    simp only [List.map_cons, List.sum_cons, List.map_map]
    cases w with
    | nil =>
      have := ih []
      simp only [weightedSum, List.zipWith_nil_left, List.sum_nil, List.getD_nil, zero_mul, Function.comp_def, List.getD_cons_succ] at this ⊢
      rw [zero_add]
      exact this
    | cons y w =>
      have := ih w
      unfold weightedSum at this ⊢
      simp only [List.zipWith_cons_cons, List.sum_cons, this, List.getD_cons_zero, Function.comp_def, List.getD_cons_succ]

theorem layerNormTerms_val (heap : ℕ → Mle F) (w : List F) (k : ℕ) (pt : List F) :
    termsVal heap (layerNormTerms w (k + 1)) pt = w.getD 0 0 * (mle (heap 0).evals pt * mle (heap 1).evals pt) + w.getD 1 0 * (mle (heap 2).evals pt * mle (heap 1).evals pt)
      + w.getD 2 0 * (mle (heap 3).evals pt * mle (heap 4).evals pt) + ((List.range k).map fun i => w.getD (3 + i) 0 * (mle (heap (5 + i)).evals pt * mle (heap 4).evals pt)).sum := by
  unfold termsVal layerNormTerms
  rw [List.map_append, List.sum_append, List.map_map]
  simp only [List.map_cons, List.map_nil, List.prod_cons, List.prod_nil, List.sum_cons, List.sum_nil, Function.comp_def, mul_one, Nat.add_sub_cancel]
  ring

theorem layerNormTerms_sum (m : ℕ) (ein eout : List F) (r0 : List F) (rs : List (List F)) (ip rp w : List F) (hi : ip.length = m) (hr : rp.length = m) (pt : List F) (hp : pt.length = m) :
    termsVal (layerNormHeap m ein eout (r0 :: rs) ip rp) (layerNormTerms w (rs.length + 1)) pt = normAccSum w ip rp ein eout (r0 :: rs) pt := by
  rw [layerNormTerms_val]
  have e : ∀ i, (layerNormHeap m ein eout (r0 :: rs) ip rp (5 + i)).evals = rs.getD i ein := by
    intro i
    rw [Nat.add_comm 5 i]
    simp [layerNormHeap]
  simp only [e]
  have h0 : (layerNormHeap m ein eout (r0 :: rs) ip rp 0).evals = ein := rfl
  have h1 : (layerNormHeap m ein eout (r0 :: rs) ip rp 1).evals = computeBetas ip := rfl
  have h2 : (layerNormHeap m ein eout (r0 :: rs) ip rp 2).evals = eout := rfl
  have h3 : (layerNormHeap m ein eout (r0 :: rs) ip rp 3).evals = r0 := rfl
  have h4 : (layerNormHeap m ein eout (r0 :: rs) ip rp 4).evals = computeBetas rp := rfl
  rw [h0, h1, h2, h3, h4, mle_computeBetas ip pt (by omega), mle_computeBetas rp pt (by omega)]
  unfold normAccSum
  have hsplit : ∀ (w : List F) (a b c : F) (l : List F), weightedSum w (a :: b :: c :: l) = w.getD 0 0 * a + w.getD 1 0 * b + w.getD 2 0 * c + weightedSum (w.drop 3) l := by
    intro w a b c l
    match w with
    | [] => simp [weightedSum]
    | [_] => simp [weightedSum]
    | [_, _] => simp [weightedSum]
    | x :: y :: z :: w =>
      simp only [weightedSum, List.zipWith_cons_cons, List.sum_cons, List.getD_cons_zero, List.getD_cons_succ, List.drop_succ_cons, List.drop_zero]
      ring
  simp only [List.map_cons, List.cons_append, List.nil_append]
  rw [hsplit, weightedSum_map ein]
  have hs : ((List.range rs.length).map fun i => w.getD (3 + i) 0 * (mle (rs.getD i ein) pt * eqPoly rp pt)) = (List.range rs.length).map fun i => (w.drop 3).getD i 0 * (eqPoly rp pt * mle (rs.getD i ein) pt) := by
    apply List.map_congr_left
    intro i _
    rw [List.getD_eq_getElem?_getD (l := w.drop 3), List.getElem?_drop, List.getD_eq_getElem?_getD (l := w)]
    ring
  rw [hs]
  ring

theorem repeat_flatten (v m : ℕ) (g : List F) (hg : g.length = 2 ^ v) : (List.replicate (2 ^ m) g).flatten = (List.range (2 ^ (v + m))).map fun w => g.getD (w % 2 ^ v) 0 := by
  have := flatMap_range_map (2 ^ m) (2 ^ v) fun _ j => g.getD j 0
  rw [show 2 ^ (v + m) = 2 ^ m * 2 ^ v by rw [pow_add, mul_comm], ← this]
  have hgg : (List.range (2 ^ v)).map (fun j => g.getD j 0) = g := by
    apply list_ext_getD 0
    · simp [hg]
    · intro j hj
      rw [getD_range_map' _ _ _ _ (by simpa using hj)]
  rw [hgg]
  generalize 2 ^ m = q
  induction q with
  | zero => rfl
  | succ q ih => rw [List.replicate_succ', List.flatten_append, ih, List.range_succ, List.flatMap_append]; simp

theorem repeat_each (v m : ℕ) (t : List F) (ht : t.length = 2 ^ m) : (t.flatMap fun e => List.replicate (2 ^ v) e) = (List.range (2 ^ (v + m))).map fun w => t.getD (w / 2 ^ v) 0 := by
  have := flatMap_range_map (2 ^ m) (2 ^ v) fun i _ => t.getD i 0
  rw [show 2 ^ (v + m) = 2 ^ m * 2 ^ v by rw [pow_add, mul_comm], ← this]
  have htt : (List.range (2 ^ m)).map (fun j => t.getD j 0) = t := by
    apply list_ext_getD 0
    · simp [ht]
    · intro j hj
      rw [getD_range_map' _ _ _ _ (by simpa using hj)]
  conv_lhs => rw [← htt]
  rw [List.flatMap_map]
  congr 1
  funext i
  rw [List.map_const', List.length_range]

end Lemmas
