import Verif.Model.SoftmaxProof
import Verif.Spec.SoftmaxProof
import Verif.Lemmas.Attention
import Verif.Lemmas.LookupLayers
import Verif.Lemmas.Product
import Verif.Lemmas.Slices
import Verif.Lemmas.Tables
import Verif.Lemmas.Terms
import Verif.Lemmas.SamePoly

namespace Lemmas
open Model Spec

variable {F : Type} [Field F] [DecidableEq F] {C : Type}

theorem powerFold_eq (alpha : F) : ∀ (l : List F) (a c : F), l.foldl (fun (s : F × F) e => (s.1 + e * s.2, s.2 * alpha)) (a, c)
    = (a + c * powerSum alpha l, c * alpha ^ l.length) := by
  intro l
  induction l with
  | nil => intro a c; simp [powerSum]
  | cons x l ih =>
    intro a c
    simp only [List.foldl_cons, ih, powerSum, List.length_cons, pow_succ, Prod.mk.injEq]
    constructor <;> ring

theorem betaFold_eq (alpha beta : F) : ∀ (l : List F) (a c : F), betaFold alpha beta l (a, c) = (a + c * powerSum alpha (l.map fun e => beta * e), c * alpha ^ l.length) := by
  intro l
  unfold betaFold
  induction l with
  | nil => intro a c; simp [powerSum]
  | cons x l ih =>
    intro a c
    simp only [List.foldl_cons, ih, powerSum, List.length_cons, pow_succ, List.map_cons, Prod.mk.injEq]
    constructor <;> ring

theorem stepBy2_pairs {α β : Type} (f g : β → α) (l : List β) : stepBy2 (l.flatMap fun z => [f z, g z]) = l.map f := by
  induction l with
  | nil => rfl
  | cons z l ih => simp only [List.flatMap_cons, List.cons_append, List.nil_append, stepBy2, ih, List.map_cons]

theorem stepBy2_pairs_drop {α β : Type} (f g : β → α) (l : List β) : stepBy2 ((l.flatMap fun z => [f z, g z]).drop 1) = l.map g := by
  cases l with
  | nil => rfl
  | cons z l =>
    simp only [List.flatMap_cons, List.cons_append, List.nil_append, List.drop_succ_cons, List.drop_zero, List.map_cons]
    induction l generalizing z with
    | nil => rfl
    | cons y l ih => simp only [List.flatMap_cons, List.cons_append, List.nil_append, stepBy2, List.map_cons, ih y]

theorem softmaxCalc_eq (alpha eb rb zb fb lb mult e0 e1 e2 e3 e4 : F) (zs : List (F × F)) :
    softmaxCalc zs.length alpha eb rb zb fb lb mult ([e0, e1, e2, e3, e4] ++ zs.flatMap fun z => [z.1, z.2])
      = some (powerSum alpha ([eb * e0, eb * e1, rb * e2, rb * e3] ++ (zs.flatMap fun z => [zb * z.1, zb * z.2])
        ++ [mult * (fb * (e1 * (zs.map Prod.snd).prod)), lb * (e1 * (zs.map Prod.snd).prod)])) := by
  have hlen : ∀ l : List (F × F), (l.flatMap fun z => [zb * z.1, zb * z.2]).length = (l.flatMap fun z => [z.1, z.2]).length := by
    intro l; induction l with
    | nil => rfl
    | cons z l ih => simp [List.flatMap_cons]
  have hmap : (zs.flatMap fun z => [z.1, z.2]).map (fun e => zb * e) = zs.flatMap fun z => [zb * z.1, zb * z.2] := by
    rw [List.map_flatMap]; rfl
  have hp := stepBy2_pairs_drop (fun z : F × F => z.1) (fun z : F × F => z.2) zs
  unfold softmaxCalc
  simp only [List.cons_append, List.nil_append, List.getElem?_cons_succ, List.getElem?_cons_zero, Option.bind_eq_bind, Option.bind_some, List.take_succ_cons, List.take_zero, List.drop_succ_cons,
    List.drop_zero, powerFold_eq, betaFold_eq, hmap]
  rw [hp]
  cases zs with
  | nil =>
    simp only [List.length_nil, ne_eq, not_true_eq_false, if_false, List.flatMap_nil, List.nil_append, powerSum, List.map_cons, List.map_nil, List.length_cons, List.prod_nil,
      Option.some.injEq]
    ring
  | cons z l =>
    rw [if_pos (by simp)]
    simp only [powerSum, powerSum_append, hlen, List.map_cons, List.map_nil, List.length_cons, List.length_nil, Option.some.injEq, Prod.snd]
    ring

theorem softmaxRecombine_eq (zv tv : ℕ) (e0 e1 e2 e3 e4 : F) (zs : List (F × F)) :
    softmaxRecombine zs.length zv tv ([e0, e1, e2, e3, e4] ++ zs.flatMap fun z => [z.1, z.2])
      = some (e2 + 2 ^ 8 * e3 + 2 ^ 16 * e0 + 2 ^ (16 + tv) * powerSum (2 ^ zv) (zs.map Prod.fst)) := by
  have hp := stepBy2_pairs (fun z : F × F => z.1) (fun z : F × F => z.2) zs
  unfold softmaxRecombine
  simp only [List.cons_append, List.nil_append, List.getElem?_cons_succ, List.getElem?_cons_zero, Option.bind_eq_bind, Option.bind_some, List.drop_succ_cons,
    List.drop_zero, powerFold_eq]
  rw [hp]
  push_cast
  cases zs with
  | nil =>
    simp only [List.length_nil, ne_eq, not_true_eq_false, if_false, List.map_nil, powerSum, Option.some.injEq]
    ring
  | cons z l =>
    rw [if_pos (by simp)]
    simp only [Option.some.injEq]
    rw [show (fun z : F × F => z.1) = Prod.fst from rfl]
    ring

theorem chi_replicate_half (h2 : (2 : F) ≠ 0) : ∀ (e j : ℕ), j < 2 ^ e → 2 ^ e * chi (List.replicate e (2 : F)⁻¹) j = 1 := by
  intro e
  induction e with
  | zero => intro j hj; have : j = 0 := by simpa using hj
            subst this; simp [chi_nil]
  | succ e ih =>
    intro j hj
    rw [List.replicate_succ']
    have hh : 2 * (2 : F)⁻¹ = 1 := mul_inv_cancel₀ h2
    rcases Nat.lt_or_ge j (2 ^ e) with h | h
    · rw [(chi_snoc _ _ j (by rw [List.length_replicate]; exact h)).1]
      have := ih j h
      rw [pow_succ]
      linear_combination (2 * (1 - (2:F)⁻¹)) * this + (-1 : F) * hh
    · have hj' : j - 2 ^ e < 2 ^ e := by rw [pow_succ] at hj; omega
      have hc := (chi_snoc (List.replicate e (2 : F)⁻¹) (2 : F)⁻¹ (j - 2 ^ e) (by rw [List.length_replicate]; exact hj')).2
      rw [List.length_replicate] at hc
      rw [show 2 ^ e + (j - 2 ^ e) = j by omega] at hc
      rw [hc]
      have := ih _ hj'
      rw [pow_succ]
      linear_combination (2 * (2:F)⁻¹) * this + hh

theorem mle_blockSums (h2 : (2 : F) ≠ 0) (e : ℕ) (t q : List F) : mle (blockSums q.length e t) q = 2 ^ e * mle t (List.replicate e (2 : F)⁻¹ ++ q) := by
  rw [mle_append_sum, List.length_replicate, Finset.mul_sum, blockSums, mle_map_range _ _ _ rfl]
  apply Finset.sum_congr rfl
  intro i _
  rw [← mul_assoc]
  congr 1
  rw [Finset.mul_sum]
  apply Finset.sum_congr rfl
  intro j hj
  have := chi_replicate_half h2 e j (Finset.mem_range.mp hj)
  linear_combination (-(t.getD (i * 2 ^ e + j) 0)) * this

theorem mle_range_congr (n : ℕ) (f : ℕ → F) (t p : List F) (hp : p.length = n) (h : ∀ w < 2 ^ n, t.getD w 0 = f w) : mle t p = ∑ w ∈ Finset.range (2 ^ n), f w * chi p w := by
  unfold mle
  rw [hp]
  apply Finset.sum_congr rfl
  intro w hw
  rw [h w (Finset.mem_range.mp hw)]

theorem cubeSum_out (r : List F) (eout : List F) (zs : List (List F × List F)) :
    (cubeSum r.length fun pt => eqPoly r pt * (mle eout pt * (zs.map fun z => mle z.2 pt).prod)) = mle (softmaxOut r.length eout zs) r := by
  rw [cubeSum_eqPoly r fun pt => mle eout pt * (zs.map fun z => mle z.2 pt).prod]
  unfold softmaxOut
  congr 1
  apply List.map_congr_left
  intro w hw
  have hw' := List.mem_range.mp hw
  rw [mle_bitsPoint _ _ w hw']
  congr 2
  apply List.map_congr_left
  intro z _
  rw [mle_bitsPoint _ _ w hw']

theorem cubeSum_powerSum_append (n : ℕ) (a : F) (l m : List (List F → F)) :
    cubeSum n (fun pt => powerSum a ((l ++ m).map fun g => g pt)) = powerSum a (l.map fun g => cubeSum n g) + a ^ l.length * powerSum a (m.map fun g => cubeSum n g) := by
  rw [cubeSum_powerSum n a (l ++ m) fun g pt => g pt, List.map_append, powerSum_append, List.length_map]

/-- The sum of the function of the first sumcheck. -/
theorem cubeSum_softmaxSum (h2 : (2 : F) ≠ 0) (alpha : F) (n e : ℕ) (ep rp zp ap lp : List F) (he : ep.length = n) (hr : rp.length = n) (ha : e + ap.length = n) (hl : lp.length = n)
    (ein eout lo hi : List F) (zs : List (List F × List F)) (hz : zs ≠ [] → zp.length = n) :
    cubeSum n (softmaxSum alpha ep rp zp (List.replicate e (2 : F)⁻¹ ++ ap) lp (2 ^ e) ein eout lo hi zs)
      = powerSum alpha ([mle ein ep, mle eout ep, mle lo rp, mle hi rp] ++ (zs.flatMap fun z => [mle z.1 zp, mle z.2 zp])
        ++ [mle (blockSums ap.length e (softmaxOut n eout zs)) ap, mle (softmaxOut n eout zs) lp]) := by
  let G : List (List F → F) := [fun pt => eqPoly ep pt * mle ein pt, fun pt => eqPoly ep pt * mle eout pt, fun pt => eqPoly rp pt * mle lo pt, fun pt => eqPoly rp pt * mle hi pt]
      ++ (zs.flatMap fun z => [fun pt => eqPoly zp pt * mle z.1 pt, fun pt => eqPoly zp pt * mle z.2 pt])
      ++ [fun pt => 2 ^ e * (eqPoly (List.replicate e (2 : F)⁻¹ ++ ap) pt * (mle eout pt * (zs.map fun z => mle z.2 pt).prod)),
        fun pt => eqPoly lp pt * (mle eout pt * (zs.map fun z => mle z.2 pt).prod)]
  have hG : softmaxSum alpha ep rp zp (List.replicate e (2 : F)⁻¹ ++ ap) lp (2 ^ e) ein eout lo hi zs = fun pt => powerSum alpha (G.map fun g => g pt) := by
    funext pt
    simp only [softmaxSum, G, List.map_append, List.map_cons, List.map_nil, List.map_flatMap]
  have e1 : ∀ (r t : List F), r.length = n → cubeSum n (fun pt => eqPoly r pt * mle t pt) = mle t r := by
    intro r t h; rw [← h]; exact cubeSum_eqPoly_mle r t
  have e2 : ∀ (r : List F), r.length = n → cubeSum n (fun pt => eqPoly r pt * (mle eout pt * (zs.map fun z => mle z.2 pt).prod)) = mle (softmaxOut n eout zs) r := by
    intro r h; rw [← h]; exact cubeSum_out r eout zs
  rw [hG, cubeSum_powerSum n alpha G fun g pt => g pt]
  simp only [G, List.map_append, List.map_cons, List.map_nil, List.map_flatMap, e1 _ _ he, e1 _ _ hr, e2 _ hl, cubeSum_mul]
  rw [e2 _ (by rw [List.length_append, List.length_replicate, ha]), mle_blockSums h2]
  cases zs with
  | nil => rfl
  | cons z l =>
    have := hz (by simp)
    simp only [e1 _ _ this]

theorem mle_drop (e : ℕ) (t p : List F) (he : e ≤ p.length) : mle ((List.range (2 ^ p.length)).map fun w => t.getD (w / 2 ^ e) 0) p = mle t (p.drop e) := by
  obtain ⟨a, b, rfl, ha⟩ : ∃ a b, p = a ++ b ∧ a.length = e := ⟨p.take e, p.drop e, (List.take_append_drop _ _).symm, by rw [List.length_take]; omega⟩
  subst ha
  rw [List.drop_left, mle_append_sum]
  conv_rhs => unfold mle
  apply Finset.sum_congr rfl
  intro i hi
  rw [← mul_one (t.getD i 0), ← sum_chi a, Finset.mul_sum]
  congr 1
  apply Finset.sum_congr rfl
  intro j hj
  have hj' := Finset.mem_range.mp hj
  have hi' := Finset.mem_range.mp hi
  congr 1
  have hlt : i * 2 ^ a.length + j < 2 ^ (a ++ b).length := by
    rw [List.length_append, pow_add, mul_comm (2 ^ a.length) (2 ^ b.length)]
    have := Nat.mul_le_mul_right (2 ^ a.length) (Nat.succ_le_of_lt hi')
    rw [Nat.succ_mul] at this
    omega
  rw [List.getD_eq_getElem _ _ (by rw [List.length_map, List.length_range]; exact hlt), List.getElem_map, List.getElem_range, mul_add_div' hj']

theorem causal_tri (k a : ℕ) : causal (F := F) (k + k + a) k = (tri (2 ^ k) (2 ^ a) 0 (1 : F) 0).data := by
  have hlen : (2 : ℕ) ^ (k + k + a) = 2 ^ a * 2 ^ k * 2 ^ k := by rw [pow_add, pow_add]; ring
  rw [tri_data, causal, hlen]
  apply List.map_congr_left
  intro w _
  simp only [add_zero, Nat.cast_le]

theorem mle_causal (k a : ℕ) (pt : List F) (h : pt.length = k + k + a) :
    mle (causal (k + k + a) k) pt = evalZeroifier (pt.take k) ((pt.drop k).take k) := by
  have hsplit : pt = pt.take k ++ (pt.drop k).take k ++ (pt.drop k).drop k := by
    rw [List.append_assoc, List.take_append_drop, List.take_append_drop]
  rw [causal_tri]
  conv_lhs => rw [hsplit]
  rw [mle_tri k a 1 0 _ _ _ (by rw [List.length_take]; omega) (by rw [List.length_take, List.length_drop]; omega) (by rw [List.length_drop, List.length_drop]; omega)]
  ring

theorem getD_range_map' {α : Type} (d : α) (n w : ℕ) (f : ℕ → α) (h : w < n) : ((List.range n).map f).getD w d = f w := by
  rw [List.getD_eq_getElem _ _ (by simpa using h), List.getElem_map, List.getElem_range]

/-- The sum of the function of the second sumcheck. -/
theorem cubeSum_maskSum (n k e : ℕ) (he : e ≤ n) (sp : List F) (hs : sp.length = n) (scalar ninf : F) (X shift : List F) :
    cubeSum n (maskSum n k e sp scalar ninf X shift) = mle (maskedScores n k e scalar ninf X shift) sp := by
  subst hs
  unfold maskSum
  rw [cubeSum_eqPoly sp fun pt => mle (causal sp.length k) pt * (scalar * mle X pt + mle shift (pt.drop e)) + ninf * (1 - mle (causal sp.length k) pt)]
  congr 1
  unfold maskedScores
  apply List.map_congr_left
  intro w hw
  have hw' := List.mem_range.mp hw
  have hd := mle_drop e shift (bitsPoint sp.length w) (by rw [bitsPoint_length]; exact he)
  rw [bitsPoint_length, mle_bitsPoint _ _ w hw', getD_range_map' _ _ _ _ hw'] at hd
  rw [mle_bitsPoint _ _ w hw', mle_bitsPoint _ _ w hw', ← hd, causal, getD_range_map' _ _ _ _ hw']
  split <;> ring

/-- The recombined numbers at a point are the recombined evaluations. -/
theorem mle_recombined (n tv zv : ℕ) (ein lo hi : List F) (zs : List (List F × List F)) (p : List F) (hp : p.length = n) :
    mle (recombined n tv zv ein lo hi zs) p
      = mle lo p + 2 ^ 8 * mle hi p + 2 ^ 16 * mle ein p + 2 ^ (16 + tv) * powerSum (2 ^ zv) (zs.map fun z => mle z.1 p) := by
  have hps : powerSum (2 ^ zv) (zs.map fun z => mle z.1 p) = ∑ w ∈ Finset.range (2 ^ n), powerSum (2 ^ zv) (zs.map fun z => z.1.getD w 0) * chi p w := by
    induction zs with
    | nil => simp [powerSum]
    | cons z l ih =>
      simp only [List.map_cons, powerSum, ih, add_mul, Finset.sum_add_distrib, Finset.mul_sum]
      congr 1
      · unfold mle; rw [hp]
      · apply Finset.sum_congr rfl; intro w _; ring
  unfold recombined
  rw [mle_map_range n _ p hp, hps]
  unfold mle
  rw [hp, Finset.mul_sum, Finset.mul_sum, Finset.mul_sum, ← Finset.sum_add_distrib, ← Finset.sum_add_distrib, ← Finset.sum_add_distrib]
  apply Finset.sum_congr rfl
  intro w _
  ring

theorem eqPoly_comm' (x y : List F) : eqPoly x y = eqPoly y x := by
  induction x generalizing y with
  | nil => cases y <;> simp [eqPoly]
  | cons a x ih =>
    cases y with
    | nil => simp [eqPoly]
    | cons b y => rw [eqPoly, eqPoly, ih y]; ring

theorem eqXYEval_inv {x y : List F} {b : F} (he : eqXYEval x y = some b) : x ≠ [] ∧ x.length = y.length ∧ b = eqPoly x y := by
  by_cases hx : x ≠ [] ∧ x.length = y.length
  · rw [eqXYEval_eq x y hx.1 hx.2] at he
    exact ⟨hx.1, hx.2, (Option.some.inj he).symm⟩
  · unfold eqXYEval at he; rw [if_neg hx] at he; simp at he

theorem verifyLogups_length (T : Transcript F) : ∀ (l : List (LogUpProof F × (F × F) × ℕ)) (ts ts' : T.State) (claims : List (List (Claim F))),
    verifyLogups T l ts = some (claims, ts') → claims.length = l.length := by
  intro l
  induction l with
  | nil => intro ts ts' claims h; simp only [verifyLogups, Option.some.injEq, Prod.mk.injEq] at h; rw [← h.1]; rfl
  | cons x l ih =>
    obtain ⟨p, ⟨c, d⟩, i⟩ := x
    intro ts ts' claims h
    simp only [verifyLogups, Option.bind_eq_bind, Option.bind_eq_some_iff, Option.some.injEq] at h
    obtain ⟨⟨cl, fr, t1⟩, -, ⟨cs, t2⟩, h2, h3⟩ := h
    simp only [Prod.mk.injEq] at h3
    rw [← h3.1, List.length_cons, List.length_cons, ih _ _ _ h2]

/-- With tables of equal numbers of variables the virtual polynomial can always be built. -/
theorem buildVP_plain (heap : ℕ → Mle F) (n : ℕ) (h : ∀ a, (heap a).numVars = n) (terms : List (F × List ℕ)) (hne : ∀ t ∈ terms, t.2 ≠ []) : ∀ vp : VirtualPoly F, vp.maxNumVars = n →
    terms.foldlM (fun vp t => vp.addMleList heap t.2 t.1) vp
      = some (terms.foldl (fun vp t => let r := ({ vp with maxDegree := max vp.maxDegree t.2.length } : VirtualPoly F).internList t.2; { r.1 with products := r.1.products ++ [(t.1, r.2)] }) vp) := by
  have hint : ∀ (as : List ℕ) (vp : VirtualPoly F), (vp.internList as).1.maxNumVars = vp.maxNumVars := by
    intro as
    induction as with
    | nil => intro vp; rfl
    | cons a as ih =>
      intro vp
      simp only [VirtualPoly.internList]
      rw [ih]
      unfold VirtualPoly.intern
      split <;> rfl
  induction terms with
  | nil => intro vp _; rfl
  | cons t terms ih =>
    intro vp hvp
    obtain ⟨c, as⟩ := t
    have hne' : as ≠ [] := hne (c, as) (by simp)
    obtain ⟨a, l, rfl⟩ := List.exists_cons_of_ne_nil hne'
    have hstep : vp.addMleList heap (a :: l) c = some (let r := ({ vp with maxDegree := max vp.maxDegree (a :: l).length } : VirtualPoly F).internList (a :: l); { r.1 with products := r.1.products ++ [(c, r.2)] }) := by
      unfold VirtualPoly.addMleList
      dsimp only
      rw [if_pos (by simp [h, hvp])]
    rw [List.foldlM_cons, List.foldl_cons, hstep, Option.bind_eq_bind, Option.bind_some, ih (fun t ht => hne t (by simp [ht]))]
    show (VirtualPoly.internList _ _).1.maxNumVars = n
    rw [hint]
    exact hvp

/-- The addresses of the tables of a virtual polynomial, without its coefficients. -/
def internAddress (s : List ℕ × List (ℕ × ℕ)) (a : ℕ) : List ℕ × List (ℕ × ℕ) :=
  match s.2.lookup a with
  | some _ => s
  | none => (s.1 ++ [a], (a, s.1.length) :: s.2)

theorem internList_addresses : ∀ (as : List ℕ) (vp : VirtualPoly F), (vp.internList as).1.maxDegree = vp.maxDegree ∧
    ((vp.internList as).1.flattened, (vp.internList as).1.lookup) = as.foldl internAddress (vp.flattened, vp.lookup) := by
  intro as
  induction as with
  | nil => intro vp; exact ⟨rfl, rfl⟩
  | cons a as ih =>
    intro vp
    simp only [VirtualPoly.internList, List.foldl_cons]
    obtain ⟨h1, h2⟩ := ih (vp.intern a).1
    rw [h1, h2]
    have hi : (vp.intern a).1.maxDegree = vp.maxDegree ∧ ((vp.intern a).1.flattened, (vp.intern a).1.lookup) = internAddress (vp.flattened, vp.lookup) a := by
      unfold VirtualPoly.intern internAddress
      split
      · rename_i x hx
        dsimp only
        rw [hx]
        exact ⟨rfl, rfl⟩
      · rename_i hx
        dsimp only
        rw [hx]
        exact ⟨rfl, rfl⟩
    exact ⟨hi.1, by rw [hi.2]⟩

theorem buildVP_addresses (heap : ℕ → Mle F) (n : ℕ) (h : ∀ a, (heap a).numVars = n) (terms : List (F × List ℕ)) (hne : ∀ t ∈ terms, t.2 ≠ []) :
    (buildVP heap n terms).map (fun vp => (vp.maxDegree, vp.flattened))
      = some ((terms.map fun t => t.2.length).foldl max 0, ((terms.map Prod.snd).foldl (fun s as => as.foldl internAddress s) ([], [])).1) := by
  unfold buildVP
  rw [buildVP_plain heap n h _ hne _ rfl, Option.map_some, Option.some.injEq]
  suffices hg : ∀ (terms : List (F × List ℕ)) (vp : VirtualPoly F),
      let r := terms.foldl (fun vp t => let r := ({ vp with maxDegree := max vp.maxDegree t.2.length } : VirtualPoly F).internList t.2; { r.1 with products := r.1.products ++ [(t.1, r.2)] }) vp
      r.maxDegree = (terms.map fun t => t.2.length).foldl max vp.maxDegree ∧ (r.flattened, r.lookup) = (terms.map Prod.snd).foldl (fun s as => as.foldl internAddress s) (vp.flattened, vp.lookup) by
    obtain ⟨h1, h2⟩ := hg terms (VirtualPoly.new n)
    rw [h1]
    exact Prod.ext rfl (congrArg Prod.fst h2)
  intro terms
  induction terms with
  | nil => intro vp; exact ⟨rfl, rfl⟩
  | cons t terms ih =>
    intro vp
    simp only [List.foldl_cons, List.map_cons]
    obtain ⟨h1, h2⟩ := internList_addresses t.2 { vp with maxDegree := max vp.maxDegree t.2.length }
    obtain ⟨g1, g2⟩ := ih _
    refine ⟨g1.trans ?_, g2.trans ?_⟩
    · dsimp only
      rw [h1]
    · dsimp only
      rw [h2]

theorem buildVP_softmaxTerms (heap : ℕ → Mle F) (n K : ℕ) (hK : K ≤ 3) (h : ∀ a, (heap a).numVars = n) (alpha mult : F) :
    (buildVP heap n (softmaxTerms alpha mult K)).map (fun vp => (vp.maxDegree, vp.flattened)) = some (K + 2, if K = 0 then [0, 1, 2, 3, 4, 5, 6, 7, 9, 8] else List.range (10 + 3 * K)) := by
  rw [buildVP_addresses heap n h _ (by interval_cases K <;> simp [softmaxTerms, List.range_succ])]
  interval_cases K
  · simp only [softmaxTerms, if_true, List.map_append, List.map_cons, List.map_nil]
    decide +kernel
  · rw [softmaxTerms, if_neg (by omega)]
    simp only [List.map_append, List.map_cons, List.map_nil, List.map_map, Function.comp_def]
    decide +kernel
  · rw [softmaxTerms, if_neg (by omega)]
    simp only [List.map_append, List.map_cons, List.map_nil, List.map_map, Function.comp_def]
    decide +kernel
  · rw [softmaxTerms, if_neg (by omega)]
    simp only [List.map_append, List.map_cons, List.map_nil, List.map_map, Function.comp_def]
    decide +kernel

theorem softmaxTerms_short (alpha mult : F) (K : ℕ) (hK : K ≤ 3) : ∀ t ∈ softmaxTerms alpha mult K, t.2 ≠ [] ∧ t.2.length ≤ 5 := by
  interval_cases K <;> simp [softmaxTerms, List.range_succ]

theorem softmaxTables_length (n : ℕ) (ein eout lo hi : List F) (zs : List (List F × List F)) (ep rp zp fp lp : List F) (h1 : ein.length = 2 ^ n) (h2 : eout.length = 2 ^ n) (h3 : lo.length = 2 ^ n)
    (h4 : hi.length = 2 ^ n) (hz : ∀ z ∈ zs, z.1.length = 2 ^ n ∧ z.2.length = 2 ^ n) (hep : ep.length = n) (hrp : rp.length = n) (hzp : zs ≠ [] → zp.length = n) (hfp : fp.length = n) (hlp : lp.length = n) (a : ℕ) :
    ((softmaxTables ein eout lo hi zs ep rp zp fp lp).getD a eout).length = 2 ^ n := by
  have hall : ∀ t ∈ softmaxTables ein eout lo hi zs ep rp zp fp lp, t.length = 2 ^ n := by
    intro t ht
    unfold softmaxTables at ht
    simp only [List.mem_append, List.mem_cons, List.not_mem_nil, or_false, List.mem_map] at ht
    rcases ht with ((ht | ht) | ⟨z, hz', rfl⟩) | ht
    · rcases ht with rfl | rfl | rfl | rfl | rfl | rfl <;> simp [computeBetas_length, *]
    · cases zs with
      | nil => simp at ht
      | cons z l =>
        rw [List.isEmpty_cons, if_neg (by simp), List.mem_cons, List.mem_flatMap] at ht
        rcases ht with rfl | ⟨y, hy, ht⟩
        · rw [computeBetas_length, hzp (by simp)]
        · simp only [List.mem_cons, List.not_mem_nil, or_false] at ht
          rcases ht with rfl | rfl
          · exact (hz y hy).1
          · exact (hz y hy).2
    · exact (hz z hz').2
    · rcases ht with rfl | rfl | rfl | rfl <;> simp [computeBetas_length, *]
  rw [List.getD_eq_getElem?_getD]
  cases hg : (softmaxTables ein eout lo hi zs ep rp zp fp lp)[a]? with
  | none => simpa using h2
  | some t => exact hall t (List.mem_of_getElem? hg)

theorem termsVal_softmax (alpha : F) (mult : F) (n : ℕ) (ein eout lo hi : List F) (zs : List (List F × List F)) (hK : zs.length ≤ 3) (ep rp zp fp lp : List F) (hep : ep.length = n) (hrp : rp.length = n)
    (hzp : zs ≠ [] → zp.length = n) (hfp : fp.length = n) (hlp : lp.length = n) (pt : List F) (hpt : pt.length = n) :
    termsVal (fun a => ⟨n, (softmaxTables ein eout lo hi zs ep rp zp fp lp).getD a eout⟩) (softmaxTerms alpha mult zs.length) pt = softmaxSum alpha ep rp zp fp lp mult ein eout lo hi zs pt := by
  have b1 := mle_computeBetas ep pt (by omega)
  have b2 := mle_computeBetas rp pt (by omega)
  have b3 := mle_computeBetas fp pt (by omega)
  have b4 := mle_computeBetas lp pt (by omega)
  match zs, hK, hzp with
  | [], _, _ =>
    simp [termsVal, softmaxTerms, softmaxTables, softmaxSum, powerSum, b1, b2, b3, b4]
    ring
  | [z1], _, hzp =>
    have b5 := mle_computeBetas zp pt (by rw [hpt, hzp (by simp)])
    simp [termsVal, softmaxTerms, softmaxTables, softmaxSum, powerSum, b1, b2, b3, b4, b5, List.range_succ]
    ring
  | [z1, z2], _, hzp =>
    have b5 := mle_computeBetas zp pt (by rw [hpt, hzp (by simp)])
    simp [termsVal, softmaxTerms, softmaxTables, softmaxSum, powerSum, b1, b2, b3, b4, b5, List.range_succ]
    ring
  | [z1, z2, z3], _, hzp =>
    have b5 := mle_computeBetas zp pt (by rw [hpt, hzp (by simp)])
    simp [termsVal, softmaxTerms, softmaxTables, softmaxSum, powerSum, b1, b2, b3, b4, b5, List.range_succ]
    ring

theorem softmaxTables_evals (ein eout lo hi : List F) (zs : List (List F × List F)) (hK : zs.length ≤ 3) (ep rp zp fp lp pt : List F) :
    let ev := (if zs.length = 0 then [0, 1, 2, 3, 4, 5, 6, 7, 9, 8] else List.range (10 + 3 * zs.length)).map fun a => mle ((softmaxTables ein eout lo hi zs ep rp zp fp lp).getD a eout) pt
    ev[0]? = some (mle ein pt) ∧ ev[2]? = some (mle eout pt) ∧ ev[3]? = some (mle lo pt) ∧ ev[5]? = some (mle hi pt) ∧
      (ev.drop 7).take (2 * zs.length) = zs.flatMap fun z => [mle z.1 pt, mle z.2 pt] := by
  match zs, hK with
  | [], _ => simp [softmaxTables]
  | [z1], _ => simp [softmaxTables, List.range_succ]
  | [z1, z2], _ => simp [softmaxTables, List.range_succ]
  | [z1, z2, z3], _ => simp [softmaxTables, List.range_succ]

/-- The sums of the rows. -/
theorem chunks_blockSums (m k : ℕ) (t : List F) (h : t.length = 2 ^ (m + k)) : (chunks (2 ^ k) t).map List.sum = blockSums m k t := by
  rw [chunks_eq (2 ^ k) (2 ^ m) (Nat.two_pow_pos _) t (by rw [h, pow_add, mul_comm]), blockSums, List.map_map]
  apply List.map_congr_left
  intro i hi
  have hi' := List.mem_range.mp hi
  have hlen : ((t.drop (2 ^ k * i)).take (2 ^ k)).length = 2 ^ k := by
    rw [List.length_take, List.length_drop, h, pow_add]
    have := Nat.mul_le_mul_left (2 ^ k) (Nat.succ_le_of_lt hi')
    rw [Nat.mul_succ, mul_comm (2 ^ k) (2 ^ m)] at this
    omega
  have hs : ∀ l : List F, l.sum = ∑ c ∈ Finset.range l.length, l.getD c 0 := by
    intro l
    induction l with
    | nil => simp
    | cons x l ih => rw [List.sum_cons, List.length_cons, Finset.sum_range_succ', ih, add_comm]; simp
  dsimp only [Function.comp]
  rw [hs, hlen]
  apply Finset.sum_congr rfl
  intro c hc
  have hc' := Finset.mem_range.mp hc
  rw [List.getD_eq_getElem?_getD, List.getElem?_take_of_lt hc', List.getElem?_drop, List.getD_eq_getElem?_getD, mul_comm]

theorem buildVP_mask (heap : ℕ → Mle F) (n : ℕ) (h : ∀ a, (heap a).numVars = n) :
    buildVP heap n [(1, [0, 1, 3]), (1, [2, 3])] = some ⟨3, n, [(1, [0, 1, 2]), (1, [3, 2])], [0, 1, 3, 2], [(2, 3), (3, 2), (1, 1), (0, 0)]⟩ := by
  simp [buildVP, VirtualPoly.addMleList, VirtualPoly.new, VirtualPoly.internList, VirtualPoly.intern, h, List.lookup]

end Lemmas
