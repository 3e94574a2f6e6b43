import Verif.Model.ConvVerify
import Verif.Model.Terms
import Verif.Model.Fft

/-!
Model of the prover of the convolution layer: `prove_convolution_step`, convolution.rs:697-1076, the Fourier provers of
`iop/prover.rs:164-399`, and the data `fft_conv` records for them, tensor.rs:328-366 and 458-525.

Assertions that fail, indices out of range and inverses of zero are `none`. `debug_assert!` blocks are left out. Parallel iterators are
sequential.
-/

namespace Model

variable {F : Type} [Field F] [DecidableEq F]

/-- `ConvData`, tensor.rs:328-337, without `real_input`, which is used in debug assertions only. -/
structure ConvData (F : Type) where
  input : List (List F)
  inputFft : List (List F)
  prod : List (List F)
  output : List (List F)
  outputAsElement : List ℤ

/-- The data `fft_conv` returns beside the tensor, tensor.rs:458-510, with `ConvData::new`, 343-366. -/
def fftConvData (adicity : ℕ) (g : F) (toF : ℤ → F) (toE : F → ℤ) (f : FftFilter) (x : Tensor ℤ) : Option (ConvData F) := do
  let x1 ← x.shape[1]?
  let nx := nextPow2 x1
  let input := (chunks (nx * nx) (x.data.map toF)).map List.reverse
  let inputFft ← input.mapM fun c => fft adicity g false (resize (2 * nx * nx) 0 c)
  let kw ← f.shape[0]?
  let kx ← f.shape[1]?
  let nw ← f.shape[2]?
  let realNw ← f.ogShape[2]?
  let prod ← (List.range kw).mapM fun i =>
    (List.range kx).foldlM (convStep adicity g toF f inputFft kx nw realNw i) (List.replicate (2 * nw * nw) 0)
  let output ← prod.mapM (fft adicity g true)
  let us ← output.mapM fun u => indexU u nx
  some ⟨input, inputFft, prod, output, us.flatten.map toE⟩

/-- The proving data of `Convolution::op`, convolution.rs:325-329: `output_as_element` is replaced by the output with the bias. -/
def Conv.provingData (adicity : ℕ) (g : F) (toF : ℤ → F) (toE : F → ℤ) (c : Conv) (x : Tensor ℤ) : Option (ConvData F) := do
  let d ← fftConvData adicity g toF toE c.filter x
  let x1 ← x.shape[1]?
  let kw ← c.filter.shape[0]?
  let t ← Tensor.new [kw, nextPow2 x1, nextPow2 x1] d.outputAsElement
  let o ← addBias c.bias t
  some { d with outputAsElement := o.data }

/-- `phi_pow_init`, iop/prover.rs:215-227: the powers of the root of unity. -/
def phiPow (adicity : ℕ) (g : F) (n : ℕ) (isFft : Bool) : Option (List F) := do
  let rou ← rootOfUnity adicity g n
  some (twiddles (if isFft then rou⁻¹ else rou) (2 ^ n))

/-- The inner loop body of `phi_g_init`, iop/prover.rs:247-253 and 264-272. -/
def phiGStep (rx mul : List F) (n i : ℕ) (v : List F) (b : ℕ) : Option (List F) := do
  let m ← checkedSub n i
  let x ← rx[m]?
  let w ← mul[b <<< m]?
  let u ← v[b]?
  let v ← set? v (b ^^^ (1 <<< (i - 1))) (u * ((1 - x) - x * w))
  set? v b (u * ((1 - x) + x * w))

/-- One pass of the outer loop of `phi_g_init`, iop/prover.rs:245-259 and 262-276: the vector, and the intermediate vectors so far.
The copies are made for `i < n` only; in the second branch that always holds. -/
def phiGLevel (rx mul : List F) (n : ℕ) (s : List F × List (List F)) (i : ℕ) : Option (List F × List (List F)) := do
  let v ← (List.range (2 ^ (i - 1))).foldlM (phiGStep rx mul n i) s.1
  some (v, if i < n then s.2 ++ [v.take (2 ^ i)] else s.2)

/-- `phi_g_init`, iop/prover.rs:231-284, on a vector of `2^n` zeros. The write to `phi_g[1]`, line 244, is overwritten by the first pass. -/
def phiGInit (adicity : ℕ) (g : F) (rx : List F) (scale : F) (n : ℕ) (isFft : Bool) : Option (List F × List (List F)) := do
  let mul ← phiPow adicity g n isFft
  let v := (List.replicate (2 ^ n) (0 : F)).set 0 scale
  if isFft then
    (List.range' 1 n).foldlM (phiGLevel rx mul n) (v, [])
  else do
    let n1 ← checkedSub n 1
    let s ← (List.range' 1 n1).foldlM (phiGLevel rx mul n) (v, [])
    let x ← rx[0]?
    let v ← (List.range (2 ^ n1)).foldlM (fun v b => do
      let w ← mul[b]?
      let u ← v[b]?
      set? v b (u * ((1 - x) + x * w))) s.1
    some (v, s.2)

/-- The vector `phi`, iop/prover.rs:178-193, for the intermediate vector number `l` of `count`. -/
def delegatePhi (omegas r1 : List F) (isFft : Bool) (count l len : ℕ) (r2last : F) : Option (List F) := do
  let k ← checkedSub (count - 1) l
  let x ← r1[k]?
  (List.range len).mapM fun i => do
    let w ← omegas[i <<< k]?
    some (if isFft = false ∧ l = count - 1 then (1 - r2last) * (1 - x + x * w) else 1 - x + (1 - 2 * r2last) * x * w)

/-- The loop of `delegate_matrix_evaluation`, iop/prover.rs:177-210; the first argument is the number of passes left. -/
def delegateLoop (threads : ℕ) (T : Transcript F) (omegas r1 : List F) (isFft : Bool) (fMiddle : List (List F)) :
    ℕ → List F → T.State → Option (List (IOPProof F) × List (List F) × T.State)
  | 0, _, ts => some ([], [], ts)
  | l + 1, r2, ts => do
    let f ← fMiddle[l]?
    let r2last ← r2.getLast?
    let phi ← delegatePhi omegas r1 isFft fMiddle.length l f.length r2last
    let f1 ← Mle.ofEvals (r2.length - 1) (computeBetas r2.dropLast)
    let f2 ← Mle.ofEvals (Nat.log2 phi.length) phi
    let f3 ← Mle.ofEvals (Nat.log2 f.length) f
    let (proof, evals, ts) ← proveTerms threads T (fun a => if a = 0 then f1 else if a = 1 then f2 else f3) f1.numVars [(1, [0, 1, 2])] ts
    let (proofs, claims, ts) ← delegateLoop threads T omegas r1 isFft fMiddle l proof.point ts
    some (proof :: proofs, evals :: claims, ts)

/-- `delegate_matrix_evaluation`, iop/prover.rs:164-212. -/
def delegateMatrix (threads : ℕ) (T : Transcript F) (adicity : ℕ) (g : F) (fMiddle : List (List F)) (r1 r2 : List F) (isFft : Bool)
    (ts : T.State) : Option (List (IOPProof F) × List (List F) × T.State) := do
  let omegas ← phiPow adicity g r1.length isFft
  let n1 ← checkedSub r1.length 1
  delegateLoop threads T omegas r1 isFft fMiddle n1 r2 ts

/-- `BatchFFTProof`, and `BatchFFTWeightsProof` without the partial evaluations. -/
structure FftProof (F : Type) where
  proof : IOPProof F
  claims : List F
  delegation : List (IOPProof F)
  delegationClaims : List (List F)

/-- What the three Fourier provers have in common, iop/prover.rs:304-340, 359-398 and convolution.rs:389-455: the matrix reduced at
`r1`, the sumcheck of its product with the table `fm`, and the delegation. -/
def proveFft (threads : ℕ) (T : Transcript F) (adicity : ℕ) (g : F) (isFft : Bool) (scale : F) (r1 : List F) (fm : Mle F) (ts : T.State) :
    Option (FftProof F × T.State) := do
  let (red, mid) ← phiGInit adicity g r1 scale r1.length isFft
  let fRed ← Mle.ofEvals r1.length red
  let (proof, claims, ts) ← proveProduct threads T fm fRed ts
  let (ds, dcs, ts) ← delegateMatrix threads T adicity g mid r1 proof.point isFft ts
  some (⟨proof, claims, ds, dcs⟩, ts)

/-- `r[..k]` and the `len` entries after it, copied one by one, iop/prover.rs:296-303, 347-358. -/
def splitPoint (k len : ℕ) (r : List F) : Option (List F × List F) :=
  if k + len ≤ r.length then some (r.take k, (r.drop k).take len) else none

/-- `into_mle` of a flattened list of vectors, followed by `fix_high_variables_in_place`, iop/prover.rs:317-319, 372-378. -/
def flatFixed (xs : List (List F)) (r2 : List F) : Option (Mle F) := do
  let m ← Mle.ofEvals (Nat.log2 xs.flatten.length) xs.flatten
  m.fixHighVariablesInPlace r2

/-- `prove_batch_fft`, iop/prover.rs:290-341. -/
def proveBatchFft (threads : ℕ) (T : Transcript F) (adicity : ℕ) (g : F) (r : List F) (x : List (List F)) (ts : T.State) :
    Option (FftProof F × T.State) := do
  let x0 ← x.head?
  let x := x.map (resize (2 * x0.length) 0)
  let k ← ilog2 (2 * x0.length)
  let k2 ← ilog2 x.length
  let (r1, r2) ← splitPoint k k2 r
  let fm ← flatFixed x r2
  proveFft threads T adicity g false 1 r1 fm ts

/-- `prove_batch_ifft`, iop/prover.rs:343-399. -/
def proveBatchIfft (threads : ℕ) (T : Transcript F) (adicity : ℕ) (g : F) (r : List F) (prod : List (List F)) (ts : T.State) :
    Option (FftProof F × T.State) := do
  let p0 ← prod.head?
  let k ← ilog2 p0.length
  let k2 ← ilog2 prod.length
  let (r1, r2) ← splitPoint k k2 r
  if r1.getLast? = some 0 ∧ (p0.length : F) ≠ 0 then do
    let fm ← flatFixed prod r2
    proveFft threads T adicity g true ((p0.length : F)⁻¹) r1 fm ts
  else none

/-- `index_wf`, convolution.rs:1535-1550. -/
def indexWf (w : List F) (nReal n outputLen : ℕ) : Option (List F) :=
  (List.range outputLen).mapM fun idx => if idx / n < nReal ∧ idx % n < nReal then w[idx / n * nReal + idx % n]? else some 0

/-- The accumulations of `w1_reduced`, convolution.rs:403-411, and of one entry of `aggregated_filter`, 883-892: the sum over `count`
kernels of `size` entries, kernel `i` starting at `start i`, weighted by `beta i`. -/
def weightedKernels (toF : ℤ → F) (data : List ℤ) (size count : ℕ) (start : ℕ → ℕ) (beta : ℕ → Option F) : Option (List F) :=
  (List.range size).mapM fun k => do
    let terms ← (List.range count).mapM fun i => do
      let b ← beta i
      let v ← data[start i + k]?
      some (b * toF v)
    some (terms.foldl (· + ·) 0)

/-- `prove_batch_fft_weights`, convolution.rs:368-456: the proof and the partial evaluations. -/
def proveFftWeights (threads : ℕ) (T : Transcript F) (adicity : ℕ) (g : F) (toF : ℤ → F) (data : List ℤ) (kw kx nw realNw : ℕ) (r : List F)
    (ts : T.State) : Option (FftProof F × List F × T.State) := do
  let k ← ilog2 (2 * nw * nw)
  let k2 ← checkedSub r.length k
  let (r1, r2) ← splitPoint k k2 r
  let beta := computeBetas r2
  let partialEvals ← weightedKernels toF data (realNw * realNw) (kw * kx) (fun i => i * (realNw * realNw)) fun i => beta[i]?
  let w ← indexWf partialEvals realNw nw (2 * nw * nw)
  let fm ← Mle.ofEvals (Nat.log2 w.length) w
  let (p, ts) ← proveFft threads T adicity g false 1 r1 fm ts
  some (p, partialEvals, ts)

/-- `aggregated_filter`, convolution.rs:877-903. -/
def aggregatedFilter (adicity : ℕ) (g : F) (toF : ℤ → F) (data : List ℤ) (kw kx nw realNw : ℕ) (beta1 : List F) : Option (List (List F)) :=
  (List.range kx).mapM fun i => do
    let w ← weightedKernels toF data (realNw * realNw) kw (fun j => j * kx * (realNw * realNw) + i * (realNw * realNw)) fun j => beta1[j]?
    let w ← indexWf w realNw nw (2 * nw * nw)
    fft adicity g false w

/-- The point `r` and the point of the bias, convolution.rs:764-777. -/
def convPoints (logFs logKw : ℕ) (point : List F) : Option (List F × List F) :=
  if point.length = logFs + logKw then
    some ((point.take logFs).map (fun x => 1 - x) ++ 0 :: point.drop logFs, point.drop logFs)
  else none

/-- `bias_eval`, convolution.rs:778-787. -/
def convBiasEval (toF : ℤ → F) (bias : List ℤ) (point : List F) : Option F :=
  if point ≠ [] then do
    let m ← Mle.ofEvals (Nat.log2 bias.length) (bias.map toF)
    m.evaluate point
  else if bias.length = 1 then some (toF (bias.getD 0 0)) else some 0

/-- The sumcheck of the entrywise products, convolution.rs:862-928. `r2` is the point of the inverse transform's sumcheck. -/
def proveConvProducts (threads : ℕ) (T : Transcript F) (adicity : ℕ) (g : F) (toF : ℤ → F) (f : FftFilter) (kw kx nw realNw : ℕ)
    (inputFft : List (List F)) (r1 r2 : List F) (ts : T.State) : Option (IOPProof F × List F × T.State) := do
  let agg ← aggregatedFilter adicity g toF f.data kw kx nw realNw (computeBetas r1)
  let f1 ← Mle.ofEvals (Nat.log2 agg.flatten.length) agg.flatten
  let f2 ← Mle.ofEvals (Nat.log2 inputFft.flatten.length) inputFft.flatten
  let betas := (List.replicate kx (computeBetas r2)).flatten
  let f3 ← Mle.ofEvals (Nat.log2 betas.length) betas
  proveTerms threads T (fun a => if a = 0 then f1 else if a = 1 then f2 else f3) f1.numVars [(1, [0, 1, 2])] ts

/-- The sumchecks of `prove_convolution_step` after the clearing, convolution.rs:802-948: of the inverse transform, of the entrywise
products, of the transform of the input and of that of the weights; the last component are the partial evaluations of the filter. -/
def proveConvSums (threads : ℕ) (T : Transcript F) (adicity : ℕ) (g : F) (toF : ℤ → F) (f : FftFilter) (d : ConvData F)
    (kw kx nw realNw logFs : ℕ) (r r1 : List F) (ts : T.State) :
    Option (FftProof F × (IOPProof F × List F) × FftProof F × FftProof F × List F × T.State) := do
  let (ifft, ts) ← proveBatchIfft threads T adicity g r d.prod ts
  if logFs + 1 = ifft.proof.point.length then do
    let (had, hadClaims, ts) ← proveConvProducts threads T adicity g toF f kw kx nw realNw d.inputFft r1 ifft.proof.point ts
    let (fft, ts) ← proveBatchFft threads T adicity g had.point d.input ts
    let (fftw, partialEvals, ts) ← proveFftWeights threads T adicity g toF f.data kw kx nw realNw (had.point ++ r1) ts
    some (ifft, (had, hadClaims), fft, fftw, partialEvals, ts)
  else none

/-- The claim about the filter that is handed to the commitment prover, convolution.rs:950-952 and 993-1001. -/
def convFilterClaim (T : Transcript F) (nw realNw : ℕ) (point partialEvals : List F) (ts : T.State) : Option (Claim F × T.State) := do
  let logReal ← ilog2 (realNw * realNw)
  let log2nw ← ilog2 (2 * nw * nw)
  let tail ← dropChecked log2nw point
  let m ← Mle.ofEvals (Nat.log2 partialEvals.length) partialEvals
  let filterEval ← m.evaluate (T.sampleN logReal ts).1
  some (⟨(T.sampleN logReal ts).1 ++ tail, filterEval⟩, (T.sampleN logReal ts).2)

/-- `prove_convolution_step`, convolution.rs:697-1033, up to the claim about the input: the proof, and the claims about the filter and
the bias that are handed to the commitment prover. `og` is the shape of the unpadded output. -/
def proveConv (threads : ℕ) (T : Transcript F) (adicity : ℕ) (g : F) (toF : ℤ → F) (c : Conv) (d : ConvData F) (og padded : List ℕ)
    (last : Claim F) (ts : T.State) : Option (ConvProof F × Claim F × Claim F × T.State) := do
  let kw ← c.filter.shape[0]?
  let kx ← c.filter.shape[1]?
  let nw ← c.filter.shape[2]?
  let realNw ← c.filter.ogShape[2]?
  let clearing ← clearingTensor og padded
  let (hp, ts) ← proveHadamard threads T last.point.length last (d.outputAsElement.map toF) clearing ts
  let _ ← hp.individualClaim[0]?
  let out0 ← d.output.head?
  let logFs ← ilog2 (nw * nw)
  let logKw ← ilog2 kw
  if nw * nw * kw * 2 = d.output.length * out0.length ∧ Nat.log2 (nw * nw * kw) = hp.sumcheck.point.length then do
    let (r, biasPoint) ← convPoints logFs logKw hp.sumcheck.point
    let biasEval ← convBiasEval toF c.bias biasPoint
    let logOut ← ilog2 out0.length
    let r1 ← dropChecked logOut r
    let (ifft, had, fft, fftw, partialEvals, ts) ← proveConvSums threads T adicity g toF c.filter d kw kx nw realNw logFs r r1 ts
    let (filterClaim, ts) ← convFilterClaim T nw realNw (had.1.point ++ r1) partialEvals ts
    some (⟨fft.proof, fftw.proof, fft.delegation, fftw.delegation, ifft.proof, ifft.delegation, had.1, fft.claims, fftw.claims, ifft.claims,
        fft.delegationClaims, fftw.delegationClaims, ifft.delegationClaims, partialEvals, had.2, biasEval, hp⟩,
      filterClaim, ⟨biasPoint, biasEval⟩, ts)
  else none

/-- The claim about the input, convolution.rs:1034-1075. -/
def convInputClaim (filterSize : ℕ) (proof : ConvProof F) : Option (Claim F) := do
  let iv ← popInverse proof.fftProof.point
  let k ← ilog2 (filterSize * 2)
  let tail ← dropChecked k proof.hadamardProof.point
  let fft0 ← proof.fftClaims[0]?
  some ⟨(iv.1.map fun x => 1 - x) ++ tail, fft0 * iv.2⟩

/-- The part of `step_info` the verifier uses, convolution.rs:502-531. -/
def Conv.verifyCtx (c : Conv) : Option ConvVerifyCtx := do
  let kx ← c.filter.shape[1]?
  let nw ← c.filter.shape[2]?
  let realNw ← c.filter.ogShape[2]?
  some ⟨kx, nw, realNw, nw * nw, c.unpadded, c.filter.ogShape⟩

end Model
