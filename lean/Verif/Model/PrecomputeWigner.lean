import Verif.Model.Precompute
import Verif.Model.BaseWigner

/-!
# Precomputed-kernel Wigner transforms

Models `s2fft/precompute_transforms/construct.py` (`wigner_kernel`, `wigner_kernel_jax`) and
`s2fft/precompute_transforms/wigner.py`. A kernel is a four-dimensional array `[k, t, l, j]`: plane
`k` is direction `n = k` with the reality flag and `n = k - (N - 1)` without, column `j` is order
`m = j - (L - 1)`. Its entries are complex numbers (real ones are embedded). The PyTorch versions
wrap the JAX ones and are not distinguished from them. Broadcasting of axes of length one is not
modelled: arrays whose sizes do not fit are refused.
-/

namespace S2fft

/-- Mode names. -/
def mdAuto : PyStr := "auto".toList
def mdDirect : PyStr := "direct".toList
def mdFft : PyStr := "fft".toList

/-- A four-dimensional array with its sizes. -/
structure Nd4 where
  n : ℤ
  t : ℤ
  l : ℤ
  m : ℤ
  val : ℤ → ℤ → ℤ → ℤ → ℂ

/-- `n_start_ind` (construct.py 387, 526; wigner.py 116, 178, 326, 409). -/
def nStart (N : ℤ) (reality : Bool) : ℤ := if reality then N - 1 else 0

/-- `n_dim` (construct.py 388, 527). -/
def nDim (N : ℤ) (reality : Bool) : ℤ := if reality then N else 2 * N - 1

/-- The first entry of `n = arange(n_start_ind - N + 1, N)` (construct.py 399, 538). -/
def nFirst (N : ℤ) (reality : Bool) : ℤ := nStart N reality - N + 1

/-- `sampling.lower() in ["mw", "mwss", "dh"]`. -/
def UniformName (sampling : PyStr) : Prop :=
  lower sampling = sMW ∨ lower sampling = sMWSS ∨ lower sampling = sDH

instance (sampling : PyStr) : Decidable (UniformName sampling) := by
  unfold UniformName; infer_instance

/-- The choice of mode (construct.py 374-385, 513-524). For `L = 1` the quotient `L / log(L)` is
infinite and `int` raises. -/
noncomputable def chooseMode (L N : ℤ) (sampling mode : PyStr) : Except PyErr PyStr :=
  if lower mode = mdFft ∧ ¬ UniformName sampling then .error .valueError
  else if lower mode = mdAuto then
    if UniformName sampling then
      if L = 1 then .error .overflowError
      else if N ≤ ⌊(L : ℝ) / Real.log L⌋ then .ok mdFft else .ok mdDirect
    else .ok mdDirect
  else .ok mode

/-- The columns `L - 1 + n` of the planes (construct.py 411, 435). NumPy refuses those beyond the
last column; the smallest is then not negative. -/
def wignerColumns (L N : ℤ) (reality : Bool) : Except PyErr (ℤ → ℤ) :=
  if 2 * L - 1 ≤ L - 1 + (N - 1) then .error .indexError
  else .ok (fun k => L - 1 + (nFirst N reality + k))

/-- The same in JAX (construct.py 551, 575), which clamps. -/
def wignerColumnsJax (L N : ℤ) (reality : Bool) : ℤ → ℤ :=
  fun k => jaxGet (2 * L - 1) (L - 1 + (nFirst N reality + k))

/-- The "direct" branch of `wigner_kernel` (construct.py 407-411). -/
noncomputable def wignerDirect (L : ℤ) (cols : ℤ → ℤ) (θ : ℤ → ℝ) : ℤ → ℤ → ℤ → ℤ → ℝ :=
  (forRange 0 L (fun el (s : (ℤ → ℤ → ℤ → ℝ) × (ℤ → ℤ → ℤ → ℤ → ℝ)) =>
    let delta := risboFullVec s.1 θ L el
    (delta, fun k => setDegree (s.2 k) el (fun t j => delta t j (cols k))))
    (fun _ _ _ => 0, fun _ _ _ _ => 0)).2

/-- The "direct" branch of `wigner_kernel_jax` (construct.py 546-551). -/
noncomputable def wignerDirectJax (L : ℤ) (cols : ℤ → ℤ) (θ : ℤ → ℝ) : ℤ → ℤ → ℤ → ℤ → ℝ :=
  (forRange 0 L (fun el (s : (ℤ → ℤ → ℤ → ℝ) × (ℤ → ℤ → ℤ → ℤ → ℝ)) =>
    let delta := fun t => risboFullJax (s.1 t) (θ t) L el
    (delta, fun k => setDegree (s.2 k) el (fun t j => delta t j (cols k))))
    (fun _ _ _ => 0, fun _ _ _ _ => 0)).2

/-- The "fft" branch of `wigner_kernel` (construct.py 419-441); plane `k` has direction `n0 + k`. The
factors `1j**(-m)` and `1j**n` are multiplied together, and the values of the `irfft` are real. -/
noncomputable def wignerFourier (L n0 : ℤ) (cols : ℤ → ℤ) (sampling : PyStr) (nt : ℤ) (θ : ℤ → ℝ) :
    Except PyErr (ℤ → ℤ → ℤ → ℤ → ℝ) := do
  let s ← forRangeM 0 L (fun el (s : (ℤ → ℤ → ℝ) × (ℤ → ℤ → ℤ → ℤ → ℝ)) => do
    let delta ← risboFull (2 * L - 1) (2 * L - 1) s.1 (Real.pi / 2) L el
    pure (delta, fun k => setDegree (s.2 k) el (fun t j =>
      (irfft_fwd L (fun a => kernelFourier L (-(n0 + k)) (cols k) (θ 0) false delta a j)
        (kernelSamps sampling nt) t).re)))
    (fun _ _ => 0, fun _ _ _ _ => 0)
  pure s.2

/-- The "fft" branch of `wigner_kernel_jax` (construct.py 559-581). -/
noncomputable def wignerFourierJax (L n0 : ℤ) (cols : ℤ → ℤ) (sampling : PyStr) (nt : ℤ)
    (θ : ℤ → ℝ) : ℤ → ℤ → ℤ → ℤ → ℝ :=
  (forRange 0 L (fun el (s : (ℤ → ℤ → ℝ) × (ℤ → ℤ → ℤ → ℤ → ℝ)) =>
    let delta := risboFullJax s.1 (Real.pi / 2) L el
    (delta, fun k => setDegree (s.2 k) el (fun t j =>
      (irfft_fwd L (fun a => kernelFourier L (-(n0 + k)) (cols k) (θ 0) false delta a j)
        (kernelSamps sampling nt) t).re)))
    (fun _ _ => 0, fun _ _ _ _ => 0)).2

/-- Quadrature weights, normalisation and ring phases (construct.py 446-466, 586-606); `s` is the
name of the scheme of the angles. -/
noncomputable def wignerFold (G : GlTables) (L N : ℤ) (s : PyStr) (nt nside : ℤ)
    (forward reality : Bool) (dl : ℤ → ℤ → ℤ → ℤ → ℝ) : Except PyErr Nd4 := do
  let dl : ℤ → ℤ → ℤ → ℤ → ℂ := fun k t el j => dl k t el j
  let dl ← if forward then do
      let w ← quad_weights_transform G.weights L s nside
      pure (fun k t el j => dl k t el j * w.2 t * (2 * Real.pi / (2 * (N : ℂ) - 1)))
    else pure (fun k t el j => dl k t el j * ((2 * (el : ℂ) + 1) / (8 * (Real.pi : ℂ) ^ 2)))
  let dl : ℤ → ℤ → ℤ → ℤ → ℂ := if lower s = sHP then
      fun k t el j => dl k t el j * healpixPhaseShifts L nside nt forward t j
    else dl
  pure ⟨nDim N reality, nt, L, 2 * L - 1, dl⟩

/-- `wigner_kernel` (construct.py 332-468). -/
noncomputable def wignerKernel (G : GlTables) (L N : ℤ) (reality : Bool) (sampling : PyStr)
    (nside : Option ℤ) (forward : Bool) (mode : PyStr) : Except PyErr Nd4 := do
  let mode ← chooseMode L N sampling mode
  let (s, nt, θ) ← kernelThetas G L sampling nside forward
  let dl ← if lower mode = mdDirect then do
      let cols ← wignerColumns L N reality
      pure (wignerDirect L cols θ)
    else if lower mode = mdFft then do
      let cols ← wignerColumns L N reality
      wignerFourier L (nFirst N reality) cols s nt θ
    else .error .valueError
  wignerFold G L N s nt (nside.getD 0) forward reality dl

/-- `wigner_kernel_jax` (construct.py 471-608). -/
noncomputable def wignerKernelJax (G : GlTables) (L N : ℤ) (reality : Bool) (sampling : PyStr)
    (nside : Option ℤ) (forward : Bool) (mode : PyStr) : Except PyErr Nd4 := do
  let mode ← chooseMode L N sampling mode
  let (s, nt, θ) ← kernelThetas G L sampling nside forward
  let cols := wignerColumnsJax L N reality
  let dl ← if lower mode = mdDirect then pure (wignerDirectJax L cols θ)
    else if lower mode = mdFft then pure (wignerFourierJax L (nFirst N reality) cols s nt θ)
    else .error .valueError
  wignerFold G L N s nt (nside.getD 0) forward reality dl

/-! ## Transforms -/

/-- `sampling.lower() in "healpix"` (wigner.py 123, 190, 344, 427): a test for a substring. -/
def inHealpix (sampling : PyStr) : Prop := lower sampling <:+: sHP

instance (sampling : PyStr) : Decidable (inHealpix sampling) := by
  unfold inHealpix; infer_instance

/-- `fnab` (wigner.py 118-121, 180-188). -/
noncomputable def wignerFnab (flmn : ℤ → ℤ → ℤ → ℂ) (K : ℤ → ℤ → ℤ → ℤ → ℂ) (L N off : ℤ)
    (reality : Bool) : ℤ → ℤ → ℤ → ℂ :=
  fun n t k => if nStart N reality ≤ n ∧ off ≤ k then
    ∑ l ∈ Finset.Ico 0 L, K (n - nStart N reality) t l (k - off) * flmn n l (k - off) else 0

/-- `ifft(ifftshift(x), norm="forward")`, or `conj(fft(ifftshift(conj(x))))` in JAX. -/
noncomputable def shiftIfft (method : PyStr) (n : ℤ) (x : ℤ → ℂ) : ℤ → ℂ :=
  if method = mNumpy then ifft_fwd n (ifftshift n x) else conjFft n x

/-- `ifft2(ifftshift(a))` over both axes of `a[k, l]`, the first axis being transformed first
(wigner.py 137-138); `conj(fft2(conj(ifftshift(a))))` in JAX (217-218). -/
noncomputable def shiftIfft2 (method : PyStr) (n0 n1 : ℤ) (a : ℤ → ℤ → ℂ) (g p : ℤ) : ℂ :=
  let b : ℤ → ℤ → ℂ := fun k l => ifftshift n0 (fun k => ifftshift n1 (a k) l) k
  if method = mNumpy then ifft_fwd n1 (fun l => ifft_fwd n0 (fun k => b k l) g) p
  else (starRingEnd ℂ) (fft n1 (fun l => fft n0 (fun k => (starRingEnd ℂ) (b k l)) g) p)

/-- `inverse_transform` (wigner.py 80-138) and `inverse_transform_jax` (141-218); the latter passes
"jax" to `healpix_ifft`. -/
noncomputable def precomputeWignerInverse (flmn : Nd ℂ) (K : Nd4) (L N : ℤ) (sampling : PyStr)
    (reality : Bool) (nside : Option ℤ) (method : PyStr) : Except PyErr (Nd ℂ) := do
  let off := mOffset sampling
  let ns := nStart N reality
  let shape ← fnab_shape L N sampling nside
  if (K.n, K.t, K.l, K.m) ≠ (shape.1 - ns, shape.2.1, L, shape.2.2 - off) ∨
      flmn.shape ≠ [shape.1, L, shape.2.2 - off] then .error .valueError
  else
  let fnab := wignerFnab flmn.get3 K.val L N off reality
  if inHealpix sampling then do
    let fshape ← so3_f_shape L N sampling nside
    let f ← forRangeM (ns - N + 1) N (fun n f => do
      let r ← healpix_ifft noCuda (fnab (N - 1 + n)) L (nside.getD 0) method false
      pure (setPlane f (N - 1 + n) (fun _ i => r.1 i))) (fun _ _ _ => 0)
    packSo3 fshape (fun g t p =>
      if reality then irfft_fwd (shape.1 - ns) (fun k => f (ns + k) t p) (2 * N - 1) g
      else shiftIfft method (ngamma N) (fun k => f k t p) g)
  else
    pure (.d3 (2 * N - 1) shape.2.1 shape.2.2 (fun g t p =>
      if reality then
        let f : ℤ → ℤ → ℤ → ℂ := fun n t => shiftIfft method shape.2.2 (fnab n t)
        irfft_fwd (shape.1 - ns) (fun k => f (ns + k) t p) (2 * N - 1) g
      else shiftIfft2 method shape.1 shape.2.2 (fun n => fnab n t) g p))

/-- `fban` (wigner.py 328-332, 411-415): transform over the `ng` values of `γ`. -/
noncomputable def wignerFban (f : ℤ → ℤ → ℤ → ℂ) (ng : ℤ) (reality : Bool) : ℤ → ℤ → ℤ → ℂ :=
  fun k i j => if reality then rfft ng (fun g => (f g i j).re) k
    else fftshift ng (fft ng (fun g => f g i j)) k

/-- The number of planes of `fban`. -/
def fbanPlanes (ng : ℤ) (reality : Bool) : ℤ := if reality then ng / 2 + 1 else ng

/-- The resampling of `forward_transform` (wigner.py 334-340, 417-423), with one spin for each
plane. -/
noncomputable def wignerResample (f : Nd ℂ) (L : ℤ) (spins : ℤ → ℤ) (sampling method : PyStr) :
    Except PyErr (Nd ℂ × PyStr) := do
  let toMwss := if method = mNumpy then mw_to_mwss else mw_to_mwss_jax
  let up := if method = mNumpy then upsample_by_two_mwss else upsample_by_two_mwss_jax
  let f ← if lower sampling = sMW then toMwss f L spins else pure f
  if lower sampling = sMW ∨ lower sampling = sMWSS then do
    let f ← up f L spins
    pure (f, sMWSS)
  else pure (f, sampling)

/-- The transform over `α` (wigner.py 342-353, 425-438): planes, rows, columns and values. A
two-dimensional array cannot be indexed with `[:, :, m_offset:]`. -/
noncomputable def wignerRings (f : Nd ℂ) (L N : ℤ) (sampling : PyStr) (reality : Bool)
    (nside : Option ℤ) (method : PyStr) : Except PyErr (ℤ × ℤ × ℤ × (ℤ → ℤ → ℤ → ℂ)) :=
  let off := mOffset sampling
  let ns := nStart N reality
  if inHealpix sampling then do
    let shape ← fnab_shape L N sampling nside
    let temp ← forRangeM (ns - N + 1) N (fun n temp => do
      let r ← healpix_fft noCuda (f.get3 (if reality then n else N - 1 + n) 0) L (nside.getD 0)
        method false
      pure (setPlane temp (N - 1 + n) r.1)) (fun _ _ _ => 0)
    pure (shape.1 - ns, shape.2.1, shape.2.2 - off, fun k t j => temp (ns + k) t (off + j))
  else
    match f with
    | .d3 B r c a => .ok (B, r, c - off, fun k t j => fftshift c (fft c (a k t)) (off + j))
    | _ => .error .indexError

/-- The coefficients (wigner.py 355-370, 440-466). -/
noncomputable def wignerFlmn (A : ℤ → ℤ → ℤ → ℂ) (K : ℤ → ℤ → ℤ → ℤ → ℂ) (L N nt : ℤ)
    (reality : Bool) : ℤ → ℤ → ℤ → ℂ :=
  let ns := nStart N reality
  let flmn : ℤ → ℤ → ℤ → ℂ := fun n l j => if ns ≤ n then
    ∑ t ∈ Finset.Ico 0 nt, K (n - ns) t l j * A (n - ns) t j else 0
  if reality then
    fun n l j => if n < ns then
      (starRingEnd ℂ) (flmn (ns + 1 + (N - 2 - n)) l (2 * L - 2 - j)) * (-1) ^ |-L + 1 + j|
        * (-1) ^ |-N + 1 + n| else flmn n l j
  else flmn

/-- The array `fban`; the axis of `γ` is `-2` for HEALPix and `-3` for the others, which a
two-dimensional array does not have. Three-dimensional arrays with HEALPix are not modelled. -/
noncomputable def wignerFbanNd (f : Nd ℂ) (sampling : PyStr) (reality : Bool) :
    Except PyErr (Nd ℂ) :=
  match f with
  | .d2 ng np a => if lower sampling = sHP then
      .ok (.d2 (fbanPlanes ng reality) np (fun k p => wignerFban (fun g _ => a g) ng reality k 0 p))
    else .error .indexError
  | .d3 ng nt np a => if lower sampling = sHP then .error .valueError else
      .ok (.d3 (fbanPlanes ng reality) nt np (wignerFban a ng reality))
  | _ => .error .indexError

/-- `forward_transform` (wigner.py 291-370) and `forward_transform_jax` (373-468). -/
noncomputable def precomputeWignerForward (f : Nd ℂ) (K : Nd4) (L N : ℤ) (sampling : PyStr)
    (reality : Bool) (nside : Option ℤ) (method : PyStr) : Except PyErr (Nd ℂ) := do
  let fban ← wignerFbanNd f sampling reality
  let (fban, s) ← wignerResample fban L (fun k => -(nFirst N reality + k)) sampling method
  let (B, r, c, A) ← wignerRings fban L N s reality nside method
  if (K.n, K.t, K.l, K.m) ≠ (B, r, L, c) ∨ (B, c) ≠ (nDim N reality, 2 * L - 1) then
    .error .valueError
  else pure (.d3 (flmn_shape L N).1 (flmn_shape L N).2.1 (flmn_shape L N).2.2
    (wignerFlmn A K.val L N r reality))

/-- `_kernel_functions[method]` (wigner.py 486-490). -/
noncomputable def wignerKernelFunction (method : PyStr) : GlTables → ℤ → ℤ → Bool → PyStr →
    Option ℤ → Bool → PyStr → Except PyErr Nd4 :=
  if method = mNumpy then wignerKernel else wignerKernelJax

/-- The kernel given, or the one built (wigner.py 72-76, 283-287). -/
noncomputable def getWignerKernel (G : GlTables) (kernel : Option Nd4) (L N : ℤ) (reality : Bool)
    (sampling : PyStr) (nside : Option ℤ) (forward : Bool) (method : PyStr) : Except PyErr Nd4 :=
  match kernel with
  | some k => .ok k
  | none => wignerKernelFunction method G L N reality sampling nside forward mdAuto

/-- `inverse` (wigner.py 13-77). -/
noncomputable def precomputeWignerInverseTop (G : GlTables) (flmn : Nd ℂ) (L N : ℤ)
    (kernel : Option Nd4) (sampling : PyStr) (reality : Bool) (method : PyStr)
    (nside : Option ℤ) : Except PyErr (Nd ℂ) :=
  if method ∉ precomputeMethods then .error .valueError
  else do
    let kernel ← getWignerKernel G kernel L N reality sampling nside false method
    precomputeWignerInverse flmn kernel L N sampling reality nside method

/-- `forward` (wigner.py 224-288). -/
noncomputable def precomputeWignerForwardTop (G : GlTables) (f : Nd ℂ) (L N : ℤ)
    (kernel : Option Nd4) (sampling : PyStr) (reality : Bool) (method : PyStr)
    (nside : Option ℤ) : Except PyErr (Nd ℂ) :=
  if method ∉ precomputeMethods then .error .valueError
  else do
    let kernel ← getWignerKernel G kernel L N reality sampling nside true method
    precomputeWignerForward f kernel L N sampling reality nside method

end S2fft
