import Verif.Model.Base
import Verif.Model.Risbo
import Verif.Model.PriceMcEwen

/-!
# Precomputed-kernel spherical transforms

Models `s2fft/precompute_transforms/construct.py` (spin-spherical kernels) and
`s2fft/precompute_transforms/spherical.py`. A kernel is a three-dimensional array `[t, l, j]`, where
column `j` is order `m = j` with the reality flag and `m = j - (L - 1)` without. Its entries are
complex numbers (real ones are embedded). Warnings are not modelled. The PyTorch versions wrap the
JAX ones and are not distinguished from them.
-/

namespace S2fft

/-- Recursion names. -/
def rAuto : PyStr := "auto".toList
def rPm : PyStr := "price-mcewen".toList
def rRisbo : PyStr := "risbo".toList

/-- `PM_MAX_STABLE_SPIN` (construct.py 12). -/
def pmMaxStableSpin : ℤ := 6

/-- `m_start_ind` (construct.py 76, 224; spherical.py 122, 189, 350, 424). -/
def mStart (L : ℤ) (reality : Bool) : ℤ := if reality then L - 1 else 0

/-- `m_dim` (construct.py 77, 225). -/
def mDim (L : ℤ) (reality : Bool) : ℤ := if reality then L else 2 * L - 1

/-- The choice of recursion (construct.py 64-72, 214-223): refused for the Price–McEwen recursion
with a large spin, and resolved when "auto". -/
def chooseRecursion (spin : ℤ) (recursion : PyStr) : Except PyErr PyStr :=
  if lower recursion = rPm ∧ |spin| > pmMaxStableSpin then .error .valueError
  else .ok (if lower recursion = rAuto then (if |spin| > pmMaxStableSpin then rRisbo else rPm)
    else recursion)

/-- The angles of the kernel and the name of their scheme (construct.py 79-84, 227-232). -/
noncomputable def kernelThetas (G : GlTables) (L : ℤ) (sampling : PyStr) (nside : Option ℤ)
    (forward : Bool) : Except PyErr (PyStr × ℤ × (ℤ → ℝ)) :=
  if forward = true ∧ (lower sampling = sMW ∨ lower sampling = sMWSS) then do
    let θ ← thetas G.nodes (some (2 * L)) sMWSS none
    pure (sMWSS, θ)
  else do
    let θ ← thetas G.nodes (some L) sampling nside
    pure (sampling, θ)

/-- `a[t, el] = v`. -/
def setRow3 {α : Type*} (a : ℤ → ℤ → ℤ → α) (t el : ℤ) (v : ℤ → α) : ℤ → ℤ → ℤ → α :=
  fun x y j => if x = t ∧ y = el then v j else a x y j

/-- `a[:, el] = v`. -/
def setDegree {α : Type*} (a : ℤ → ℤ → ℤ → α) (el : ℤ) (v : ℤ → ℤ → α) : ℤ → ℤ → ℤ → α :=
  fun x y j => if y = el then v x j else a x y j

/-- The "price-mcewen" branch of `spin_spherical_kernel` (construct.py 89-96), which in fact calls
the Turok–Bucher recursion, normalisation included. -/
noncomputable def kernelTurok (L spin nt : ℤ) (θ : ℤ → ℝ) (reality : Bool) : ℤ → ℤ → ℤ → ℝ :=
  forRange 0 nt (fun t dl =>
    forRange |spin| L (fun el dl =>
      let dl := setRow3 dl t el (fun j => baseSlice (θ t) el L spin reality (mStart L reality + j))
      setRow3 dl t el (fun j => dl t el j * elfactor el)) dl) (fun _ _ _ => 0)

/-- An index into an axis of length `n`; negative ones count from the end. -/
def pyIndex (n i : ℤ) : Except PyErr ℤ :=
  if 0 ≤ i ∧ i < n then .ok i else if -n ≤ i ∧ i < 0 then .ok (i + n) else .error .indexError

/-- The Risbo branch for grids that are not uniform in `θ` (construct.py 107-111). `c` is the
column `L - 1 - spin`. -/
noncomputable def kernelRisboDirect (L c : ℤ) (θ : ℤ → ℝ) (reality : Bool) : ℤ → ℤ → ℤ → ℝ :=
  (forRange 0 L (fun el (s : (ℤ → ℤ → ℤ → ℝ) × (ℤ → ℤ → ℤ → ℝ)) =>
    let delta := risboFullVec s.1 θ L el
    (delta, setDegree s.2 el (fun t j => delta t (mStart L reality + j) c)))
    (fun _ _ _ => 0, fun _ _ _ => 0)).2

/-- The same in JAX (construct.py 267-274): `risbo_jax.compute_full` mapped over the angles. -/
noncomputable def kernelRisboDirectJax (L c : ℤ) (θ : ℤ → ℝ) (reality : Bool) :
    ℤ → ℤ → ℤ → ℝ :=
  (forRange 0 L (fun el (s : (ℤ → ℤ → ℤ → ℝ) × (ℤ → ℤ → ℤ → ℝ)) =>
    let delta := fun t => risboFullJax (s.1 t) (θ t) L el
    (delta, setDegree s.2 el (fun t j => delta t (mStart L reality + j) c)))
    (fun _ _ _ => 0, fun _ _ _ => 0)).2

/-- The Fourier coefficients `temp[L - 1:]` of degree `el` (construct.py 128-137, 293-300), from the
plane `delta` at `π / 2`; row `a` is frequency `a`. -/
noncomputable def kernelFourier (L spin c : ℤ) (θ0 : ℝ) (reality : Bool) (delta : ℤ → ℤ → ℝ)
    (a j : ℤ) : ℂ :=
  delta (L - 1 + a) (mStart L reality + j) * delta (L - 1 + a) c
    * Complex.I ^ (-spin - (-L + 1 + (mStart L reality + j)))
    * cis ((-L + 1 + (L - 1 + a) : ℤ) * θ0)

/-- `nsamps` (construct.py 119-124, 282-287); `None` for the other schemes, which never reach the
use. -/
def kernelSamps (sampling : PyStr) (nt : ℤ) : ℤ :=
  if lower sampling = sMW then 2 * nt - 1
  else if lower sampling = sMWSS then 2 * nt - 2
  else 2 * nt

/-- The Risbo branch for grids uniform in `θ` (construct.py 117-140). The values of the `irfft` are
real. -/
noncomputable def kernelRisboFourier (L spin c : ℤ) (sampling : PyStr) (nt : ℤ) (θ : ℤ → ℝ)
    (reality : Bool) : Except PyErr (ℤ → ℤ → ℤ → ℝ) := do
  let s ← forRangeM 0 L (fun el (s : (ℤ → ℤ → ℝ) × (ℤ → ℤ → ℤ → ℝ)) => do
    let delta ← risboFull (2 * L - 1) (2 * L - 1) s.1 (Real.pi / 2) L el
    pure (delta, setDegree s.2 el (fun t j =>
      (irfft_fwd L (fun a => kernelFourier L spin c (θ 0) reality delta a j)
        (kernelSamps sampling nt) t).re)))
    (fun _ _ => 0, fun _ _ _ => 0)
  pure s.2

/-- The same in JAX (construct.py 280-303). -/
noncomputable def kernelRisboFourierJax (L spin c : ℤ) (sampling : PyStr) (nt : ℤ) (θ : ℤ → ℝ)
    (reality : Bool) : ℤ → ℤ → ℤ → ℝ :=
  (forRange 0 L (fun el (s : (ℤ → ℤ → ℝ) × (ℤ → ℤ → ℤ → ℝ)) =>
    let delta := risboFullJax s.1 (Real.pi / 2) L el
    (delta, setDegree s.2 el (fun t j =>
      (irfft_fwd L (fun a => kernelFourier L spin c (θ 0) reality delta a j)
        (kernelSamps sampling nt) t).re)))
    (fun _ _ => 0, fun _ _ _ => 0)).2

/-- The Risbo branch (construct.py 99-143), normalisation included. -/
noncomputable def kernelRisbo (L spin : ℤ) (sampling : PyStr) (nt : ℤ) (θ : ℤ → ℝ)
    (reality : Bool) : Except PyErr (ℤ → ℤ → ℤ → ℝ) := do
  let c ← pyIndex (2 * L - 1) (L - 1 - spin)
  let dl : ℤ → ℤ → ℤ → ℝ := fun _ _ _ => 0
  let dl := if lower sampling = sHP ∨ lower sampling = sGL then
    kernelRisboDirect L c θ reality else dl
  let dl ← if lower sampling = sMW ∨ lower sampling = sMWSS ∨ lower sampling = sDH then
    kernelRisboFourier L spin c sampling nt θ reality else pure dl
  pure (fun t el j => dl t el j * elfactor el)

/-- A constant index into an axis of length `n` read in JAX: negative ones count from the end, and
those beyond the axis are clamped. -/
def jaxGet (n i : ℤ) : ℤ :=
  let i := if i < 0 then i + n else i
  if i < 0 then 0 else if n ≤ i then n - 1 else i

/-- The same index written: those beyond the axis are dropped (they stay outside). -/
def jaxSet (n i : ℤ) : ℤ := if i < 0 then i + n else i

/-- The Risbo branch of the JAX constructor (construct.py 259-309), normalisation included. -/
noncomputable def kernelRisboJax (L spin : ℤ) (sampling : PyStr) (nt : ℤ) (θ : ℤ → ℝ)
    (reality : Bool) : ℤ → ℤ → ℤ → ℝ :=
  let c := jaxGet (2 * L - 1) (L - 1 - spin)
  let dl : ℤ → ℤ → ℤ → ℝ := fun _ _ _ => 0
  let dl := if lower sampling = sHP ∨ lower sampling = sGL then
      kernelRisboDirectJax L c θ reality
    else if lower sampling = sMW ∨ lower sampling = sMWSS ∨ lower sampling = sDH then
      kernelRisboFourierJax L spin c sampling nt θ reality
    else dl
  fun t el j => dl t el j * elfactor el

/-- The Price–McEwen branch of the JAX constructor (construct.py 237-257, 309), normalisation
included: poles and degrees below the spin are set by hand. -/
noncomputable def kernelPmJax (L spin : ℤ) (sampling : PyStr) (nt : ℤ) (θ : ℤ → ℝ)
    (reality : Bool) : ℤ → ℤ → ℤ → ℝ :=
  let dl : ℤ → ℤ → ℤ → ℝ := fun t el r => pmAllSlices L spin θ r t el
  let dl : ℤ → ℤ → ℤ → ℝ := if lower sampling = sMWSS then
      fun t el r => if t = 0 then (if r = jaxSet (2 * L - 1) (L - 1 - spin) then 1 else 0)
        else dl t el r
    else dl
  let dl : ℤ → ℤ → ℤ → ℝ := if lower sampling = sMW ∨ lower sampling = sMWSS then
      fun t el r => if t = nt - 1 then
        (if r = jaxSet (2 * L - 1) (L - 1 + spin) then (-1) ^ (el - spin) else 0)
        else dl t el r
    else dl
  let dl : ℤ → ℤ → ℤ → ℝ := fun t el r => if el < |spin| then dl t el r * 0 else dl t el r
  fun t el j => dl t el (mStart L reality + j) * elfactor el

/-- `healpix_phase_shifts` (construct.py 675-696). -/
noncomputable def healpixPhaseShifts (L nside nt : ℤ) (forward : Bool) : ℤ → ℤ → ℂ :=
  forRange 0 nt (fun t a => fun x j => if x = t then ring_phase_shift_hp L t nside forward false j
    else a x j) (fun _ _ => 0)

/-- Quadrature weights and ring phases (construct.py 148-159, 311-322); `s` is the name of the scheme
of the angles. -/
noncomputable def kernelFold (G : GlTables) (L : ℤ) (s : PyStr) (nt : ℤ) (nside : ℤ)
    (forward reality : Bool) (dl : ℤ → ℤ → ℤ → ℝ) : Except PyErr (Nd ℂ) := do
  let dl : ℤ → ℤ → ℤ → ℂ := fun t el j => dl t el j
  let dl ← if forward then do
      let w ← quad_weights_transform G.weights L s nside
      pure (fun t el j => dl t el j * w.2 t)
    else pure dl
  let dl : ℤ → ℤ → ℤ → ℂ := if lower s = sHP then
      fun t el j => dl t el j * healpixPhaseShifts L nside nt forward t (mStart L reality + j)
    else dl
  pure (.d3 nt L (mDim L reality) dl)

/-- The `d`-functions of the kernel by the chosen recursion (construct.py 86-147). -/
noncomputable def kernelDl (L spin : ℤ) (sampling : PyStr) (nt : ℤ) (θ : ℤ → ℝ) (reality : Bool)
    (recursion : PyStr) : Except PyErr (ℤ → ℤ → ℤ → ℝ) :=
  if lower recursion = rPm then pure (kernelTurok L spin nt θ reality)
  else if lower recursion = rRisbo then kernelRisbo L spin sampling nt θ reality
  else .error .valueError

/-- `spin_spherical_kernel` (construct.py 16-161). -/
noncomputable def spinSphericalKernel (G : GlTables) (L spin : ℤ) (reality : Bool)
    (sampling : PyStr) (nside : Option ℤ) (forward : Bool) (recursion : PyStr) :
    Except PyErr (Nd ℂ) := do
  let reality := if reality = true ∧ spin ≠ 0 then false else reality
  let recursion ← chooseRecursion spin recursion
  let (s, nt, θ) ← kernelThetas G L sampling nside forward
  let dl ← kernelDl L spin s nt θ reality recursion
  kernelFold G L s nt (nside.getD 0) forward reality dl

/-- The same in JAX (construct.py 234-309). -/
noncomputable def kernelDlJax (L spin : ℤ) (sampling : PyStr) (nt : ℤ) (θ : ℤ → ℝ) (reality : Bool)
    (recursion : PyStr) : Except PyErr (ℤ → ℤ → ℤ → ℝ) :=
  if lower recursion = rPm then pure (kernelPmJax L spin sampling nt θ reality)
  else if lower recursion = rRisbo then pure (kernelRisboJax L spin sampling nt θ reality)
  else .error .valueError

/-- `spin_spherical_kernel_jax` (construct.py 164-324). -/
noncomputable def spinSphericalKernelJax (G : GlTables) (L spin : ℤ) (reality : Bool)
    (sampling : PyStr) (nside : Option ℤ) (forward : Bool) (recursion : PyStr) :
    Except PyErr (Nd ℂ) := do
  let reality := if reality = true ∧ spin ≠ 0 then false else reality
  let recursion ← chooseRecursion spin recursion
  let (s, nt, θ) ← kernelThetas G L sampling nside forward
  let dl ← kernelDlJax L spin s nt θ reality recursion
  kernelFold G L s nt (nside.getD 0) forward reality dl

/-! ## Transforms -/

/-- The Fourier coefficients of `inverse_transform` (spherical.py 121-133, and 188-203 for JAX):
contraction, sign and, for HEALPix with the reality flag, completion. -/
noncomputable def precomputeFtm (flm : ℤ → ℤ → ℂ) (K : ℤ → ℤ → ℤ → ℂ) (L : ℤ) (sampling : PyStr)
    (reality : Bool) (spin : ℤ) : ℤ → ℤ → ℂ :=
  let off := mOffset sampling
  let ms := mStart L reality
  let ftm : ℤ → ℤ → ℂ := fun t k => if ms + off ≤ k then
    ∑ l ∈ Finset.Ico 0 L, K t l (k - (ms + off)) * flm l (ms + (k - (ms + off))) else 0
  let ftm : ℤ → ℤ → ℂ := fun t k => ftm t k * (-1) ^ spin
  if lower sampling = sHP ∧ reality = true then
    fun t k => if off ≤ k ∧ k < ms + off then
      (starRingEnd ℂ) (ftm t (ms + off + 1 + (L - 2 - (k - off)))) else ftm t k
  else ftm

/-- `inverse_transform` (spherical.py 87-149) and `inverse_transform_jax` (153-221); the latter
passes "jax" to `healpix_ifft` and takes the real part of a real signal. An input whose shape does
not fit is refused by the contraction, and one more column than the contraction has by the assignment
of its result (125-127, 192-199); NumPy and JAX would repeat a single column, for `L = 1`. -/
noncomputable def precomputeInverse (flm kernel : Nd ℂ) (L : ℤ) (sampling : PyStr) (reality : Bool)
    (spin : ℤ) (nside : Option ℤ) (method : PyStr) : Except PyErr (Nd ℂ) := do
  let shape ← ftm_shape L sampling nside
  match kernel with
  | .d3 kt kl kj K =>
    if (kt, kl, kj) ≠ (shape.1, L, mDim L reality) then .error .valueError
    else if flm.shape ≠ [L, 2 * L - 1] then .error .valueError
    else if shape.2 - (mStart L reality + mOffset sampling) ≠ mDim L reality then .error .valueError
    else do
      let f ← inverseFftM method (precomputeFtm flm.get2 K L sampling reality spin) L sampling
        shape.2 (nside.getD 0) reality
      let f : ℤ → ℤ → ℂ := if method ≠ mNumpy ∧ reality = true then fun t p => ((f t p).re : ℂ) else f
      packSignal L sampling nside f
  | _ => .error .valueError

/-- The resampling of `forward_transform` (spherical.py 342-347, 416-421). -/
noncomputable def precomputeResample (f : Nd ℂ) (L spin : ℤ) (sampling method : PyStr) :
    Except PyErr (Nd ℂ × PyStr) := do
  let toMwss := if method = mNumpy then mw_to_mwss else mw_to_mwss_jax
  let up := if method = mNumpy then upsample_by_two_mwss else upsample_by_two_mwss_jax
  let f ← if lower sampling = sMW then toMwss f L (fun _ => spin) else pure f
  if lower sampling = sMW ∨ lower sampling = sMWSS then do
    let f ← up f L (fun _ => spin)
    pure (f, sMWSS)
  else pure (f, sampling)

/-- The Fourier coefficients of `forward_transform` (spherical.py 352-364, 426-439); column `j` is
the column `j` of the kernel. `ncol` is the number of samples of a ring. -/
noncomputable def precomputeFft (f : ℤ → ℤ → ℂ) (L : ℤ) (sampling : PyStr) (ncol nside : ℤ)
    (reality : Bool) (method : PyStr) : Except PyErr (ℤ → ℤ → ℂ) :=
  let off := mOffset sampling
  let ms := mStart L reality
  if lower sampling = sHP then do
    let r ← healpix_fft noCuda (f 0) L nside method reality
    let ftm : ℤ → ℤ → ℂ := fun t j => r.1 t (off + j)
    pure (if reality then fun t j => ftm t (ms + j) else ftm)
  else if reality then pure (fun t j => rfft ncol (fun p => (f t p).re) j)
  else pure (fun t j => fftshift ncol (fft ncol (f t)) (off + j))

/-- The coefficients of `forward_transform` (spherical.py 365-376, 441-457). -/
noncomputable def precomputeFlm (ftm : ℤ → ℤ → ℂ) (K : ℤ → ℤ → ℤ → ℂ) (L nt : ℤ)
    (reality : Bool) (spin : ℤ) : ℤ → ℤ → ℂ :=
  let ms := mStart L reality
  let flm : ℤ → ℤ → ℂ := fun l k => if ms ≤ k then
    ∑ t ∈ Finset.Ico 0 nt, K t l (k - ms) * ftm t (k - ms) else 0
  let flm : ℤ → ℤ → ℂ := if reality then
      fun l k => if 0 ≤ k ∧ k < ms then
        (-1) ^ ((L - 2 - k + 1) % 2).toNat * (starRingEnd ℂ) (flm l (ms + 1 + (L - 2 - k)))
        else flm l k
    else flm
  fun l k => flm l k * (-1) ^ spin

/-- `forward_transform` (spherical.py 314-380) and `forward_transform_jax` (384-459). HEALPix
without `nside` fails in `healpix_fft`. The numbers of rings and columns of the signal are those of the
kernel, or the contraction fails; for HEALPix one of the `2 L` columns has to be left out. -/
noncomputable def precomputeForward (f kernel : Nd ℂ) (L : ℤ) (sampling : PyStr) (reality : Bool)
    (spin : ℤ) (nside : Option ℤ) (method : PyStr) : Except PyErr (Nd ℂ) := do
  if lower sampling = sHP ∧ nside = none then .error .typeError else do
  let (f, s) ← precomputeResample f L spin sampling method
  let ftm ← precomputeFft f.get2 L s (f.shape.getLast?.getD 0) (nside.getD 0) reality method
  match kernel with
  | .d3 kt kl kj K =>
    if (kl, kj) ≠ (L, mDim L reality) then .error .valueError
    else if lower s ≠ sHP ∧ f.shape.head? ≠ some kt then .error .valueError
    else if lower s = sHP ∧ (kt ≠ 4 * nside.getD 0 - 1 ∨ mOffset s ≠ 1) then .error .valueError
    else pure (.d2 (flm_shape L).1 (flm_shape L).2 (precomputeFlm ftm K L kt reality spin))
  | _ => .error .valueError

/-- The methods, keys of `_inverse_functions`, `_forward_functions` and `_kernel_functions`
(spherical.py 465-482). -/
def precomputeMethods : List PyStr := [mNumpy, mJax, mTorch]

/-- `_kernel_functions[method]` (spherical.py 478-482). -/
noncomputable def kernelFunction (method : PyStr) : GlTables → ℤ → ℤ → Bool → PyStr → Option ℤ →
    Bool → PyStr → Except PyErr (Nd ℂ) :=
  if method = mNumpy then spinSphericalKernel else spinSphericalKernelJax

/-- The kernel given, or the one built (spherical.py 79-83, 290-294). -/
noncomputable def getKernel (G : GlTables) (kernel : Option (Nd ℂ)) (L spin : ℤ) (reality : Bool)
    (sampling : PyStr) (nside : Option ℤ) (forward : Bool) (method : PyStr) : Except PyErr (Nd ℂ) :=
  match kernel with
  | some k => .ok k
  | none => kernelFunction method G L spin reality sampling nside forward rAuto

/-- `inverse` (spherical.py 19-84). -/
noncomputable def precomputeInverseTop (G : GlTables) (flm : Nd ℂ) (L spin : ℤ)
    (kernel : Option (Nd ℂ)) (sampling : PyStr) (reality : Bool) (method : PyStr)
    (nside : Option ℤ) : Except PyErr (Nd ℂ) :=
  if method ∉ precomputeMethods then .error .valueError
  else do
    let reality := if reality = true ∧ spin ≠ 0 then false else reality
    let kernel ← getKernel G kernel L spin reality sampling nside false method
    precomputeInverse flm kernel L sampling reality spin nside method

/-- `forward` (spherical.py 226-311). -/
noncomputable def precomputeForwardTop (G : GlTables) (f : Nd ℂ) (L spin : ℤ)
    (kernel : Option (Nd ℂ)) (sampling : PyStr) (reality : Bool) (method : PyStr)
    (nside : Option ℤ) (iter : ℤ) : Except PyErr (Nd ℂ) :=
  if method ∉ precomputeMethods then .error .valueError
  else do
    let reality := if reality = true ∧ spin ≠ 0 then false else reality
    let kernel ← getKernel G kernel L spin reality sampling nside true method
    if iter = 0 then precomputeForward f kernel L sampling reality spin nside method
    else do
      let inv ← kernelFunction method G L spin reality sampling nside false rAuto
      refine f iter
        (fun f => precomputeForward f kernel L sampling reality spin nside method)
        (fun flm => precomputeInverse flm inv L sampling reality spin nside method)
        (Nd.map2 (· - ·)) (Nd.map2 (· + ·))

end S2fft
