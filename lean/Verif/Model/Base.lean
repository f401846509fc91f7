import Verif.Model.Turok
import Verif.Model.Quadrature
import Verif.Model.Resampling
import Verif.Model.HealpixDispatch

/-!
# Base spherical harmonic transforms

Models `s2fft/base_transforms/spherical.py`. A signal on an equiangular grid is a function of
`(t, p)`; a HEALPix map is kept in row `0`, indexed by pixel. The Gauss–Legendre tables
(`np.polynomial.legendre.leggauss` and `quadrature.quad_weights_gl`) are parameters.
-/

namespace S2fft

/-- Gauss–Legendre nodes and weights for each band-limit. -/
structure GlTables where
  nodes : ℤ → ℤ → ℝ
  weights : ℤ → ℤ → ℝ

/-- `recursions.turok.compute_slice(theta, el, L, -spin, reality)`, as called in the loops of
spherical.py: always with `|spin| ≤ el < L`, where it does not raise (`C13_slice_close`). -/
noncomputable def baseSlice (θ : ℝ) (el L spin : ℤ) (reality : Bool) : ℤ → ℝ :=
  match turokSlice θ el L (-spin) reality with
  | .ok d => d
  | .error _ => fun _ => 0

/-- `elfactor = np.sqrt((2 * el + 1) / (4 * np.pi))`. -/
noncomputable def elfactor (el : ℤ) : ℝ := √((2 * (el : ℝ) + 1) / (4 * Real.pi))

/-- `m_offset = 1 if sampling in ["mwss", "healpix"] else 0` (489, 579, 847, 963): the name is not
lower-cased. -/
def mOffset (sampling : PyStr) : ℤ := if sampling = sMWSS ∨ sampling = sHP then 1 else 0

/-- The azimuths of ring `t` (324-331, 424-428, 657-662, 748-754). -/
noncomputable def phisAt (L : ℤ) (sampling : PyStr) (nside t : ℤ) : Except PyErr (ℤ × (ℤ → ℝ)) :=
  if lower sampling = sHP then phis_ring t nside else phis_equiang L sampling

/-- `entry` (340-344, 430-433, 672-675, 757-760). -/
noncomputable def entryAt (sampling : PyStr) (nside t p : ℤ) (θ φ : ℝ) : ℤ × ℤ :=
  if lower sampling = sHP then (0, hp_ang2pix nside θ φ) else (t, p)

/-- The starting degree of the loops, `max(L_lower, abs(spin))`. -/
def elStart (L_lower spin : ℤ) : ℤ := max L_lower |spin|

/-! ## Inverse methods -/

/-- `_compute_inverse_direct` (286-369). -/
noncomputable def inverseDirect (flm : ℤ → ℤ → ℂ) (L spin : ℤ) (sampling : PyStr) (nt : ℤ)
    (θ : ℤ → ℝ) (nside : ℤ) (reality : Bool) (L_lower : ℤ) : Except PyErr (ℤ → ℤ → ℂ) :=
  forRangeM 0 nt (fun t f => do
    let φs ← phisAt L sampling nside t
    pure (forRange (elStart L_lower spin) L (fun el f =>
      let dl := baseSlice (θ t) el L spin reality
      forRange 0 φs.1 (fun p f =>
        let e := entryAt sampling nside t p (θ t) (φs.2 p)
        if reality then
          let f := add2 f e.1 e.2 ((-1) ^ spin * elfactor el * dl (L - 1) * flm el (L - 1))
          forRange 1 (el + 1) (fun m f =>
            let val := (-1) ^ spin * elfactor el * cis (m * φs.2 p) * dl (m + L - 1)
              * flm el (m + L - 1)
            add2 f e.1 e.2 (val + (starRingEnd ℂ) val)) f
        else
          forRange (-el) (el + 1) (fun m f =>
            add2 f e.1 e.2 ((-1) ^ spin * elfactor el * cis (m * φs.2 p) * dl (m + L - 1)
              * flm el (m + L - 1))) f) f) f))
    (fun _ _ => 0)

/-- `ftm` of `_compute_inverse_sov` (410-421). -/
noncomputable def inverseSovFtm (flm : ℤ → ℤ → ℂ) (L spin nt : ℤ) (θ : ℤ → ℝ) (reality : Bool)
    (L_lower : ℤ) : ℤ → ℤ → ℂ :=
  forRange 0 nt (fun t ftm =>
    forRange (elStart L_lower spin) L (fun el ftm =>
      let dl := baseSlice (θ t) el L spin reality
      forRange (if reality then 0 else -el) (el + 1) (fun m ftm =>
        add2 ftm t (m + L - 1) ((-1) ^ spin * elfactor el * dl (m + L - 1) * flm el (m + L - 1)))
        ftm) ftm) (fun _ _ => 0)

/-- `_compute_inverse_sov` (372-443). -/
noncomputable def inverseSov (flm : ℤ → ℤ → ℂ) (L spin : ℤ) (sampling : PyStr) (nt : ℤ)
    (θ : ℤ → ℝ) (nside : ℤ) (reality : Bool) (L_lower : ℤ) : Except PyErr (ℤ → ℤ → ℂ) :=
  let ftm := inverseSovFtm flm L spin nt θ reality L_lower
  forRangeM 0 nt (fun t f => do
    let φs ← phisAt L sampling nside t
    pure (forRange 0 φs.1 (fun p f =>
      let e := entryAt sampling nside t p (θ t) (φs.2 p)
      if reality then
        let f := add2 f e.1 e.2 (ftm t (L - 1))
        forRange 1 L (fun m f =>
          let val := ftm t (m + L - 1) * cis (m * φs.2 p)
          add2 f e.1 e.2 (val + (starRingEnd ℂ) val)) f
      else
        forRange (-(L - 1)) L (fun m f =>
          add2 f e.1 e.2 (ftm t (m + L - 1) * cis (m * φs.2 p))) f) f))
    (fun _ _ => 0)

/-- An environment for the NumPy ring transforms, which do not read it. -/
def noCuda : CudaEnv := ⟨⟨[], []⟩, true, [], fun _ => 0⟩

/-- The Fourier synthesis that ends both FFT methods (522-534, 598-610) and the precompute
transforms (precompute_transforms/spherical.py 129-148, 205-219, where the method of the ring
transforms may be another); `ncol` is `ftm.shape[1]`. -/
noncomputable def inverseFftM (method : PyStr) (ftm : ℤ → ℤ → ℂ) (L : ℤ) (sampling : PyStr)
    (ncol nside : ℤ) (reality : Bool) : Except PyErr (ℤ → ℤ → ℂ) :=
  if lower sampling = sHP then do
    let r ← healpix_ifft noCuda ftm L nside method reality
    pure (fun _ i => r.1 i)
  else if reality then do
    let np ← nphi_equiang L sampling
    let s := L - 1 + mOffset sampling
    pure (fun t => irfft_fwd (ncol - s) (fun k => ftm t (s + k)) np)
  else pure (fun t => ifft_fwd ncol (ifftshift ncol (ftm t)))

/-- The synthesis of the base transforms. -/
noncomputable def inverseFft (ftm : ℤ → ℤ → ℂ) (L : ℤ) (sampling : PyStr) (ncol nside : ℤ)
    (reality : Bool) : Except PyErr (ℤ → ℤ → ℂ) :=
  inverseFftM mNumpy ftm L sampling ncol nside reality

/-- `ftm` of `_compute_inverse_sov_fft` (484-520). -/
noncomputable def inverseFftFtm (flm : ℤ → ℤ → ℂ) (L spin : ℤ) (sampling : PyStr) (nt : ℤ)
    (θ : ℤ → ℝ) (nside : ℤ) (reality : Bool) (L_lower : ℤ) : ℤ → ℤ → ℂ :=
  let off := mOffset sampling
  forRange 0 nt (fun t ftm =>
    let phi0 : ℝ := if lower sampling = sHP then p2phi_ring t 0 nside else 0
    forRange (elStart L_lower spin) L (fun el ftm =>
      let dl := baseSlice (θ t) el L spin reality
      forRange (if reality then 0 else -el) (el + 1) (fun m ftm =>
        let phase : ℂ := if lower sampling = sHP then cis (m * phi0) else 1
        let val := (-1) ^ spin * elfactor el * dl (m + L - 1) * flm el (m + L - 1) * phase
        let ftm := if reality = true ∧ lower sampling = sHP then
            (if m ≠ 0 then add2 ftm t (-m + L - 1 + off) ((starRingEnd ℂ) val) else ftm)
          else ftm
        add2 ftm t (m + L - 1 + off) val) ftm) ftm) (fun _ _ => 0)

/-- `_compute_inverse_sov_fft` (446-536). -/
noncomputable def inverseSovFft (flm : ℤ → ℤ → ℂ) (L spin : ℤ) (sampling : PyStr) (nt : ℤ)
    (θ : ℤ → ℝ) (nside : ℤ) (reality : Bool) (L_lower : ℤ) : Except PyErr (ℤ → ℤ → ℂ) :=
  if lower sampling = sHP ∧ ¬ L ≥ 2 * nside then .error .assertionError
  else do
    let shape ← ftm_shape L sampling (some nside)
    inverseFft (inverseFftFtm flm L spin sampling nt θ nside reality L_lower) L sampling shape.2
      nside reality

/-- `a[r, lo:hi] += v`. -/
def addRow (a : ℤ → ℤ → ℂ) (r lo hi : ℤ) (v : ℤ → ℂ) : ℤ → ℤ → ℂ :=
  fun x y => if x = r ∧ lo ≤ y ∧ y < hi then a x y + v (y - lo) else a x y

/-- `ftm` of `_compute_inverse_sov_fft_vectorized` (576-596). -/
noncomputable def inverseVecFtm (flm : ℤ → ℤ → ℂ) (L spin : ℤ) (sampling : PyStr) (nt : ℤ)
    (θ : ℤ → ℝ) (nside : ℤ) (reality : Bool) (L_lower : ℤ) : ℤ → ℤ → ℂ :=
  let off := mOffset sampling
  let ftm := forRange 0 nt (fun t ftm =>
    let phase : ℤ → ℂ := if lower sampling = sHP then ring_phase_shift_hp L t nside false reality
      else fun _ => 1
    forRange (elStart L_lower spin) L (fun el ftm =>
      let dl := baseSlice (θ t) el L spin reality
      let ms := if reality then L - 1 else 0
      let val : ℤ → ℂ := fun j => elfactor el * dl (ms + j) * flm el (ms + j) * phase j
      let ftm := if reality = true ∧ lower sampling = sHP then
          addRow ftm t off (L - 1 + off) (fun i => (starRingEnd ℂ) (val (L - 1 - i)))
        else ftm
      addRow ftm t (ms + off) (2 * L - 1 + off) val) ftm) (fun _ _ => 0)
  fun t k => ftm t k * (-1) ^ spin

/-- `_compute_inverse_sov_fft_vectorized` (539-612). -/
noncomputable def inverseVec (flm : ℤ → ℤ → ℂ) (L spin : ℤ) (sampling : PyStr) (nt : ℤ)
    (θ : ℤ → ℝ) (nside : ℤ) (reality : Bool) (L_lower : ℤ) : Except PyErr (ℤ → ℤ → ℂ) := do
  let shape ← ftm_shape L sampling (some nside)
  inverseFft (inverseVecFtm flm L spin sampling nt θ nside reality L_lower) L sampling shape.2
    nside reality

/-- Method names. -/
def bDirect : PyStr := "direct".toList
def bSov : PyStr := "sov".toList
def bSovFft : PyStr := "sov_fft".toList
def bVec : PyStr := "sov_fft_vectorized".toList

/-- Attach the shape `samples.f_shape(L, sampling, nside)` to the computed values. -/
def packSignal (L : ℤ) (sampling : PyStr) (nside : Option ℤ) (f : ℤ → ℤ → ℂ) :
    Except PyErr (Nd ℂ) := do
  let shape ← f_shape (some L) sampling nside
  match shape with
  | [n] => pure (.d1 n (f 0))
  | [r, c] => pure (.d2 r c f)
  | _ => .error .valueError

/-- The dictionary `transform_methods` of `_inverse` (116-121). -/
noncomputable def inverseMethod (method : PyStr) : Except PyErr ((ℤ → ℤ → ℂ) → ℤ → ℤ → PyStr → ℤ →
    (ℤ → ℝ) → ℤ → Bool → ℤ → Except PyErr (ℤ → ℤ → ℂ)) :=
  if method = bDirect then .ok inverseDirect
  else if method = bSov then .ok inverseSov
  else if method = bSovFft then .ok inverseSovFft
  else if method = bVec then .ok inverseVec
  else .error .keyError

/-- Shape of an array. -/
def Nd.shape {α : Type*} : Nd α → List ℤ
  | .d1 n _ => [n]
  | .d2 r c _ => [r, c]
  | .d3 p r c _ => [p, r, c]
  | .other k => List.replicate k 0

/-- Contents of a two-dimensional array, or of a one-dimensional one in row 0. -/
def Nd.get2 {α : Type*} [Zero α] : Nd α → ℤ → ℤ → α
  | .d1 _ a => fun _ j => a j
  | .d2 _ _ a => a
  | _ => fun _ _ => 0

/-- `_inverse` (62-131). The warning is not modelled. `nside` is only read for HEALPix, where
`samples.thetas` has already refused `None`. -/
noncomputable def baseInverseWith (G : GlTables) (flm : Nd ℂ) (L spin : ℤ) (sampling method : PyStr)
    (nside : Option ℤ) (reality : Bool) (L_lower : ℤ) : Except PyErr (Nd ℂ) :=
  if flm.shape ≠ [(flm_shape L).1, (flm_shape L).2] then .error .assertionError
  else if ¬ L > 0 then .error .assertionError
  else if ¬ (0 ≤ L_lower ∧ L_lower < L) then .error .assertionError
  else do
    let reality := if reality = true ∧ spin ≠ 0 then false else reality
    let θ ← thetas G.nodes (some L) sampling nside
    let run ← inverseMethod method
    let f ← run flm.get2 L spin sampling θ.1 θ.2 (nside.getD 0) reality L_lower
    packSignal L sampling nside f

/-- `inverse` (12-59). -/
noncomputable def baseInverse (G : GlTables) (flm : Nd ℂ) (L spin : ℤ) (sampling : PyStr)
    (nside : Option ℤ) (reality : Bool) (L_lower : ℤ) : Except PyErr (Nd ℂ) :=
  baseInverseWith G flm L spin sampling bVec nside reality L_lower

/-! ## Forward methods -/

/-- `_compute_forward_direct` (615-703). -/
noncomputable def forwardDirect (f : ℤ → ℤ → ℂ) (L spin : ℤ) (sampling : PyStr) (_ncol nt : ℤ)
    (θ w : ℤ → ℝ) (nside : ℤ) (reality : Bool) (L_lower : ℤ) : Except PyErr (ℤ → ℤ → ℂ) :=
  forRangeM 0 nt (fun t flm => do
    let φs ← phisAt L sampling nside t
    pure (forRange (elStart L_lower spin) L (fun el flm =>
      let dl := baseSlice (θ t) el L spin reality
      forRange 0 φs.1 (fun p flm =>
        let e := entryAt sampling nside t p (θ t) (φs.2 p)
        if reality then
          let flm := add2 flm el (L - 1)
            (w t * (-1) ^ spin * elfactor el * dl (L - 1) * f e.1 e.2)
          forRange 1 (el + 1) (fun m flm =>
            let val := w t * (-1) ^ spin * elfactor el * cis (-(m * φs.2 p)) * dl (m + L - 1)
              * f e.1 e.2
            let flm := add2 flm el (m + L - 1) val
            add2 flm el (-m + L - 1) ((-1) ^ m * (starRingEnd ℂ) val)) flm
        else
          forRange (-el) (el + 1) (fun m flm =>
            add2 flm el (m + L - 1) (w t * (-1) ^ spin * elfactor el * cis (-(m * φs.2 p))
              * dl (m + L - 1) * f e.1 e.2)) flm) flm) flm))
    (fun _ _ => 0)

/-- `ftm` of `_compute_forward_sov` (751-764). -/
noncomputable def forwardSovFtm (f : ℤ → ℤ → ℂ) (L : ℤ) (sampling : PyStr) (nt : ℤ) (θ : ℤ → ℝ)
    (nside : ℤ) (reality : Bool) : Except PyErr (ℤ → ℤ → ℂ) :=
  forRangeM 0 nt (fun t ftm => do
    let φs ← phisAt L sampling nside t
    pure (forRange 0 φs.1 (fun p ftm =>
      let e := entryAt sampling nside t p (θ t) (φs.2 p)
      forRange (if reality then 0 else -L + 1) L (fun m ftm =>
        add2 ftm t (m + L - 1) (cis (-(m * φs.2 p)) * f e.1 e.2)) ftm) ftm))
    (fun _ _ => 0)

/-- The sum over rings and degrees of `_compute_forward_sov` (766-799) and
`_compute_forward_sov_fft` (865-915); `phase t m` is 1 in the former, and the offset there is 0. -/
noncomputable def forwardLoop (ftm : ℤ → ℤ → ℂ) (L spin nt : ℤ) (θ w : ℤ → ℝ) (off : ℤ)
    (phase : ℤ → ℤ → ℂ) (reality : Bool) (L_lower : ℤ) : ℤ → ℤ → ℂ :=
  forRange 0 nt (fun t flm =>
    forRange (elStart L_lower spin) L (fun el flm =>
      let dl := baseSlice (θ t) el L spin reality
      if reality then
        let flm := add2 flm el (L - 1)
          (w t * (-1) ^ spin * elfactor el * dl (L - 1) * ftm t (L - 1 + off))
        forRange 1 (el + 1) (fun m flm =>
          let val := w t * (-1) ^ spin * elfactor el * dl (m + L - 1) * ftm t (m + L - 1 + off)
            * phase t m
          let flm := add2 flm el (m + L - 1) val
          add2 flm el (-m + L - 1) ((-1) ^ m * (starRingEnd ℂ) val)) flm
      else
        forRange (-el) (el + 1) (fun m flm =>
          add2 flm el (m + L - 1) (w t * (-1) ^ spin * elfactor el * dl (m + L - 1)
            * ftm t (m + L - 1 + off) * phase t m)) flm) flm) (fun _ _ => 0)

/-- `_compute_forward_sov` (706-799). -/
noncomputable def forwardSov (f : ℤ → ℤ → ℂ) (L spin : ℤ) (sampling : PyStr) (_ncol nt : ℤ)
    (θ w : ℤ → ℝ) (nside : ℤ) (reality : Bool) (L_lower : ℤ) : Except PyErr (ℤ → ℤ → ℂ) := do
  let ftm ← forwardSovFtm f L sampling nt θ nside reality
  pure (forwardLoop ftm L spin nt θ w 0 (fun _ _ => 1) reality L_lower)

/-- The Fourier analysis that starts both FFT methods (845-863, 956-975); `ncol` is
`f.shape[1]` and `method` that of the ring transforms. -/
noncomputable def forwardFftM (method : PyStr) (f : ℤ → ℤ → ℂ) (L : ℤ) (sampling : PyStr)
    (ncol nside : ℤ) (reality : Bool) : Except PyErr (ℤ → ℤ → ℂ) :=
  if lower sampling = sHP then do
    let r ← healpix_fft noCuda (f 0) L nside method reality
    pure r.1
  else if reality then
    let s := L - 1 + mOffset sampling
    pure (fun t k => if s ≤ k then rfft ncol (fun p => (f t p).re) (k - s) else 0)
  else pure (fun t => fftshift ncol (fft ncol (f t)))

/-- The analysis of the base transforms. -/
noncomputable def forwardFft (f : ℤ → ℤ → ℂ) (L : ℤ) (sampling : PyStr) (ncol nside : ℤ)
    (reality : Bool) : Except PyErr (ℤ → ℤ → ℂ) :=
  forwardFftM mNumpy f L sampling ncol nside reality

/-- `_compute_forward_sov_fft` (802-915). -/
noncomputable def forwardSovFft (f : ℤ → ℤ → ℂ) (L spin : ℤ) (sampling : PyStr) (ncol nt : ℤ)
    (θ w : ℤ → ℝ) (nside : ℤ) (reality : Bool) (L_lower : ℤ) : Except PyErr (ℤ → ℤ → ℂ) := do
  let ftm ← forwardFft f L sampling ncol nside reality
  pure (forwardLoop ftm L spin nt θ w (mOffset sampling)
    (fun t m => if lower sampling = sHP then cis (-(m * p2phi_ring t 0 nside)) else 1)
    reality L_lower)

/-- `_compute_forward_sov_fft_vectorized` (918-1011). `m_conj[k] = (-1)**((k + 1) % 2)`. -/
noncomputable def forwardVec (f : ℤ → ℤ → ℂ) (L spin : ℤ) (sampling : PyStr) (ncol nt : ℤ)
    (θ w : ℤ → ℝ) (nside : ℤ) (reality : Bool) (L_lower : ℤ) : Except PyErr (ℤ → ℤ → ℂ) := do
  let off := mOffset sampling
  let ftm ← forwardFft f L sampling ncol nside reality
  let flm : ℤ → ℤ → ℂ := forRange 0 nt (fun t flm =>
    let phase : ℤ → ℂ := if lower sampling = sHP then ring_phase_shift_hp L t nside true reality
      else fun _ => 1
    forRange (elStart L_lower spin) L (fun el flm =>
      let dl := baseSlice (θ t) el L spin reality
      let ms := if reality then L - 1 else 0
      let flm := addRow flm el ms (2 * L - 1) (fun j =>
        w t * elfactor el * (dl (ms + j) * ftm t (ms + off + j)) * phase j)
      if reality then
        fun x i => if x = el ∧ 0 ≤ i ∧ i < ms then
          (-1) ^ ((ms - i) % 2).toNat * (starRingEnd ℂ) (flm el (ms + 1 + (ms - 1 - i)))
          else flm x i
      else flm) flm) (fun _ _ => 0)
  pure (fun el j => flm el j * (-1) ^ spin)

/-- The dictionary `transform_methods` of `_forward` (267-272). -/
noncomputable def forwardMethod (method : PyStr) : Except PyErr ((ℤ → ℤ → ℂ) → ℤ → ℤ → PyStr → ℤ →
    ℤ → (ℤ → ℝ) → (ℤ → ℝ) → ℤ → Bool → ℤ → Except PyErr (ℤ → ℤ → ℂ)) :=
  if method = bDirect then .ok forwardDirect
  else if method = bSov then .ok forwardSov
  else if method = bSovFft then .ok forwardSovFft
  else if method = bVec then .ok forwardVec
  else .error .keyError

/-- The resampling of `_forward` (251-261): the signal, the name of its scheme and its angles. -/
noncomputable def forwardPrepare (G : GlTables) (f : Nd ℂ) (L spin : ℤ) (sampling : PyStr)
    (nside : Option ℤ) : Except PyErr (Nd ℂ × PyStr × ℤ × (ℤ → ℝ)) := do
  let f ← if lower sampling = sMW then mw_to_mwss f L (fun _ => spin) else pure f
  if lower sampling = sMW ∨ lower sampling = sMWSS then do
    let f ← upsample_by_two_mwss f L (fun _ => spin)
    let θ ← thetas G.nodes (some (2 * L)) sMWSS none
    pure (f, sMWSS, θ)
  else do
    let θ ← thetas G.nodes (some L) sampling nside
    pure (f, sampling, θ)

/-- `_forward` (199-283). The warning is not modelled. -/
noncomputable def baseForwardWith (G : GlTables) (f : Nd ℂ) (L spin : ℤ) (sampling method : PyStr)
    (nside : Option ℤ) (reality : Bool) (L_lower : ℤ) : Except PyErr (Nd ℂ) := do
  let shape ← f_shape (some L) sampling nside
  if f.shape ≠ shape then .error .assertionError
  else if ¬ L > 0 then .error .assertionError
  else if ¬ (0 ≤ L_lower ∧ L_lower < L) then .error .assertionError
  else do
    let reality := if reality = true ∧ spin ≠ 0 then false else reality
    let r ← forwardPrepare G f L spin sampling nside
    let w ← quad_weights_transform G.weights L r.2.1 (nside.getD 0)
    let run ← forwardMethod method
    let flm ← run r.1.get2 L spin r.2.1 (r.1.shape.getLast?.getD 0) r.2.2.1 r.2.2.2 w.2
      (nside.getD 0) reality L_lower
    pure (.d2 (flm_shape L).1 (flm_shape L).2 flm)

/-- `forward_with_iterative_refinement` (utils/iterative_refinement.py 9-46), for arrays. -/
def refine {α β : Type} (f : α) (n_iter : ℤ) (fwd : α → Except PyErr β) (bwd : β → Except PyErr α)
    (sub : α → α → α) (add : β → β → β) : Except PyErr β := do
  let flm ← fwd f
  forRangeM 0 n_iter (fun _ flm => do
    let f_recov ← bwd flm
    let e ← fwd (sub f f_recov)
    pure (add flm e)) flm

/-- Elementwise operation on arrays of the same shape. -/
def Nd.map2 {α : Type*} (op : α → α → α) : Nd α → Nd α → Nd α
  | .d1 n a, .d1 _ b => .d1 n (fun i => op (a i) (b i))
  | .d2 r c a, .d2 _ _ b => .d2 r c (fun i j => op (a i j) (b i j))
  | .d3 p r c a, .d3 _ _ _ b => .d3 p r c (fun i j k => op (a i j k) (b i j k))
  | x, _ => x

/-- `forward` (134-196). -/
noncomputable def baseForward (G : GlTables) (f : Nd ℂ) (L spin : ℤ) (sampling : PyStr)
    (nside : Option ℤ) (reality : Bool) (L_lower iter : ℤ) : Except PyErr (Nd ℂ) :=
  let fwd := fun f => baseForwardWith G f L spin sampling bVec nside reality L_lower
  if iter = 0 then fwd f
  else refine f iter fwd
    (fun flm => baseInverseWith G flm L spin sampling bVec nside reality L_lower)
    (Nd.map2 (· - ·)) (Nd.map2 (· + ·))

end S2fft
