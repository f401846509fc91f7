import Verif.Model.PrecomputeJaxDouble
import Verif.Model.ResamplingDouble

/-!
# Resampling, its quadrature weights and the forward transforms of JAX in double precision

The functions that the JAX forward transforms with a precomputed kernel call for the schemes MW and MWSS,
in 64-bit mode. All are compiled, see `Spec/XlaDouble.lean`. They follow the NumPy functions of
`Model/ResamplingDouble.lean`, except that every inverse Fourier transform is computed as
`conj(fft(conj(x)))`, see `jaxFft` (the shift that comes between the first conjugation and the transform
commutes with it), and for the definitions below. The flags `fold` and `fuse` say which of the
rearrangements allowed to the compiler take place.
-/

namespace S2fft
open Spec

/-- A complex number divided by a real constant, part by part. -/
noncomputable def cquotJ (F : XlaLib) (at_ : List ℤ) (z : ℂ) (n : ℤ) : ℂ :=
  ⟨F.quot (0 :: at_) z.re n, F.quot (1 :: at_) z.im n⟩

/-- `periodic_extension` for MW (resampling_jax.py 146-227): the division by the number of samples comes
after the last conjugation. -/
noncomputable def extensionJ (F : XlaLib) (L : ℤ) (f : ℤ → ℤ → ℂ) (spin t p : ℤ) : ℂ :=
  let e := extensionRowsF (jaxFft F.toFftLib) L f spin t
  cquotJ F [t, p, 219] ((jaxFft F.toFftLib).ifft (2 * L - 1) (ifftshift (2 * L - 1) e) p) (2 * L - 1)

/-- `jnp.exp(-1j * m * jnp.pi / (2 * L - 1))` (resampling_jax.py 83); the compiler may divide the constants
first. -/
noncomputable def mwssPhaseJ (F : XlaLib) (fold : Bool) (L m : ℤ) : ℂ :=
  let n : ℝ := ((2 * L - 1 : ℤ) : ℝ)
  let x := if fold then F.fl (-(m : ℝ) * F.fl (F.fl Real.pi * F.fl (1 / n)))
    else F.quot [m, 83] (F.fl (-(m : ℝ) * F.fl Real.pi)) n
  ⟨F.cos x, F.sin x⟩

/-- `mw_to_mwss_theta` (resampling_jax.py 43-97): the first `L + 1` rows. -/
noncomputable def mwssThetaJ (F : XlaLib) (fold : Bool) (L : ℤ) (f : ℤ → ℤ → ℂ) (spin t p : ℤ) : ℂ :=
  let e := extensionJ F L f spin
  let z : ℤ → ℂ := fun j => if 1 ≤ j then
    F.mul (fftshift (2 * L - 1) (fftFwdF (jaxFft F.toFftLib) (2 * L - 1) (fun t => e t p)) (j - 1))
      (mwssPhaseJ F fold L (-(L - 1) + (j - 1))) else 0
  (jaxFft F.toFftLib).ifft (2 * L) (ifftshift (2 * L) z) t

/-- `mw_to_mwss` (resampling_jax.py 10-40) of one signal. -/
noncomputable def mwToMwssJ (F : XlaLib) (fold : Bool) (L : ℤ) (f : ℤ → ℤ → ℂ) (spin : ℤ) : ℤ → ℤ → ℂ :=
  mwssPhiF (jaxFft F.toFftLib) L (mwssThetaJ F fold L f spin)

/-- `upsample_by_two_mwss` (resampling_jax.py 267-301) of one signal. -/
noncomputable def upsampleJ (F : XlaLib) (L : ℤ) (f : ℤ → ℤ → ℂ) (spin : ℤ) : ℤ → ℤ → ℂ :=
  upsampleF (jaxFft F.toFftLib) L f spin

/-! ## Quadrature weights -/

/-- The transformed weights in `quad_weights_mwss_theta_only` (quadrature_jax.py 273-278), before the
division. -/
noncomputable def mwssFftJ (F : XlaLib) (L t : ℤ) : ℝ :=
  let w : ℤ → ℂ := forRange (-(L - 1) + 1) (L + 1)
    (fun i w => set1 w (i + L - 1) (mwWeightsF F.toDoubleLib (i - 1))) 0
  (F.fft (2 * L) (ifftshift (2 * L) w) t).re

/-- The array `wr` (quadrature_jax.py 278). -/
noncomputable def mwssWrJ (F : XlaLib) (L t : ℤ) : ℝ :=
  F.quot [t, 278] (mwssFftJ F L t) ((2 * L : ℤ) : ℝ)

/-- `quad_weights_mwss_theta_only` (quadrature_jax.py 259-282). A division that became a multiplication may
be contracted with the addition, `fuse`. -/
noncomputable def quadWeightsMwssThetaJ (F : XlaLib) (fuse : ℤ → Bool) (L t : ℤ) : ℝ :=
  if 1 ≤ t ∧ t < L then
    let t' := 2 * L - 1 - (t - 1)
    if fuse t then F.mulAdd [t, 280] (mwssWrJ F L t) (mwssFftJ F L t') (F.fl (1 / ((2 * L : ℤ) : ℝ)))
    else F.fl (mwssWrJ F L t + mwssWrJ F L t')
  else mwssWrJ F L t

/-- `quad_weights_transform` for MWSS (quadrature_jax.py 39-40). -/
noncomputable def quadWeightsTransformJ (F : XlaLib) (fuse : ℤ → Bool) (fold : Bool) (L t : ℤ) : ℝ :=
  scaleJ F fold (quadWeightsMwssThetaJ F fuse (2 * L) t) ((2 * L : ℤ) : ℝ) [t, 40]

/-! ## Transforms -/

/-- The resampling in `forward_transform_jax` (spherical.py 419-424) of one signal. -/
noncomputable def resampleJ (F : XlaLib) (fold : Bool) (f : Nd ℂ) (L : ℤ) (sampling : PyStr) (spin : ℤ) :
    Except PyErr (Nd ℂ × PyStr) :=
  if lower sampling = sMW then match f with
    | .d2 _ _ a =>
      .ok (.d2 (2 * L + 1) (2 * L) (upsampleJ F L (mwToMwssJ F fold L a spin) spin), sMWSS)
    | _ => .error .indexError
  else if lower sampling = sMWSS then match f with
    | .d2 _ _ a => .ok (.d2 (2 * L + 1) (2 * L) (upsampleJ F L a spin), sMWSS)
    | _ => .error .indexError
  else .ok (f, sampling)

/-- `forward_transform_jax` (spherical.py 383-456) without `nside`, for a single signal. -/
noncomputable def forwardTransformJ (F : XlaLib) (fold : Bool) (f : Nd ℂ) (kernel : Nd ℝ) (L : ℤ)
    (sampling : PyStr) (reality : Bool) (spin : ℤ) : Except PyErr (Nd ℂ) := do
  let (f, s) ← resampleJ F fold f L sampling spin
  precomputeForwardF F.toFftLib f kernel L s reality spin

/-- The resampling of `forward_transform_jax` (wigner.py 417-423), as `wignerResampleF`. -/
noncomputable def wignerResampleJ (F : XlaLib) (fold : Bool) (B nt np : ℤ) (f : ℤ → ℤ → ℤ → ℂ) (L : ℤ)
    (spins : ℤ → ℤ) (sampling : PyStr) : Except PyErr (ℤ × ℤ × (ℤ → ℤ → ℤ → ℂ) × PyStr) :=
  if lower sampling = sMW then
    if B = 1 then .error .indexError else
    .ok (2 * L + 1, 2 * L, fun k => upsampleJ F L (mwToMwssJ F fold L (f k) (spins k)) (spins k), sMWSS)
  else if lower sampling = sMWSS then
    if B = 1 then .error .indexError else
    .ok (2 * L + 1, 2 * L, fun k => upsampleJ F L (f k) (spins k), sMWSS)
  else .ok (nt, np, f, sampling)

/-- `forward_transform_jax` (wigner.py 373-467) without `nside`. -/
noncomputable def precomputeWignerForwardJ (F : XlaLib) (fold : Bool) (f : Nd ℂ) (K : Nd4) (L N : ℤ)
    (sampling : PyStr) (reality : Bool) : Except PyErr (Nd ℂ) :=
  match f with
  | .d3 ng nt np a =>
    if lower sampling = sHP then .error .valueError else do
    let B := fbanPlanes ng reality
    let (r, c, fban, s) ← wignerResampleJ F fold B nt np (wignerFbanF F.toFftLib a ng reality) L
      (fun k => -(nFirst N reality + k)) sampling
    let off := mOffset s
    if inHealpix s then .error .typeError
    else if (K.n, K.t, K.l, K.m) ≠ (B, r, L, c - off) ∨
        (B, c - off) ≠ (nDim N reality, 2 * L - 1) then .error .valueError
    else
      let A : ℤ → ℤ → ℤ → ℂ := fun k t j => fftshift c (F.fft c (fban k t)) (off + j)
      .ok (.d3 (flmn_shape L N).1 (flmn_shape L N).2.1 (flmn_shape L N).2.2
        (wignerFlmnF F.toFftLib A K.val L N r reality))
  | _ => .error .indexError

end S2fft
