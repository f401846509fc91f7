import Verif.Model.PrecomputeDouble
import Verif.Model.Quadrature
import Verif.Model.Resampling

/-!
# Resampling, its quadrature weights and the forward transform in double precision

The functions of `Model/Resampling.lean` and `Model/Quadrature.lean` that the NumPy forward transform
with a precomputed kernel calls for the schemes MW and MWSS, with a rounding wherever the code does an
operation on floats. The signal is a single one, without the batch dimension. Shifts, flips, changes of
sign, zero padding and the doubling and halving of doubles are exact; the model of the first two powers
`(-1)**…` multiplies by them exactly.
-/

namespace S2fft
open Spec

/-- `np.fft.fft(x, norm="forward")` of a vector of length `n`: scaled by `1 / n`. -/
noncomputable def fftFwdF (F : FftLib) (n : ℤ) (x : ℤ → ℂ) (k : ℤ) : ℂ :=
  F.mul ((F.fl (1 / n) : ℝ) : ℂ) (F.fft n x k)

/-- `np.fft.ifft(x)` of a vector of length `n`: scaled by `1 / n`. -/
noncomputable def ifftBwdF (F : FftLib) (n : ℤ) (x : ℤ → ℂ) (p : ℤ) : ℂ :=
  F.mul ((F.fl (1 / n) : ℝ) : ℂ) (F.ifft n x p)

/-- `periodic_extension` for MW, before the inverse transform (resampling.py 36-59). -/
noncomputable def extensionRowsF (F : FftLib) (L : ℤ) (f : ℤ → ℤ → ℂ) (spin : ℤ) : ℤ → ℤ → ℂ :=
  let np := 2 * L - 1
  let e0 : ℤ → ℤ → ℂ := fun t p => if t < L then f t p else 0
  let e1 : ℤ → ℤ → ℂ := fun t => fftshift np (F.fft np (e0 t))
  let e2 : ℤ → ℤ → ℂ := fun t j => if L ≤ t ∧ t < 2 * L - 1 then e1 (L - 2 - (t - L)) j else e1 t j
  let e3 : ℤ → ℤ → ℂ := fun t j =>
    if L ≤ t ∧ t < 2 * L - 1 then e2 t j * (-1) ^ (-(L - 1) + j).natAbs else e2 t j
  fun t j => if L ≤ t ∧ t < 2 * L - 1 then e3 t j * (-1) ^ spin.natAbs else e3 t j

/-- `periodic_extension` for MW (resampling.py 6-61). -/
noncomputable def extensionF (F : FftLib) (L : ℤ) (f : ℤ → ℤ → ℂ) (spin : ℤ) (t : ℤ) : ℤ → ℂ :=
  ifftBwdF F (2 * L - 1) (ifftshift (2 * L - 1) (extensionRowsF F L f spin t))

/-- `np.exp(-1j * m * np.pi / (2 * L - 1))` (resampling.py 318), from left to right. NumPy divides a
complex number by multiplying with the reciprocal. -/
noncomputable def mwssPhaseF (F : FftLib) (L m : ℤ) : ℂ :=
  let x := F.fl (F.fl (-(m : ℝ) * F.fl Real.pi) * F.fl (1 / ((2 * L - 1 : ℤ) : ℝ)))
  ⟨F.cos x, F.sin x⟩

/-- `mw_to_mwss_theta` (resampling.py 309-326): the first `L + 1` rows. -/
noncomputable def mwssThetaF (F : FftLib) (L : ℤ) (f : ℤ → ℤ → ℂ) (spin : ℤ) (t p : ℤ) : ℂ :=
  let e := extensionF F L f spin
  let z : ℤ → ℂ := fun j => if 1 ≤ j then
    F.mul (fftshift (2 * L - 1) (fftFwdF F (2 * L - 1) (fun t => e t p)) (j - 1))
      (mwssPhaseF F L (-(L - 1) + (j - 1))) else 0
  F.ifft (2 * L) (ifftshift (2 * L) z) t

/-- `mw_to_mwss_phi` (resampling.py 276-281). -/
noncomputable def mwssPhiF (F : FftLib) (L : ℤ) (f : ℤ → ℤ → ℂ) (t : ℤ) : ℤ → ℂ :=
  let e : ℤ → ℂ := fun j =>
    if 1 ≤ j then fftshift (2 * L - 1) (fftFwdF F (2 * L - 1) (f t)) (j - 1) else 0
  F.ifft (2 * L) (ifftshift (2 * L) e)

/-- `mw_to_mwss` (resampling.py 329-355) of an array with two dimensions: `L + 1` rows of `2 L`. -/
noncomputable def mwToMwssF (F : FftLib) (L : ℤ) (f : ℤ → ℤ → ℂ) (spin : ℤ) : ℤ → ℤ → ℂ :=
  mwssPhiF F L (mwssThetaF F L f spin)

/-- `periodic_extension_spatial_mwss` (resampling.py 64-101): nothing is rounded. -/
def extensionMwssF (L : ℤ) (f : ℤ → ℤ → ℂ) (spin : ℤ) (t p : ℤ) : ℂ :=
  if t < L + 1 then f t p
  else (-1) ^ spin.natAbs * fftshift (2 * L) (f (L - 1 - (t - (L + 1)))) p

/-- `upsample_by_two_mwss` (resampling.py 104-160) of an array with two dimensions: the first
`2 L + 1` rows. -/
noncomputable def upsampleF (F : FftLib) (L : ℤ) (f : ℤ → ℤ → ℂ) (spin : ℤ) (t p : ℤ) : ℂ :=
  let e := extensionMwssF L f spin
  let up : ℤ → ℂ := fun j => if L ≤ j ∧ j < 2 * L + L then
    fftshift (2 * L) (fftFwdF F (2 * L) (fun t => e t p)) (j - L) else 0
  F.ifft (2 * (2 * L)) (ifftshift (2 * (2 * L)) up) t

/-- `mw_weights` (quadrature.py 291-320). Halving `np.pi` is exact, and so is `1 - m**2`, an
integer. -/
noncomputable def mwWeightsF (F : DoubleLib) (m : ℤ) : ℂ :=
  if m = 1 then ⟨0, F.fl Real.pi / 2⟩
  else if m = -1 then ⟨0, -(F.fl Real.pi / 2)⟩
  else if m % 2 = 0 then ((F.fl (2 / ((1 - m ^ 2 : ℤ) : ℝ)) : ℝ) : ℂ)
  else 0

/-- The array `wr` of `quad_weights_mwss_theta_only` (quadrature.py 252-257). -/
noncomputable def mwssWrF (F : FftLib) (L : ℤ) (t : ℤ) : ℝ :=
  let w : ℤ → ℂ := forRange (-(L - 1) + 1) (L + 1)
    (fun i w => set1 w (i + L - 1) (mwWeightsF F.toDoubleLib (i - 1))) 0
  F.fl ((F.fft (2 * L) (ifftshift (2 * L) w) t).re / ((2 * L : ℤ) : ℝ))

/-- `quad_weights_mwss_theta_only` (quadrature.py 238-262) with `spin = 0`. -/
noncomputable def quadWeightsMwssThetaF (F : FftLib) (L : ℤ) (t : ℤ) : ℝ :=
  if 1 ≤ t ∧ t < L then F.fl (mwssWrF F L t + mwssWrF F L (2 * L - 1 - (t - 1)))
  else mwssWrF F L t

/-- `quad_weights_transform` for MWSS (quadrature.py 37-38). -/
noncomputable def quadWeightsTransformF (F : FftLib) (L : ℤ) (t : ℤ) : ℝ :=
  F.fl (F.fl (F.fl (quadWeightsMwssThetaF F (2 * L) t * 2) * F.fl Real.pi) / ((2 * L : ℤ) : ℝ))

/-- The resampling in `forward_transform` (spherical.py 349-354): signal and name of its scheme. -/
noncomputable def resampleF (F : FftLib) (f : Nd ℂ) (L : ℤ) (sampling : PyStr) (spin : ℤ) :
    Except PyErr (Nd ℂ × PyStr) :=
  if lower sampling = sMW then match f with
    | .d2 _ _ a =>
      .ok (.d2 (2 * L + 1) (2 * L) (upsampleF F L (mwToMwssF F L a spin) spin), sMWSS)
    | _ => .error .indexError
  else if lower sampling = sMWSS then match f with
    | .d2 _ _ a => .ok (.d2 (2 * L + 1) (2 * L) (upsampleF F L a spin), sMWSS)
    | _ => .error .indexError
  else .ok (f, sampling)

/-- `forward_transform` (spherical.py 314-380) without `nside`, for a single signal. -/
noncomputable def forwardTransformF (F : FftLib) (f : Nd ℂ) (kernel : Nd ℝ) (L : ℤ)
    (sampling : PyStr) (reality : Bool) (spin : ℤ) : Except PyErr (Nd ℂ) := do
  let (f, s) ← resampleF F f L sampling spin
  precomputeForwardF F f kernel L s reality spin

end S2fft
