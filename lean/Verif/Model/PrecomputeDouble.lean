import Verif.Model.Precompute
import Verif.Model.RisboDouble
import Verif.Model.GridDouble
import Verif.Spec.DoubleFft

/-!
# Precomputed-kernel transforms in double precision

The functions of `Model/Precompute.lean` for the NumPy method, a kernel by the Risbo recursion and the
sampling schemes other than HEALPix, with a rounding wherever the code does an operation on floats.
Changes of sign, conjugation and conversions of small integers are exact.
-/

namespace S2fft
open Spec

/-- `np.exp(1j * m * θ)`. -/
noncomputable def expIF (F : DoubleLib) (m : ℤ) (θ : ℝ) : ℂ :=
  ⟨F.cos (F.fl (F.fl m * θ)), F.sin (F.fl (F.fl m * θ))⟩

/-- `np.sqrt((2 * el + 1) / (4 * np.pi))` (construct.py 143). -/
noncomputable def elfactorF (F : DoubleLib) (el : ℤ) : ℝ :=
  F.fl (√(F.fl (F.fl ((2 * el + 1 : ℤ) : ℝ) / F.fl (4 * F.fl Real.pi))))

/-- The angles of the kernel and the name of their scheme (construct.py 79-84). -/
noncomputable def kernelThetasF (F : DoubleLib) (lg : ℤ → ℤ → ℝ) (L : ℤ) (sampling : PyStr)
    (forward : Bool) : Except PyErr (PyStr × ℤ × (ℤ → ℝ)) :=
  if forward = true ∧ (lower sampling = sMW ∨ lower sampling = sMWSS) then do
    let θ ← thetasF F lg (some (2 * L)) sMWSS none
    pure (sMWSS, θ)
  else do
    let θ ← thetasF F lg (some L) sampling none
    pure (sampling, θ)

/-- The Risbo branch for grids that are not uniform in `θ` (construct.py 107-111). -/
noncomputable def kernelRisboDirectF (F : DoubleLib) (L c : ℤ) (θ : ℤ → ℝ) (reality : Bool) :
    ℤ → ℤ → ℤ → ℝ :=
  (forRange 0 L (fun el (s : (ℤ → ℤ → ℤ → ℝ) × (ℤ → ℤ → ℤ → ℝ)) =>
    let delta := risboFullVecF F s.1 θ L el
    (delta, setDegree s.2 el (fun t j => delta t (mStart L reality + j) c)))
    (fun _ _ _ => 0, fun _ _ _ => 0)).2

/-- The Fourier coefficients `temp[L - 1:]` of degree `el` (construct.py 128-137), the products from
left to right. -/
noncomputable def kernelFourierF (F : FftLib) (L spin c : ℤ) (θ0 : ℝ) (reality : Bool)
    (delta : ℤ → ℤ → ℝ) (a j : ℤ) : ℂ :=
  F.mul (F.mul (F.mul (delta (L - 1 + a) (mStart L reality + j)) (delta (L - 1 + a) c))
    (F.ipow (-spin - (-L + 1 + (mStart L reality + j)))))
    (expIF F.toDoubleLib (-L + 1 + (L - 1 + a)) θ0)

/-- The Risbo branch for grids uniform in `θ` (construct.py 117-140). -/
noncomputable def kernelRisboFourierF (F : FftLib) (L spin c : ℤ) (sampling : PyStr) (nt : ℤ)
    (θ : ℤ → ℝ) (reality : Bool) : Except PyErr (ℤ → ℤ → ℤ → ℝ) := do
  let s ← forRangeM 0 L (fun el (s : (ℤ → ℤ → ℝ) × (ℤ → ℤ → ℤ → ℝ)) => do
    let delta ← risboFullF F.toDoubleLib (2 * L - 1) (2 * L - 1) s.1 (F.fl (F.fl Real.pi / 2)) L el
    pure (delta, setDegree s.2 el (fun t j =>
      F.irfft L (fun a => kernelFourierF F L spin c (θ 0) reality delta a j)
        (kernelSamps sampling nt) t)))
    (fun _ _ => 0, fun _ _ _ => 0)
  pure s.2

/-- The Risbo branch (construct.py 99-143), normalisation included. -/
noncomputable def kernelRisboF (F : FftLib) (L spin : ℤ) (sampling : PyStr) (nt : ℤ) (θ : ℤ → ℝ)
    (reality : Bool) : Except PyErr (ℤ → ℤ → ℤ → ℝ) := do
  let c ← pyIndex (2 * L - 1) (L - 1 - spin)
  let dl : ℤ → ℤ → ℤ → ℝ := fun _ _ _ => 0
  let dl := if lower sampling = sHP ∨ lower sampling = sGL then
    kernelRisboDirectF F.toDoubleLib L c θ reality else dl
  let dl ← if lower sampling = sMW ∨ lower sampling = sMWSS ∨ lower sampling = sDH then
    kernelRisboFourierF F L spin c sampling nt θ reality else pure dl
  pure (fun t el j => F.fl (dl t el j * elfactorF F.toDoubleLib el))

/-- `spin_spherical_kernel` (construct.py 16-161) with the Risbo recursion, which "auto" chooses for
spins above 6, and without `nside`, so not for HEALPix. `w` is the array of quadrature weights that
`quad_weights_transform` returns. -/
noncomputable def spinSphericalKernelF (F : FftLib) (lg : ℤ → ℤ → ℝ) (w : ℤ → ℝ) (L spin : ℤ)
    (reality : Bool) (sampling : PyStr) (forward : Bool) : Except PyErr (Nd ℝ) := do
  let reality := if reality = true ∧ spin ≠ 0 then false else reality
  let (s, nt, θ) ← kernelThetasF F.toDoubleLib lg L sampling forward
  let dl ← kernelRisboF F L spin s nt θ reality
  pure (.d3 nt L (mDim L reality) (if forward then fun t el j => F.fl (dl t el j * w t) else dl))

/-- `quad_weight_dh_theta_only` (quadrature.py 181-201) for one angle. -/
noncomputable def quadWeightDhThetaF (F : DoubleLib) (theta : ℝ) (L : ℤ) : ℝ :=
  let w : ℝ := forRange 0 L (fun k w => F.fl (w
    + F.fl (F.sin (F.fl (F.fl ((2 * k + 1 : ℤ) : ℝ) * theta)) / F.fl ((2 * k + 1 : ℤ) : ℝ)))) 0
  F.fl (w * F.fl (F.fl (2 / F.fl L) * F.sin theta))

/-- `quad_weights_dh` (quadrature.py 164-178); `θ` are the sample angles. -/
noncomputable def quadWeightsDhF (F : DoubleLib) (L : ℤ) (θ : ℤ → ℝ) (t : ℤ) : ℝ :=
  F.fl (F.fl (F.fl (quadWeightDhThetaF F (θ t) L * 2) * F.fl Real.pi)
    / F.fl ((2 * L - 1 : ℤ) : ℝ))

/-- The Fourier coefficients of `inverse_transform` (spherical.py 121-127). -/
noncomputable def precomputeFtmF (F : FftLib) (flm : ℤ → ℤ → ℂ) (K : ℤ → ℤ → ℤ → ℝ) (L : ℤ)
    (sampling : PyStr) (reality : Bool) (spin : ℤ) : ℤ → ℤ → ℂ :=
  let off := mOffset sampling
  let ms := mStart L reality
  let ftm : ℤ → ℤ → ℂ := fun t k => if ms + off ≤ k then
    F.dot L (fun l => (K t l (k - (ms + off)) : ℂ)) (fun l => flm l (ms + (k - (ms + off)))) else 0
  fun t k => ftm t k * (-1) ^ spin

/-- `inverse_transform` (spherical.py 87-149) without `nside`. -/
noncomputable def precomputeInverseF (F : FftLib) (flm : Nd ℂ) (kernel : Nd ℝ) (L : ℤ)
    (sampling : PyStr) (reality : Bool) (spin : ℤ) : Except PyErr (Nd ℂ) := do
  let shape ← ftm_shape L sampling none
  match kernel with
  | .d3 kt kl kj K =>
    if (kt, kl, kj) ≠ (shape.1, L, mDim L reality) then .error .valueError
    else if flm.shape ≠ [L, 2 * L - 1] then .error .valueError
    else if shape.2 - (mStart L reality + mOffset sampling) ≠ mDim L reality then .error .valueError
    else do
      let ftm := precomputeFtmF F flm.get2 K L sampling reality spin
      if reality then do
        let np ← nphi_equiang L sampling
        let s := mStart L reality + mOffset sampling
        pure (.d2 shape.1 np (fun t p =>
          (F.irfft (shape.2 - s) (fun k => ftm t (s + k)) np p : ℂ)))
      else pure (.d2 shape.1 shape.2 (fun t => F.ifft shape.2 (ifftshift shape.2 (ftm t))))
  | _ => .error .valueError

/-- The Fourier coefficients of `forward_transform` (spherical.py 356-364). -/
noncomputable def precomputeFftF (F : FftLib) (f : ℤ → ℤ → ℂ) (sampling : PyStr) (ncol : ℤ)
    (reality : Bool) : ℤ → ℤ → ℂ :=
  if reality then fun t j => F.rfft ncol (fun p => (f t p).re) j
  else fun t j => fftshift ncol (F.fft ncol (f t)) (mOffset sampling + j)

/-- The coefficients of `forward_transform` (spherical.py 365-376). -/
noncomputable def precomputeFlmF (F : FftLib) (ftm : ℤ → ℤ → ℂ) (K : ℤ → ℤ → ℤ → ℝ) (L nt : ℤ)
    (reality : Bool) (spin : ℤ) : ℤ → ℤ → ℂ :=
  let ms := mStart L reality
  let flm : ℤ → ℤ → ℂ := fun l k => if ms ≤ k then
    F.dot nt (fun t => (K t l (k - ms) : ℂ)) (fun t => ftm t (k - ms)) else 0
  let flm : ℤ → ℤ → ℂ := if reality then
      fun l k => if 0 ≤ k ∧ k < ms then
        (-1) ^ ((L - 2 - k + 1) % 2).toNat * (starRingEnd ℂ) (flm l (ms + 1 + (L - 2 - k)))
        else flm l k
    else flm
  fun l k => flm l k * (-1) ^ spin

/-- `forward_transform` (spherical.py 349-376) after the resampling, which the schemes DH and GL do
not need, and without `nside`. -/
noncomputable def precomputeForwardF (F : FftLib) (f : Nd ℂ) (kernel : Nd ℝ) (L : ℤ)
    (sampling : PyStr) (reality : Bool) (spin : ℤ) : Except PyErr (Nd ℂ) :=
  if lower sampling = sHP then .error .typeError
  else match kernel with
  | .d3 kt kl kj K =>
    if (kl, kj) ≠ (L, mDim L reality) then .error .valueError
    else if f.shape.head? ≠ some kt then .error .valueError
    else .ok (.d2 (flm_shape L).1 (flm_shape L).2 (precomputeFlmF F
      (precomputeFftF F f.get2 sampling (f.shape.getLast?.getD 0) reality) K L kt reality spin))
  | _ => .error .valueError

end S2fft
