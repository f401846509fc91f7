import Verif.Model.PrecomputeWignerDouble
import Verif.Model.RisboJaxDouble
import Verif.Lemmas.Dft

/-!
# Precomputed-kernel transforms of JAX in double precision

The functions of `Model/Precompute.lean` and `Model/PrecomputeWigner.lean` that model the JAX kernels, in
64-bit mode, for the Risbo recursion and the sampling schemes other than HEALPix. The constructors are
not compiled as a whole, but the Risbo recursion and the quadrature weights are, see
`Spec/XlaDouble.lean`. The transforms themselves do the same operations as those of NumPy, except where
`jaxFft` says otherwise.
-/

namespace S2fft
open Spec

/-! ## Kernels -/

/-- The Risbo branch for grids that are not uniform in `θ` (construct.py 267-274). -/
noncomputable def kernelRisboDirectJ (F : XlaLib) (L c : ℤ) (θ : ℤ → ℝ) (reality : Bool) :
    ℤ → ℤ → ℤ → ℝ :=
  (forRange 0 L (fun el (s : (ℤ → ℤ → ℤ → ℝ) × (ℤ → ℤ → ℤ → ℝ)) =>
    let delta := fun t => risboFullJ F (s.1 t) (θ t) L el
    (delta, setDegree s.2 el (fun t j => delta t (mStart L reality + j) c)))
    (fun _ _ _ => 0, fun _ _ _ => 0)).2

/-- The Risbo branch for grids uniform in `θ` (construct.py 280-303). -/
noncomputable def kernelRisboFourierJ (F : XlaLib) (L spin c : ℤ) (sampling : PyStr) (nt : ℤ)
    (θ : ℤ → ℝ) (reality : Bool) : ℤ → ℤ → ℤ → ℝ :=
  (forRange 0 L (fun el (s : (ℤ → ℤ → ℝ) × (ℤ → ℤ → ℤ → ℝ)) =>
    let delta := risboFullJ F s.1 (F.fl (F.fl Real.pi / 2)) L el
    (delta, setDegree s.2 el (fun t j =>
      F.irfft L (fun a => kernelFourierF F.toFftLib L spin c (θ 0) reality delta a j)
        (kernelSamps sampling nt) t)))
    (fun _ _ => 0, fun _ _ _ => 0)).2

/-- The Risbo branch of the constructor (construct.py 259-309), normalisation included. -/
noncomputable def kernelRisboJ (F : XlaLib) (L spin : ℤ) (sampling : PyStr) (nt : ℤ) (θ : ℤ → ℝ)
    (reality : Bool) : ℤ → ℤ → ℤ → ℝ :=
  let c := jaxGet (2 * L - 1) (L - 1 - spin)
  let dl : ℤ → ℤ → ℤ → ℝ := fun _ _ _ => 0
  let dl := if lower sampling = sHP ∨ lower sampling = sGL then
      kernelRisboDirectJ F L c θ reality
    else if lower sampling = sMW ∨ lower sampling = sMWSS ∨ lower sampling = sDH then
      kernelRisboFourierJ F L spin c sampling nt θ reality
    else dl
  fun t el j => F.fl (dl t el j * elfactorF F.toDoubleLib el)

/-- `spin_spherical_kernel_jax` (construct.py 164-324) with the Risbo recursion and without `nside`, so
not for HEALPix. `w` is the array of quadrature weights that `quad_weights_transform` returns. -/
noncomputable def spinSphericalKernelJ (F : XlaLib) (lg : ℤ → ℤ → ℝ) (w : ℤ → ℝ) (L spin : ℤ)
    (reality : Bool) (sampling : PyStr) (forward : Bool) : Except PyErr (Nd ℝ) := do
  let reality := if reality = true ∧ spin ≠ 0 then false else reality
  let (s, nt, θ) ← kernelThetasF F.toDoubleLib lg L sampling forward
  let dl := kernelRisboJ F L spin s nt θ reality
  pure (.d3 nt L (mDim L reality) (if forward then fun t el j => F.fl (dl t el j * w t) else dl))

/-- The "direct" branch of `wigner_kernel_jax` (construct.py 546-551). -/
noncomputable def wignerDirectJ (F : XlaLib) (L : ℤ) (cols : ℤ → ℤ) (θ : ℤ → ℝ) :
    ℤ → ℤ → ℤ → ℤ → ℝ :=
  (forRange 0 L (fun el (s : (ℤ → ℤ → ℤ → ℝ) × (ℤ → ℤ → ℤ → ℤ → ℝ)) =>
    let delta := fun t => risboFullJ F (s.1 t) (θ t) L el
    (delta, fun k => setDegree (s.2 k) el (fun t j => delta t j (cols k))))
    (fun _ _ _ => 0, fun _ _ _ _ => 0)).2

/-- The "fft" branch of `wigner_kernel_jax` (construct.py 559-581). -/
noncomputable def wignerFourierJ (F : XlaLib) (L n0 : ℤ) (cols : ℤ → ℤ) (sampling : PyStr) (nt : ℤ)
    (θ : ℤ → ℝ) : ℤ → ℤ → ℤ → ℤ → ℝ :=
  (forRange 0 L (fun el (s : (ℤ → ℤ → ℝ) × (ℤ → ℤ → ℤ → ℤ → ℝ)) =>
    let delta := risboFullJ F s.1 (F.fl (F.fl Real.pi / 2)) L el
    (delta, fun k => setDegree (s.2 k) el (fun t j =>
      F.irfft L (fun a => wignerFourierCoeffF F.toFftLib L (n0 + k) (cols k) (θ 0) delta a j)
        (kernelSamps sampling nt) t)))
    (fun _ _ => 0, fun _ _ _ _ => 0)).2

/-- `wigner_kernel_jax` (construct.py 471-608) without `nside`, so not for HEALPix. -/
noncomputable def wignerKernelJ (F : XlaLib) (lg : ℤ → ℤ → ℝ) (logL : ℝ) (w : ℤ → ℝ) (L N : ℤ)
    (reality : Bool) (sampling : PyStr) (forward : Bool) (mode : PyStr) : Except PyErr Nd4 := do
  let mode ← chooseModeF F.toDoubleLib logL L N sampling mode
  let (s, nt, θ) ← kernelThetasF F.toDoubleLib lg L sampling forward
  let cols := wignerColumnsJax L N reality
  let dl ← if lower mode = mdDirect then pure (wignerDirectJ F L cols θ)
    else if lower mode = mdFft then pure (wignerFourierJ F L (nFirst N reality) cols s nt θ)
    else .error .valueError
  let dl : ℤ → ℤ → ℤ → ℤ → ℝ := if forward then
      fun k t el j => F.fl (F.fl (dl k t el j * w t) * gammaWeightF F.toDoubleLib N)
    else fun k t el j => F.fl (dl k t el j * degreeWeightF F.toDoubleLib el)
  pure ⟨nDim N reality, nt, L, 2 * L - 1, fun k t el j => (dl k t el j : ℂ)⟩

/-! ## Quadrature weights -/

/-- `w += jnp.sin((2 * k + 1) * theta) / (2 * k + 1)` (quadrature_jax.py 213). A division that became a
multiplication may then be contracted with the addition, `fuse`. -/
noncomputable def dhTermJ (F : XlaLib) (fuse : ℤ → Bool) (theta : ℝ) (k : ℤ) (w : ℝ) : ℝ :=
  let n := F.fl ((2 * k + 1 : ℤ) : ℝ)
  let s := F.sin (F.fl (n * theta))
  if fuse k then F.mulAdd [k, 213] w s (F.fl (1 / n)) else F.fl (w + F.quot [k, 213] s n)

/-- `quad_weight_dh_theta_only` (quadrature_jax.py 196-217) for one angle; compiled. -/
noncomputable def quadWeightDhThetaJ (F : XlaLib) (fuse : ℤ → Bool) (theta : ℝ) (L : ℤ) : ℝ :=
  let w : ℝ := forRange 0 L (fun k w => dhTermJ F fuse theta k w) 0
  F.fl (w * F.fl (F.fl (2 / F.fl L) * F.sin theta))

/-- `q * 2 * jnp.pi / n` (quadrature_jax.py 40 and 193). The compiler may multiply the constants first,
`fold`. -/
noncomputable def scaleJ (F : XlaLib) (fold : Bool) (q n : ℝ) (at_ : List ℤ) : ℝ :=
  if fold then F.fl (q * F.fl (F.fl (2 * F.fl Real.pi) * F.fl (1 / n)))
  else F.quot at_ (F.fl (F.fl (q * 2) * F.fl Real.pi)) n

/-- `quad_weights_dh` (quadrature_jax.py 177-193); `θ` are the sample angles. -/
noncomputable def quadWeightsDhJ (F : XlaLib) (fuse : ℤ → ℤ → Bool) (fold : Bool) (L : ℤ) (θ : ℤ → ℝ)
    (t : ℤ) : ℝ :=
  scaleJ F fold (quadWeightDhThetaJ F (fuse t) (θ t) L) (F.fl ((2 * L - 1 : ℤ) : ℝ)) [t, 193]

/-! ## Transforms -/

/-- The Fourier transforms as the JAX Wigner transforms do them (wigner.py 207-218): instead of
`ifft(x, norm="forward")` they compute `conj(fft(conj(x)))`. -/
noncomputable def jaxFft (F : FftLib) : FftLib where
  __ := F
  ifft n x p := (starRingEnd ℂ) (F.fft n (fun k => (starRingEnd ℂ) (x k)) p)
  ifft_near n x p h0 h1 := by
    have h := F.fft_near n (fun k => (starRingEnd ℂ) (x k)) p h0 h1
    have e : ifft_fwd n x p = (starRingEnd ℂ) (S2fft.fft n (fun k => (starRingEnd ℂ) (x k)) p) := by
      unfold ifft_fwd S2fft.fft
      rw [map_sum]
      refine Finset.sum_congr rfl fun k _ => ?_
      rw [map_mul, Complex.conj_conj, conj_cis, neg_neg]
    rw [e, ← map_sub, RCLike.norm_conj]
    simpa only [RCLike.norm_conj] using h

end S2fft
