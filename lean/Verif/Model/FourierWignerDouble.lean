import Verif.Model.FourierWigner
import Verif.Model.PrecomputeWignerDouble
import Verif.Model.RisboJaxDouble
import Verif.Model.ResamplingDouble

/-!
# Fourier-Wigner transforms in double precision

The functions of `Model/FourierWigner.lean`, NumPy and JAX, with a rounding wherever the code does an
operation on floats. Changes of sign, conjugation and conversions of small integers are exact. Where
`einsum` multiplies three arrays and sums, any two of them may be multiplied first (`pair`); where it
only multiplies, the products are from left to right.
-/

namespace S2fft
open Spec

/-- `risbo.compute_full(delta, pi/2, L, el)` of either implementation (construct.py 630, 656;
fourier_wigner.py 72, 161, 284, 405). -/
noncomputable def fwStepF (F : XlaLib) (method : PyStr) (L el : ℤ) (delta : ℤ → ℤ → ℝ) :
    Except PyErr (ℤ → ℤ → ℝ) :=
  if method = mNumpy then
    risboFullF F.toDoubleLib (2 * L - 1) (2 * L - 1) delta (F.fl (F.fl Real.pi / 2)) L el
  else .ok (risboFullJ F delta (F.fl (F.fl Real.pi / 2)) L el)

/-- The weights `w`, resp. `quads` (construct.py 634-637, 660-663; fourier_wigner.py 261-264,
382-385). -/
noncomputable def fwQuadsF (F : FftLib) (L : ℤ) : ℤ → ℂ :=
  let w : ℤ → ℂ := forRange (-2 * (L - 1)) (2 * (L - 1) + 1)
    (fun mm w => set1 w (mm + 2 * (L - 1)) (mwWeightsF F.toDoubleLib (-mm))) 0
  F.ifft (4 * L - 3) (ifftshift (4 * L - 3) w)

/-- `fourier_wigner_kernel` (construct.py 614-639) and `fourier_wigner_kernel_jax` (642-665). -/
noncomputable def fourierWignerKernelF (F : XlaLib) (method : PyStr) (L : ℤ) :
    Except PyErr FwTables := do
  let s ← forRangeM 0 L (fun el (s : (ℤ → ℤ → ℝ) × (ℤ → ℤ → ℤ → ℝ)) => do
    let d ← fwStepF F method L el s.1
    pure (d, setPlane s.2 el d)) (fun _ _ => 0, fun _ _ _ => 0)
  pure ⟨s.2, fwQuadsF F.toFftLib L⟩

/-- `einsum` of three vectors of length `n`: the sum of the products, two of the factors being
multiplied first. -/
noncomputable def einsum3F (F : FftLib) (pair : Fin 3) (n : ℤ) (x y z : ℤ → ℂ) : ℂ :=
  match pair with
  | 0 => F.dot n (fun l => F.mul (x l) (y l)) z
  | 1 => F.dot n x (fun l => F.mul (y l) (z l))
  | 2 => F.dot n (fun l => F.mul (x l) (z l)) y

/-- `v + a * b`, as a sum of two products, so that it may be contracted. -/
noncomputable def mulAddF (F : FftLib) (v a b : ℂ) : ℂ :=
  F.dot 2 (fun i => if i = 0 then v else a) (fun i => if i = 0 then 1 else b)

/-- `theta0` (fourier_wigner.py 52, 136). -/
noncomputable def fwTheta0F (F : DoubleLib) (L : ℤ) (sampling : PyStr) : ℝ :=
  if lower sampling = sMWSS then 0 else F.fl (F.fl Real.pi / F.fl ((2 * L - 1 : ℤ) : ℝ))

/-- The array `x[a, m, n]` before the phases (fourier_wigner.py 60-79, 144-171). -/
noncomputable def fwSpectrumF (F : XlaLib) (pair : Fin 3) (method : PyStr) (flmn : ℤ → ℤ → ℤ → ℂ)
    (L N off : ℤ) (precomps : Option FwTables) (reality : Bool) :
    Except PyErr (ℤ → ℤ → ℤ → ℂ) := do
  let ns := nStart N reality
  let flmn : ℤ → ℤ → ℤ → ℂ := fun n l m =>
    F.mul (flmn n l m) (degreeWeightF F.toDoubleLib l : ℂ)
  let cols ← fwColumns method L N reality
  match precomps with
  | some P =>
    pure (fun a m k => if off ≤ a ∧ off ≤ m then
      einsum3F F.toFftLib pair L (fun l => flmn (ns + k) l (m - off))
        (fun l => (P.delta l (a - off) (m - off) : ℂ)) (fun l => (P.delta l (a - off) (cols k) : ℂ))
      else 0)
  | none => do
    let s ← forRangeM 0 L (fun el (s : (ℤ → ℤ → ℝ) × (ℤ → ℤ → ℤ → ℂ)) => do
      let d ← fwStepF F method L el s.1
      pure (d, fun a m k => if off ≤ a ∧ off ≤ m then
        mulAddF F.toFftLib (s.2 a m k)
          (F.mul (flmn (ns + k) el (m - off)) (d (a - off) (m - off) : ℂ)) (d (a - off) (cols k) : ℂ)
        else s.2 a m k)) (fun _ _ => 0, fun _ _ _ => 0)
    pure s.2

/-- The signs and the phase (fourier_wigner.py 82, 174). -/
noncomputable def fwPhasedF (F : FftLib) (L : ℤ) (sampling : PyStr) (m n a : ℤ) (x : ℂ) : ℂ :=
  F.mul (F.mul (F.mul x (F.ipow (-m))) (F.ipow n)) (expIF F.toDoubleLib a (fwTheta0F F.toDoubleLib L sampling))

/-- `inverse_transform` (fourier_wigner.py 13-93) and `inverse_transform_jax` (96-182). -/
noncomputable def fourierWignerInverseF (F : XlaLib) (pair : Fin 3) (method : PyStr) (flmn : Nd ℂ)
    (L N : ℤ) (precomps : Option FwTables) (reality : Bool) (sampling : PyStr) :
    Except PyErr (Nd ℂ) :=
  if ¬ fwSupported sampling then .error .valueError
  else if flmn.shape ≠ [2 * N - 1, L, 2 * L - 1] then .error .valueError
  else do
    let off := fwOffset sampling
    let size := fwSize L sampling
    let x ← fwSpectrumF F pair method flmn.get3 L N off precomps reality
    let m : ℤ → ℤ := fun j => -L + 1 - off + j
    let x : ℤ → ℤ → ℤ → ℂ := fun k a j =>
      fwPhasedF F.toFftLib L sampling (m j) (nFirst N reality + k) (m a) (x a j k)
    let y : ℤ → ℤ → ℤ → ℂ := fun k t j => F.ifft size (ifftshift size (fun a => x k a j)) t
    if reality then
      let z : ℤ → ℤ → ℤ → ℂ := fun k t => F.ifft size (ifftshift size (y k t))
      pure (.d3 (2 * N - 1) (fwNtheta L sampling) size
        (fun g t p => (F.irfft N (fun k => z k t p) (2 * N - 1) g : ℂ)))
    else
      pure (.d3 (2 * N - 1) (fwNtheta L sampling) size (fun g t p =>
        F.ifft (2 * N - 1) (fun k => F.ifft size (fun j => ifftshift (2 * N - 1)
          (fun k => ifftshift size (y k t) j) k) p) g))

/-- The transform over `γ` and `α` (fourier_wigner.py 229-234, 350-355). NumPy scales after each of the
two transforms of `fft2`, JAX once after both. -/
noncomputable def fwRingsF (F : FftLib) (method : PyStr) (f : ℤ → ℤ → ℤ → ℂ) (N np off : ℤ)
    (reality : Bool) : ℤ → ℤ → ℤ → ℂ :=
  if reality then
    let x : ℤ → ℤ → ℤ → ℂ := fun k t p => F.mul ((F.fl (1 / ((2 * N - 1 : ℤ) : ℝ)) : ℝ) : ℂ)
      (F.rfft (2 * N - 1) (fun g => (f g t p).re) k)
    fun k t j => fftshift np (fftFwdF F np (x k t)) (off + j)
  else
    let x : ℤ → ℤ → ℤ → ℂ := fun k t j =>
      if method = mNumpy then fftFwdF F (2 * N - 1) (fun g => fftFwdF F np (f g t) j) k
      else F.mul ((F.fl (1 / (((2 * N - 1) * np : ℤ) : ℝ)) : ℝ) : ℂ)
        (F.fft (2 * N - 1) (fun g => F.fft np (f g t) j) k)
    fun k t j => fftshift np (fun j => fftshift (2 * N - 1) (fun k => x k t j) k) (off + j)

/-- `exp(-1j * m * pi / (2 * L - 1))` (fourier_wigner.py 246, 367), from left to right. XLA may divide
where NumPy multiplies by the reciprocal. -/
noncomputable def fwShiftF (F : XlaLib) (method : PyStr) (L m : ℤ) : ℂ :=
  if method = mNumpy then mwssPhaseF F.toFftLib L m
  else
    let x := F.quot [m] (F.fl (-(m : ℝ) * F.fl Real.pi)) ((2 * L - 1 : ℤ) : ℝ)
    ⟨F.cos x, F.sin x⟩

/-- The convolution with the weights for one vector of `nb` values (fourier_wigner.py 241-272,
362-393). -/
noncomputable def fwConvolveF (F : XlaLib) (method : PyStr) (v quads : ℤ → ℂ) (L nb lpad : ℤ)
    (mw : Bool) : ℤ → ℂ :=
  let x : ℤ → ℂ := fftshift nb (fftFwdF F.toFftLib nb v)
  let x : ℤ → ℂ := if mw then fun b => F.mul (x b) (fwShiftF F method L (-L + 1 + b)) else x
  let x : ℤ → ℂ := fun b => if lpad ≤ b ∧ b < lpad + nb then x (b - lpad) else 0
  let x : ℤ → ℂ := F.ifft (4 * L - 3) (ifftshift (4 * L - 3) x)
  let x : ℤ → ℂ := fun b => F.mul (x b) (quads b)
  fun a => fftshift (4 * L - 3) (fftFwdF F.toFftLib (4 * L - 3) x) (L - 1 + a)

/-- The contraction with the deltas (fourier_wigner.py 275-287, 396-411). -/
noncomputable def fwContractF (F : XlaLib) (pair : Fin 3) (method : PyStr) (x : ℤ → ℤ → ℤ → ℂ)
    (L N : ℤ) (precomps : Option FwTables) (reality : Bool) : Except PyErr (ℤ → ℤ → ℤ → ℂ) := do
  let cols ← fwColumns method L N reality
  match precomps with
  | some P => pure (fun k l j => einsum3F F.toFftLib pair (2 * L - 1) (fun a => x k a j)
      (fun a => (P.delta l a j : ℂ)) (fun a => (P.delta l a (cols k) : ℂ)))
  | none => do
    let s ← forRangeM 0 L (fun el (s : (ℤ → ℤ → ℝ) × (ℤ → ℤ → ℤ → ℂ)) => do
      let d ← fwStepF F method L el s.1
      pure (d, setDegree s.2 el (fun k j => einsum3F F.toFftLib pair (2 * L - 1) (fun a => x k a j)
        (fun a => (d a j : ℂ)) (fun a => (d a (cols k) : ℂ))))) (fun _ _ => 0, fun _ _ _ => 0)
    pure s.2

/-- The weights used: those given or computed (fourier_wigner.py 258-266, 379-387). -/
noncomputable def fwQuadsOfF (F : FftLib) (precomps : Option FwTables) (L : ℤ) : ℤ → ℂ :=
  match precomps with
  | some P => P.quads
  | none => fwQuadsF F L

/-- The factor `(2.0 * pi) ** 2` (fourier_wigner.py 301, 425); the square is taken to be the rounded
product, doubling is exact. -/
noncomputable def fwFactorF (F : DoubleLib) : ℝ := F.fl (2 * F.fl Real.pi * (2 * F.fl Real.pi))

/-- `forward_transform` (fourier_wigner.py 185-301) and `forward_transform_jax` (304-425). Signs, the
extension in `β` and the reflection are exact. -/
noncomputable def fourierWignerForwardF (F : XlaLib) (pair : Fin 3) (method : PyStr) (f : Nd ℂ)
    (L N : ℤ) (precomps : Option FwTables) (reality : Bool) (sampling : PyStr) :
    Except PyErr (Nd ℂ) :=
  if ¬ fwSupported sampling then .error .valueError
  else if f.shape ≠ [2 * N - 1, fwNtheta L sampling, fwSize L sampling] then .error .valueError
  else
    let off := fwOffset sampling
    let nt := fwNtheta L sampling
    let lpad := if lower sampling = sMWSS then L - 2 else L - 1
    if lpad < 0 then .error .valueError
    else do
      let x := fwExtend (fwRingsF F.toFftLib method f.get3 N (fwSize L sampling) off reality) L N nt
        reality
      let quads := fwQuadsOfF F.toFftLib precomps L
      let x : ℤ → ℤ → ℤ → ℂ := fun k a j =>
        fwConvolveF F method (fun t => x k t j) quads L (nt + (L - 1)) lpad (lower sampling = sMW) a
      let x ← fwContractF F pair method x L N precomps reality
      let x : ℤ → ℤ → ℤ → ℂ := fun k l j =>
        F.mul (F.mul (x k l j) (F.ipow (-L + 1 + j))) (F.ipow (-(nFirst N reality + k)))
      let x : ℤ → ℤ → ℤ → ℂ := if reality then
          fun k l j => if k < N - 1 then
            (starRingEnd ℂ) (x (1 + (N - 2 - k)) l (2 * L - 2 - j)) * (-1) ^ |-L + 1 + j|
              * (-1) ^ |-N + 1 + k| else x (k - (N - 1)) l j
        else x
      pure (.d3 (2 * N - 1) L (2 * L - 1)
        (fun k l j => F.mul (x k l j) ((fwFactorF F.toDoubleLib : ℝ) : ℂ)))

end S2fft
