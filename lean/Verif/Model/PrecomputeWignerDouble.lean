import Verif.Model.PrecomputeDouble
import Verif.Model.PrecomputeWigner
import Verif.Model.ResamplingDouble

/-!
# Precomputed-kernel Wigner transforms in double precision

The functions of `Model/PrecomputeWigner.lean` for the NumPy method and the sampling schemes other
than HEALPix, with a rounding wherever the code does an operation on floats. Changes of sign,
conjugation and conversions of small integers are exact.
-/

namespace S2fft
open Spec

/-- The choice of mode (construct.py 374-385); `logL` is the computed `np.log(L)`, which is positive
for `L ≥ 2`, so that `int` rounds down. -/
noncomputable def chooseModeF (F : DoubleLib) (logL : ℝ) (L N : ℤ) (sampling mode : PyStr) :
    Except PyErr PyStr :=
  if lower mode = mdFft ∧ ¬ UniformName sampling then .error .valueError
  else if lower mode = mdAuto then
    if UniformName sampling then
      if L = 1 then .error .overflowError
      else if N ≤ ⌊F.fl (F.fl L / logL)⌋ then .ok mdFft else .ok mdDirect
    else .ok mdDirect
  else .ok mode

/-- The "direct" branch (construct.py 407-411). -/
noncomputable def wignerDirectF (F : DoubleLib) (L : ℤ) (cols : ℤ → ℤ) (θ : ℤ → ℝ) :
    ℤ → ℤ → ℤ → ℤ → ℝ :=
  (forRange 0 L (fun el (s : (ℤ → ℤ → ℤ → ℝ) × (ℤ → ℤ → ℤ → ℤ → ℝ)) =>
    let delta := risboFullVecF F s.1 θ L el
    (delta, fun k => setDegree (s.2 k) el (fun t j => delta t j (cols k))))
    (fun _ _ _ => 0, fun _ _ _ _ => 0)).2

/-- The Fourier coefficients `temp[L - 1:]` of degree `el` and direction `n` in column `c`
(construct.py 432-439), the products from left to right. -/
noncomputable def wignerFourierCoeffF (F : FftLib) (L n c : ℤ) (θ0 : ℝ) (delta : ℤ → ℤ → ℝ)
    (a j : ℤ) : ℂ :=
  F.mul (F.mul (F.mul (F.mul (delta (L - 1 + a) j) (delta (L - 1 + a) c))
    (F.ipow (-(-L + 1 + j)))) (F.ipow n)) (expIF F.toDoubleLib (-L + 1 + (L - 1 + a)) θ0)

/-- The "fft" branch (construct.py 419-441); plane `k` has direction `n0 + k`. -/
noncomputable def wignerFourierF (F : FftLib) (L n0 : ℤ) (cols : ℤ → ℤ) (sampling : PyStr) (nt : ℤ)
    (θ : ℤ → ℝ) : Except PyErr (ℤ → ℤ → ℤ → ℤ → ℝ) := do
  let s ← forRangeM 0 L (fun el (s : (ℤ → ℤ → ℝ) × (ℤ → ℤ → ℤ → ℤ → ℝ)) => do
    let delta ← risboFullF F.toDoubleLib (2 * L - 1) (2 * L - 1) s.1 (F.fl (F.fl Real.pi / 2)) L el
    pure (delta, fun k => setDegree (s.2 k) el (fun t j =>
      F.irfft L (fun a => wignerFourierCoeffF F L (n0 + k) (cols k) (θ 0) delta a j)
        (kernelSamps sampling nt) t)))
    (fun _ _ => 0, fun _ _ _ _ => 0)
  pure s.2

/-- The factor `2 * np.pi / (2 * N - 1)` (construct.py 449). -/
noncomputable def gammaWeightF (F : DoubleLib) (N : ℤ) : ℝ :=
  F.fl (F.fl (2 * F.fl Real.pi) / F.fl ((2 * N - 1 : ℤ) : ℝ))

/-- The factors `(2 * np.arange(L) + 1) / (8 * np.pi**2)` (construct.py 456); the square is taken to
be the rounded product. -/
noncomputable def degreeWeightF (F : DoubleLib) (el : ℤ) : ℝ :=
  F.fl (F.fl ((2 * el + 1 : ℤ) : ℝ) / F.fl (8 * F.fl (F.fl Real.pi * F.fl Real.pi)))

/-- `wigner_kernel` (construct.py 332-468) without `nside`, so not for HEALPix; `w` is the array of
quadrature weights that `quad_weights_transform` returns. -/
noncomputable def wignerKernelF (F : FftLib) (lg : ℤ → ℤ → ℝ) (logL : ℝ) (w : ℤ → ℝ) (L N : ℤ)
    (reality : Bool) (sampling : PyStr) (forward : Bool) (mode : PyStr) : Except PyErr Nd4 := do
  let mode ← chooseModeF F.toDoubleLib logL L N sampling mode
  let (s, nt, θ) ← kernelThetasF F.toDoubleLib lg L sampling forward
  let dl ← if lower mode = mdDirect then do
      let cols ← wignerColumns L N reality
      pure (wignerDirectF F.toDoubleLib L cols θ)
    else if lower mode = mdFft then do
      let cols ← wignerColumns L N reality
      wignerFourierF F L (nFirst N reality) cols s nt θ
    else .error .valueError
  let dl : ℤ → ℤ → ℤ → ℤ → ℝ := if forward then
      fun k t el j => F.fl (F.fl (dl k t el j * w t) * gammaWeightF F.toDoubleLib N)
    else fun k t el j => F.fl (dl k t el j * degreeWeightF F.toDoubleLib el)
  pure ⟨nDim N reality, nt, L, 2 * L - 1, fun k t el j => (dl k t el j : ℂ)⟩

/-- `fnab` (wigner.py 118-121). -/
noncomputable def wignerFnabF (F : FftLib) (flmn : ℤ → ℤ → ℤ → ℂ) (K : ℤ → ℤ → ℤ → ℤ → ℂ)
    (L N off : ℤ) (reality : Bool) : ℤ → ℤ → ℤ → ℂ :=
  fun n t k => if nStart N reality ≤ n ∧ off ≤ k then
    F.dot L (fun l => K (n - nStart N reality) t l (k - off)) (fun l => flmn n l (k - off)) else 0

/-- `ifft2(ifftshift(a))` over both axes of `a[k, l]`, the first axis being transformed first
(wigner.py 137-138). -/
noncomputable def shiftIfft2F (F : FftLib) (n0 n1 : ℤ) (a : ℤ → ℤ → ℂ) (g p : ℤ) : ℂ :=
  let b : ℤ → ℤ → ℂ := fun k l => ifftshift n0 (fun k => ifftshift n1 (a k) l) k
  F.ifft n1 (fun l => F.ifft n0 (fun k => b k l) g) p

/-- `inverse_transform` (wigner.py 80-138) without `nside`. -/
noncomputable def precomputeWignerInverseF (F : FftLib) (flmn : Nd ℂ) (K : Nd4) (L N : ℤ)
    (sampling : PyStr) (reality : Bool) : Except PyErr (Nd ℂ) := do
  let off := mOffset sampling
  let ns := nStart N reality
  let shape ← fnab_shape L N sampling none
  if (K.n, K.t, K.l, K.m) ≠ (shape.1 - ns, shape.2.1, L, shape.2.2 - off) ∨
      flmn.shape ≠ [shape.1, L, shape.2.2 - off] then .error .valueError
  else if inHealpix sampling then .error .typeError
  else
    let fnab := wignerFnabF F flmn.get3 K.val L N off reality
    pure (.d3 (2 * N - 1) shape.2.1 shape.2.2 (fun g t p =>
      if reality then
        let f : ℤ → ℤ → ℤ → ℂ := fun n t => F.ifft shape.2.2 (ifftshift shape.2.2 (fnab n t))
        (F.irfft (shape.1 - ns) (fun k => f (ns + k) t p) (2 * N - 1) g : ℂ)
      else shiftIfft2F F shape.1 shape.2.2 (fun n => fnab n t) g p))

/-- `fban` (wigner.py 328-332): transform over the `ng` values of `γ`. -/
noncomputable def wignerFbanF (F : FftLib) (f : ℤ → ℤ → ℤ → ℂ) (ng : ℤ) (reality : Bool) :
    ℤ → ℤ → ℤ → ℂ :=
  fun k i j => if reality then F.rfft ng (fun g => (f g i j).re) k
    else fftshift ng (F.fft ng (fun g => f g i j)) k

/-- The coefficients (wigner.py 355-370); the factors `(-1)**...` are exact. -/
noncomputable def wignerFlmnF (F : FftLib) (A : ℤ → ℤ → ℤ → ℂ) (K : ℤ → ℤ → ℤ → ℤ → ℂ) (L N nt : ℤ)
    (reality : Bool) : ℤ → ℤ → ℤ → ℂ :=
  let ns := nStart N reality
  let flmn : ℤ → ℤ → ℤ → ℂ := fun n l j => if ns ≤ n then
    F.dot nt (fun t => K (n - ns) t l j) (fun t => A (n - ns) t j) else 0
  if reality then
    fun n l j => if n < ns then
      (starRingEnd ℂ) (flmn (ns + 1 + (N - 2 - n)) l (2 * L - 2 - j)) * (-1) ^ |-L + 1 + j|
        * (-1) ^ |-N + 1 + n| else flmn n l j
  else flmn

/-- The resampling of `forward_transform` (wigner.py 334-340) of `B` planes of size `nt × np`, with one
spin for each: rows, columns, planes and the name of the scheme. `np.squeeze` removes the axis of a
single plane, and the result cannot be indexed with `[:, :, m_offset:]` then. -/
noncomputable def wignerResampleF (F : FftLib) (B nt np : ℤ) (f : ℤ → ℤ → ℤ → ℂ) (L : ℤ)
    (spins : ℤ → ℤ) (sampling : PyStr) : Except PyErr (ℤ × ℤ × (ℤ → ℤ → ℤ → ℂ) × PyStr) :=
  if lower sampling = sMW then
    if B = 1 then .error .indexError else
    .ok (2 * L + 1, 2 * L, fun k => upsampleF F L (mwToMwssF F L (f k) (spins k)) (spins k), sMWSS)
  else if lower sampling = sMWSS then
    if B = 1 then .error .indexError else
    .ok (2 * L + 1, 2 * L, fun k => upsampleF F L (f k) (spins k), sMWSS)
  else .ok (nt, np, f, sampling)

/-- `forward_transform` (wigner.py 291-370) without `nside`. -/
noncomputable def precomputeWignerForwardF (F : FftLib) (f : Nd ℂ) (K : Nd4) (L N : ℤ)
    (sampling : PyStr) (reality : Bool) : Except PyErr (Nd ℂ) :=
  match f with
  | .d3 ng nt np a =>
    if lower sampling = sHP then .error .valueError else do
    let B := fbanPlanes ng reality
    let (r, c, fban, s) ← wignerResampleF F B nt np (wignerFbanF F a ng reality) L
      (fun k => -(nFirst N reality + k)) sampling
    let off := mOffset s
    if inHealpix s then .error .typeError
    else if (K.n, K.t, K.l, K.m) ≠ (B, r, L, c - off) ∨
        (B, c - off) ≠ (nDim N reality, 2 * L - 1) then .error .valueError
    else
      let A : ℤ → ℤ → ℤ → ℂ := fun k t j => fftshift c (F.fft c (fban k t)) (off + j)
      .ok (.d3 (flmn_shape L N).1 (flmn_shape L N).2.1 (flmn_shape L N).2.2
        (wignerFlmnF F A K.val L N r reality))
  | _ => .error .indexError

end S2fft
