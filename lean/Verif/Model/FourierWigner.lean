import Verif.Model.PrecomputeWigner

/-!
# Fourier-Wigner transforms

Models `s2fft/precompute_transforms/fourier_wigner.py` and the constructors of its tables in
`s2fft/precompute_transforms/construct.py`. The JAX functions (`method` other than "numpy") differ
from the NumPy ones in the recursion they call and in how an index beyond the end is treated.
Broadcasting of axes of length one is not modelled: arrays whose sizes do not fit are refused (with
`ValueError`, which JAX may replace by `TypeError`).
-/

namespace S2fft

/-- The pair `precomps`: `delta[l, a, m]` and `quads[b]`. -/
structure FwTables where
  delta : ℤ → ℤ → ℤ → ℝ
  quads : ℤ → ℂ

/-- `risbo.compute_full(delta, pi/2, L, el)` of either implementation (construct.py 630, 656;
fourier_wigner.py 72, 161, 284, 405). -/
noncomputable def fwStep (method : PyStr) (L el : ℤ) (delta : ℤ → ℤ → ℝ) :
    Except PyErr (ℤ → ℤ → ℝ) :=
  if method = mNumpy then risboFull (2 * L - 1) (2 * L - 1) delta (Real.pi / 2) L el
  else .ok (risboFullJax delta (Real.pi / 2) L el)

/-- `L - 1 + n` as column index (fourier_wigner.py 65, 77, 154, 167, 277, 285, 398, 407). -/
def fwColumns (method : PyStr) (L N : ℤ) (reality : Bool) : Except PyErr (ℤ → ℤ) :=
  if method = mNumpy then wignerColumns L N reality else .ok (wignerColumnsJax L N reality)

/-- The weights `w`, resp. `quads` (construct.py 634-637, 660-663; fourier_wigner.py 261-264,
382-385). -/
noncomputable def fwQuads (L : ℤ) : ℤ → ℂ :=
  let w : ℤ → ℂ := forRange (-2 * (L - 1)) (2 * (L - 1) + 1)
    (fun mm w => set1 w (mm + 2 * (L - 1)) (mw_weights (-mm))) 0
  ifft_fwd (4 * L - 3) (ifftshift (4 * L - 3) w)

/-- `fourier_wigner_kernel` (construct.py 614-639) and `fourier_wigner_kernel_jax` (642-665). -/
noncomputable def fourierWignerKernel (method : PyStr) (L : ℤ) : Except PyErr FwTables := do
  let s ← forRangeM 0 L (fun el (s : (ℤ → ℤ → ℝ) × (ℤ → ℤ → ℤ → ℝ)) => do
    let d ← fwStep method L el s.1
    pure (d, setPlane s.2 el d)) (fun _ _ => 0, fun _ _ _ => 0)
  pure ⟨s.2, fwQuads L⟩

/-- `sampling.lower() not in ["mw", "mwss"]` (fourier_wigner.py 42, 126, 214, 335). -/
def fwSupported (sampling : PyStr) : Prop := lower sampling = sMW ∨ lower sampling = sMWSS

instance (sampling : PyStr) : Decidable (fwSupported sampling) := by
  unfold fwSupported; infer_instance

/-- `m_offset` (fourier_wigner.py 50, 134, 221, 342), which here is computed from the lower-case
name. -/
def fwOffset (sampling : PyStr) : ℤ := if lower sampling = sMWSS then 1 else 0

/-- `ntheta` (fourier_wigner.py 51, 135). -/
def fwNtheta (L : ℤ) (sampling : PyStr) : ℤ := if lower sampling = sMWSS then L + 1 else L

/-- `xnlm_size` (fourier_wigner.py 53, 137). -/
def fwSize (L : ℤ) (sampling : PyStr) : ℤ := if lower sampling = sMWSS then 2 * L else 2 * L - 1

/-- `theta0` (fourier_wigner.py 52, 136). -/
noncomputable def fwTheta0 (L : ℤ) (sampling : PyStr) : ℝ :=
  if lower sampling = sMWSS then 0 else Real.pi / (2 * (L : ℝ) - 1)

/-- The array `x[a, m, n]` before the phases (fourier_wigner.py 60-79, 144-171). -/
noncomputable def fwSpectrum (method : PyStr) (flmn : ℤ → ℤ → ℤ → ℂ) (L N off : ℤ)
    (precomps : Option FwTables) (reality : Bool) : Except PyErr (ℤ → ℤ → ℤ → ℂ) := do
  let ns := nStart N reality
  let flmn : ℤ → ℤ → ℤ → ℂ := fun n l m =>
    flmn n l m * ((2 * (l : ℂ) + 1) / (8 * (Real.pi : ℂ) ^ 2))
  let cols ← fwColumns method L N reality
  match precomps with
  | some P =>
    pure (fun a m k => if off ≤ a ∧ off ≤ m then
      ∑ l ∈ Finset.Ico 0 L, flmn (ns + k) l (m - off) * P.delta l (a - off) (m - off)
        * P.delta l (a - off) (cols k) else 0)
  | none => do
    let s ← forRangeM 0 L (fun el (s : (ℤ → ℤ → ℝ) × (ℤ → ℤ → ℤ → ℂ)) => do
      let d ← fwStep method L el s.1
      pure (d, fun a m k => if off ≤ a ∧ off ≤ m then
        s.2 a m k + flmn (ns + k) el (m - off) * d (a - off) (m - off) * d (a - off) (cols k)
        else s.2 a m k)) (fun _ _ => 0, fun _ _ _ => 0)
    pure s.2

/-- `inverse_transform` (fourier_wigner.py 13-93) and `inverse_transform_jax` (96-182). -/
noncomputable def fourierWignerInverse (method : PyStr) (flmn : Nd ℂ) (L N : ℤ)
    (precomps : Option FwTables) (reality : Bool) (sampling : PyStr) : Except PyErr (Nd ℂ) :=
  if ¬ fwSupported sampling then .error .valueError
  else if flmn.shape ≠ [2 * N - 1, L, 2 * L - 1] then .error .valueError
  else do
    let off := fwOffset sampling
    let size := fwSize L sampling
    let x ← fwSpectrum method flmn.get3 L N off precomps reality
    let m : ℤ → ℤ := fun j => -L + 1 - off + j
    let x : ℤ → ℤ → ℤ → ℂ := fun k a j => x a j k * Complex.I ^ (-m j)
      * Complex.I ^ (nFirst N reality + k) * cis (m a * fwTheta0 L sampling)
    -- the transform over `β`, plane by plane and order by order
    let y : ℤ → ℤ → ℤ → ℂ := fun k t j => ifft_fwd size (ifftshift size (fun a => x k a j)) t
    if reality then
      let z : ℤ → ℤ → ℤ → ℂ := fun k t => ifft_fwd size (ifftshift size (y k t))
      pure (.d3 (2 * N - 1) (fwNtheta L sampling) size
        (fun g t p => irfft_fwd N (fun k => z k t p) (2 * N - 1) g))
    else
      pure (.d3 (2 * N - 1) (fwNtheta L sampling) size (fun g t p =>
        ifft_fwd (2 * N - 1) (fun k => ifft_fwd size (fun j => ifftshift (2 * N - 1)
          (fun k => ifftshift size (y k t) j) k) p) g))

/-- The transform over `γ` and `α` (fourier_wigner.py 229-234, 350-355). -/
noncomputable def fwRings (f : ℤ → ℤ → ℤ → ℂ) (N np off : ℤ) (reality : Bool) : ℤ → ℤ → ℤ → ℂ :=
  if reality then
    let x : ℤ → ℤ → ℤ → ℂ := fun k t p =>
      rfft (2 * N - 1) (fun g => (f g t p).re) k / (2 * (N : ℂ) - 1)
    fun k t j => fftshift np (fft_fwd np (x k t)) (off + j)
  else
    let x : ℤ → ℤ → ℤ → ℂ := fun k t j => fft_fwd (2 * N - 1) (fun g => fft_fwd np (f g t) j) k
    fun k t j => fftshift np (fun j => fftshift (2 * N - 1) (fun k => x k t j) k) (off + j)

/-- The periodic extension in `β` (fourier_wigner.py 237-238, 358-359). -/
noncomputable def fwExtend (x : ℤ → ℤ → ℤ → ℂ) (L N nt : ℤ) (reality : Bool) : ℤ → ℤ → ℤ → ℂ :=
  let temp : ℤ → ℤ → ℤ → ℂ := fun k t j =>
    x k t j * (-1) ^ |-L + 1 + j| * (-1) ^ |nFirst N reality + k|
  fun k t j => if t < nt then x k t j else temp k (nt - 1 - (1 + (t - nt))) j

/-- The convolution with the weights for one vector of `nb` values: transform over `β`, phase,
zero-padding by `lpad` and `L - 1`, weighting on the finer grid (fourier_wigner.py 241-272,
362-393). -/
noncomputable def fwConvolve (v quads : ℤ → ℂ) (L nb lpad : ℤ) (mw : Bool) : ℤ → ℂ :=
  let x : ℤ → ℂ := fftshift nb (fft_fwd nb v)
  let x : ℤ → ℂ := if mw then
      fun b => x b * cis (-(((-L + 1 + b : ℤ) : ℝ) * Real.pi / (2 * (L : ℝ) - 1)))
    else x
  let x : ℤ → ℂ := fun b => if lpad ≤ b ∧ b < lpad + nb then x (b - lpad) else 0
  let x : ℤ → ℂ := ifft_fwd (4 * L - 3) (ifftshift (4 * L - 3) x)
  let x : ℤ → ℂ := fun b => x b * quads b
  fun a => fftshift (4 * L - 3) (fft_fwd (4 * L - 3) x) (L - 1 + a)

/-- The contraction with the deltas (fourier_wigner.py 275-287, 396-411). -/
noncomputable def fwContract (method : PyStr) (x : ℤ → ℤ → ℤ → ℂ) (L N : ℤ)
    (precomps : Option FwTables) (reality : Bool) : Except PyErr (ℤ → ℤ → ℤ → ℂ) := do
  let cols ← fwColumns method L N reality
  match precomps with
  | some P => pure (fun k l j => ∑ a ∈ Finset.Ico 0 (2 * L - 1),
      x k a j * P.delta l a j * P.delta l a (cols k))
  | none => do
    let s ← forRangeM 0 L (fun el (s : (ℤ → ℤ → ℝ) × (ℤ → ℤ → ℤ → ℂ)) => do
      let d ← fwStep method L el s.1
      pure (d, setDegree s.2 el (fun k j => ∑ a ∈ Finset.Ico 0 (2 * L - 1),
        x k a j * d a j * d a (cols k)))) (fun _ _ => 0, fun _ _ _ => 0)
    pure s.2

/-- The weights used: those given or computed (fourier_wigner.py 258-266, 379-387). -/
noncomputable def fwQuadsOf (precomps : Option FwTables) (L : ℤ) : ℤ → ℂ :=
  match precomps with
  | some P => P.quads
  | none => fwQuads L

/-- `forward_transform` (fourier_wigner.py 185-301) and `forward_transform_jax` (304-425). Padding
by a negative number of zeros is refused. -/
noncomputable def fourierWignerForward (method : PyStr) (f : Nd ℂ) (L N : ℤ)
    (precomps : Option FwTables) (reality : Bool) (sampling : PyStr) : Except PyErr (Nd ℂ) :=
  if ¬ fwSupported sampling then .error .valueError
  else if f.shape ≠ [2 * N - 1, fwNtheta L sampling, fwSize L sampling] then .error .valueError
  else
    let off := fwOffset sampling
    let nt := fwNtheta L sampling
    let lpad := if lower sampling = sMWSS then L - 2 else L - 1
    if lpad < 0 then .error .valueError
    else do
      let x := fwExtend (fwRings f.get3 N (fwSize L sampling) off reality) L N nt reality
      let quads := fwQuadsOf precomps L
      let x : ℤ → ℤ → ℤ → ℂ := fun k a j =>
        fwConvolve (fun t => x k t j) quads L (nt + (L - 1)) lpad (lower sampling = sMW) a
      let x ← fwContract method x L N precomps reality
      let x : ℤ → ℤ → ℤ → ℂ := fun k l j =>
        x k l j * Complex.I ^ (-L + 1 + j) * Complex.I ^ (-(nFirst N reality + k))
      let x : ℤ → ℤ → ℤ → ℂ := if reality then
          fun k l j => if k < N - 1 then
            (starRingEnd ℂ) (x (1 + (N - 2 - k)) l (2 * L - 2 - j)) * (-1) ^ |-L + 1 + j|
              * (-1) ^ |-N + 1 + k| else x (k - (N - 1)) l j
        else x
      pure (.d3 (2 * N - 1) L (2 * L - 1) (fun k l j => x k l j * (2 * (Real.pi : ℂ)) ^ 2))

end S2fft
