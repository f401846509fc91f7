import Verif.Model.HealpixCuda

/-! # `healpix_fft` and `healpix_ifft` with their `method` argument -/

namespace S2fft

/-- Method names of `_healpix_fft_functions`, utils/healpix_ffts.py 681-686. -/
def mNumpy : PyStr := "numpy".toList
def mJax : PyStr := "jax".toList
def mCuda : PyStr := "cuda".toList
def mTorch : PyStr := "torch".toList

/-- What a GPU call depends on besides its arguments: the plan caches at the time of the call, the
precision, the order in which the kernel's threads run, and the contents of the uninitialised
output buffer. -/
structure CudaEnv where
  caches : Cuda.Caches
  double : Bool
  sched : List ℤ
  out0 : ℤ → ℂ

/-- `healpix_fft`, utils/healpix_ffts.py 150-184 and 681-686. Returns the coefficients and the
caller's pixel buffer afterwards. The `torch` function wraps the JAX one. -/
noncomputable def healpix_fft (env : CudaEnv) (f : ℤ → ℂ) (L nside : ℤ) (method : PyStr)
    (reality : Bool) : Except PyErr ((ℤ → ℤ → ℂ) × (ℤ → ℂ)) :=
  if method = mNumpy then (healpix_fft_numpy f L nside reality).map (fun ftm => (ftm, f))
  else if method = mJax ∨ method = mTorch then
    (healpix_fft_jax f L nside reality).map (fun ftm => (ftm, f))
  else if method = mCuda then
    Cuda.healpix_fft_cuda env.caches env.sched env.out0 f L nside reality env.double
      "backward".toList
  else .error .valueError

/-- `healpix_ifft`, utils/healpix_ffts.py 297-332 and 688-693, for `ftm` of shape
`(4 nside - 1, 2L)`. Returns the pixels and the caller's coefficient array afterwards. -/
noncomputable def healpix_ifft (env : CudaEnv) (ftm : ℤ → ℤ → ℂ) (L nside : ℤ) (method : PyStr)
    (reality : Bool) : Except PyErr ((ℤ → ℂ) × (ℤ → ℤ → ℂ)) :=
  if ¬ L ≥ 2 * nside then .error .assertionError
  else if method = mNumpy then healpix_ifft_numpy (4 * nside - 1) ftm L nside reality
  else if method = mJax ∨ method = mTorch then .ok (healpix_ifft_jax ftm L nside reality, ftm)
  else if method = mCuda then
    (Cuda.healpix_ifft_cuda env.caches env.sched env.out0
      (fun i => ftm (i / (2 * L)) (i % (2 * L))) L nside reality env.double
      "forward".toList).map (fun r => (r.1, fun t k => r.2 (t * (2 * L) + k)))
  else .error .valueError

end S2fft
