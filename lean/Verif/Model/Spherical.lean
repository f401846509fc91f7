import Verif.Model.Otf

/-!
# The public spherical transforms

Models `inverse` and `forward` of `s2fft/transforms/spherical.py` and their tables of methods. The
CUDA variant and the wrappers of the C libraries are parameters. A function wrapped for PyTorch
(`wrap_as_torch_function`) converts its arguments, calls the JAX function and converts the result.
-/

namespace S2fft

def mJaxCuda : PyStr := "jax_cuda".toList
def mSsht : PyStr := "jax_ssht".toList
def mHealpy : PyStr := "jax_healpy".toList

/-- Implementations outside the model. -/
structure Backends where
  /-- `inverse_jax` and `forward_jax` with the custom primitive: arguments as in `otfInverseJax`. -/
  cudaInverse : Nd ℂ → ℤ → ℤ → Option ℤ → PyStr → Bool → Option PmPre → ℤ → Except PyErr (Nd ℂ)
  cudaForward : Nd ℂ → ℤ → ℤ → Option ℤ → PyStr → Bool → Option PmPre → ℤ → Except PyErr (Nd ℂ)
  /-- `ssht_inverse`, `ssht_forward`: L, spin, reality, ssht_sampling, backend. -/
  sshtInverse : Nd ℂ → ℤ → ℤ → Bool → ℤ → ℤ → Except PyErr (Nd ℂ)
  sshtForward : Nd ℂ → ℤ → ℤ → Bool → ℤ → ℤ → Except PyErr (Nd ℂ)
  /-- `healpy_inverse`: L, nside. -/
  healpyInverse : Nd ℂ → ℤ → Option ℤ → Except PyErr (Nd ℂ)
  /-- `healpy_forward`: L, nside, iter. -/
  healpyForward : Nd ℂ → ℤ → Option ℤ → ℤ → Except PyErr (Nd ℂ)

/-- The methods whose recursion is that of Price and McEwen. -/
def otfMethods : List PyStr := [mNumpy, mJax, mJaxCuda, mTorch]

/-- The keys of `_inverse_functions` and `_forward_functions` (spherical.py 761-777). -/
def sphericalMethods : List PyStr := [mNumpy, mJax, mJaxCuda, mSsht, mHealpy, mTorch]

/-- `["mw", "mwss", "dh", "gl"].index(sampling.lower())`. -/
def sshtSampling (sampling : PyStr) : Except PyErr ℤ :=
  if lower sampling = sMW then .ok 0 else if lower sampling = sMWSS then .ok 1
  else if lower sampling = sDH then .ok 2 else if lower sampling = sGL then .ok 3
  else .error .valueError

/-- The inverse function of one of the methods `otfMethods`. -/
noncomputable def otfInverse (B : Backends) (G : Machine) (method : PyStr) :
    Nd ℂ → ℤ → ℤ → Option ℤ → PyStr → Bool → Option PmPre → ℤ → Except PyErr (Nd ℂ) :=
  if method = mNumpy then otfInverseNumpy G else if method = mJaxCuda then B.cudaInverse
  else otfInverseJax G

/-- The forward function of one of the methods `otfMethods`. -/
noncomputable def otfForward (B : Backends) (G : Machine) (method : PyStr) :
    Nd ℂ → ℤ → ℤ → Option ℤ → PyStr → Bool → Option PmPre → ℤ → Except PyErr (Nd ℂ) :=
  if method = mNumpy then otfForwardNumpy G else if method = mJaxCuda then B.cudaForward
  else otfForwardJax G

/-- `inverse` (spherical.py 21-109). -/
noncomputable def sphericalInverse (B : Backends) (G : Machine) (flm : Nd ℂ) (L spin : ℤ)
    (nside : Option ℤ) (sampling method : PyStr) (reality : Bool) (precomps : Option PmPre)
    (lo sshtBackend : ℤ) : Except PyErr (Nd ℂ) :=
  if method ∉ sphericalMethods then .error .valueError
  else if spin ≥ 8 ∧ method ∈ otfMethods then .error .warning
  else if method = mHealpy then
    if lower sampling ≠ sHP then .error .valueError else B.healpyInverse flm L nside
  else if method = mSsht then
    if lower sampling = sHP then .error .valueError
    else do
      let k ← sshtSampling sampling
      B.sshtInverse flm L spin reality k sshtBackend
  else otfInverse B G method flm L spin nside sampling reality precomps lo

/-- `forward` (spherical.py 352-464). With refinement steps the inverse transforms run without the
precomputed coefficients, which are removed from the arguments: a `KeyError` for "jax_ssht", which
never had them. -/
noncomputable def sphericalForward (B : Backends) (G : Machine) (f : Nd ℂ) (L spin : ℤ)
    (nside : Option ℤ) (sampling method : PyStr) (reality : Bool) (precomps : Option PmPre)
    (lo : ℤ) (iter : Option ℤ) (sshtBackend : ℤ) : Except PyErr (Nd ℂ) :=
  if method ∉ sphericalMethods then .error .valueError
  else if spin ≥ 8 ∧ method ∈ otfMethods then .error .warning
  else
    let n : ℤ := iter.getD (if lower sampling = sHP ∧ method = mHealpy then 3 else 0)
    if method = mHealpy then
      if lower sampling ≠ sHP then .error .valueError else B.healpyForward f L nside n
    else if method = mSsht then
      if lower sampling = sHP then .error .valueError
      else do
        let k ← sshtSampling sampling
        if n > 0 then .error .keyError else B.sshtForward f L spin reality k sshtBackend
    else if n > 0 then
      refine f n (fun f => otfForward B G method f L spin nside sampling reality precomps lo)
        (fun flm => otfInverse B G method flm L spin nside sampling reality none lo)
        (Nd.map2 (· - ·)) (Nd.map2 (· + ·))
    else otfForward B G method f L spin nside sampling reality precomps lo

end S2fft
