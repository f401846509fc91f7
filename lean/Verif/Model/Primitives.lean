import Verif.Model.CBackend
import Verif.Model.HealpixCuda

/-!
# The JAX primitives and what they declare

Models the abstract evaluation of the healpy and CUDA primitives
(`s2fft/transforms/c_backend_spherical.py` 275-400, `s2fft/utils/healpix_ffts.py` 549-678, registered
by `s2fft/utils/jax_primitive.py`): the shape and the data type that JAX is told while it traces a
function, before anything is computed. Data types have their width here.
-/

namespace S2fft
open Spec

/-- Data types. -/
inductive NpType
  | int32
  | int64
  | float32
  | float64
  | complex64
  | complex128
  deriving DecidableEq

/-- The type of a JAX array made from data of this type: without the mode `jax_enable_x64` nothing is
wider than 32 bits (64 for complex numbers). -/
def NpType.canonical (x64 : Bool) : NpType → NpType
  | .int64 => if x64 then .int64 else .int32
  | .float64 => if x64 then .float64 else .float32
  | .complex128 => if x64 then .complex128 else .complex64
  | t => t

/-- `core.ShapedArray`. -/
structure Aval where
  shape : List ℤ
  dtype : NpType
  deriving DecidableEq

/-- An array and its type. -/
structure TArr where
  val : Nd ℂ
  dtype : NpType

/-- What JAX records about an array. -/
def TArr.aval (a : TArr) : Aval := ⟨a.val.shape, a.dtype⟩

/-- `_complex_dtype` (c_backend_spherical.py 275-297): the type of a sum with a `complex64`. -/
def complexDtype : NpType → NpType
  | .float32 | .complex64 => .complex64
  | _ => .complex128

/-- `_real_dtype` (c_backend_spherical.py 300-321): `np.finfo` refuses integers. -/
def realDtype : NpType → Except PyErr NpType
  | .complex64 | .float32 => .ok .float32
  | .complex128 | .float64 => .ok .float64
  | _ => .error .valueError

/-- `_healpy_map2alm_abstract_eval` (c_backend_spherical.py 330-333). -/
def healpyMap2almAbstract (f : Aval) (L _nside : ℤ) : Aval := ⟨[L * (L + 1) / 2], complexDtype f.dtype⟩

/-- `_healpy_alm2map_abstract_eval` (c_backend_spherical.py 380-383). -/
def healpyAlm2mapAbstract (flm : Aval) (_L nside : ℤ) : Except PyErr Aval := do
  pure ⟨[12 * nside ^ 2], ← realDtype flm.dtype⟩

/-- `_healpy_map2alm_impl` (c_backend_spherical.py 324-326); healpy computes with doubles. -/
noncomputable def healpyMap2almT (H : Healpy) (x64 : Bool) (f : TArr) (L : ℤ) : Except PyErr TArr := do
  pure ⟨← H.map2alm f.val L, NpType.canonical x64 .complex128⟩

/-- `_healpy_alm2map_impl` (c_backend_spherical.py 375-377). -/
noncomputable def healpyAlm2mapT (H : Healpy) (x64 : Bool) (flm : TArr) (L nside : ℤ) :
    Except PyErr TArr := do
  pure ⟨← H.alm2map flm.val L nside, NpType.canonical x64 .float64⟩

/-- `_healpy_map2alm_transpose` (c_backend_spherical.py 336-342). -/
noncomputable def healpyMap2almTransposeT (H : Healpy) (x64 : Bool) (dflm : TArr) (L nside : ℤ) :
    Except PyErr TArr := do
  pure ⟨← healpyMap2almTranspose H (dflm.val.get2 0) L nside, NpType.canonical x64 .float64⟩

/-- `_healpy_alm2map_transpose` (c_backend_spherical.py 386-397); `scale_factors` has the default type
of real numbers, which does not widen the product. -/
noncomputable def healpyAlm2mapTransposeT (H : Healpy) (x64 : Bool) (df : TArr) (L nside : ℤ) :
    Except PyErr TArr := do
  pure ⟨← healpyAlm2mapTranspose H (df.val.get2 0) L nside, NpType.canonical x64 .complex128⟩

/-! ## The CUDA primitive -/

namespace Cuda

/-- `promote_dtypes_complex` (healpix_ffts.py 645, 675). -/
def promoteComplex : NpType → NpType
  | .int32 | .float32 | .complex64 => .complex64
  | _ => .complex128

/-- `_healpix_fft_cuda_abstract` (healpix_ffts.py 549-563); the shape it prints is left out. -/
def cudaAbstract (f : Aval) (L nside : ℤ) (fftType : PyStr) : Except PyErr Aval :=
  let healpix_size := [nside ^ 2 * 12]
  let ftm_size := [4 * nside - 1, 2 * L]
  if fftType = "forward".toList then
    if f.shape = healpix_size then .ok ⟨ftm_size, f.dtype⟩ else .error .assertionError
  else if fftType = "backward".toList then
    if f.shape = ftm_size then .ok ⟨healpix_size, f.dtype⟩ else .error .assertionError
  else .error .valueError

/-- `_healpix_fft_cuda_lowering` (healpix_ffts.py 566-606): the descriptor handed to the kernels. -/
def cudaLowering (aval_out : Aval) (L nside : ℤ) (reality : Bool) (fftType norm : PyStr) :
    Except PyErr Descriptor := do
  let is_double ← (match aval_out.dtype with
    | .complex64 => .ok false
    | .complex128 => .ok true
    | _ => .error .valueError : Except PyErr Bool)
  let forward := decide (fftType = "forward".toList)
  let normalize ← lowerNorm forward norm
  pure (mkDescriptor nside L reality forward normalize is_double)

/-- What `healpix_fft_cuda` and `healpix_ifft_cuda` do until the kernels run (healpix_ffts.py 609-678):
the array declared as the result, and the descriptor. `norm` is not among the static arguments of
`jit`, so that a string given for it is refused; the default is not an argument of the call. -/
def cudaTrace (forward : Bool) (f : Aval) (L nside : ℤ) (reality : Bool) (norm : Option PyStr) :
    Except PyErr (Aval × Descriptor) :=
  match norm with
  | some _ => .error .typeError
  | none => do
    let fftType := if forward then "forward".toList else "backward".toList
    let out ← cudaAbstract ⟨f.shape, promoteComplex f.dtype⟩ L nside fftType
    let d ← cudaLowering out L nside reality fftType
      (if forward then "backward".toList else "forward".toList)
    pure (out, d)

end Cuda
end S2fft
