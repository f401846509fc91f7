import Verif.Model.Wigner
import Verif.Model.Rotation
import Verif.Model.CustomOps

/-!
# Data types

Models what the functions that keep the data type of their argument do with arrays of integers, of
real numbers and of complex numbers. A value stored into an array is converted to the array's type;
elsewhere the model computes with complex numbers. The other functions store into arrays of complex
numbers, and their models need no type. The width of integers and floats is not modelled.
-/

namespace S2fft

/-- The kinds of data types. -/
inductive Dtype
  | int
  | float
  | complex
  deriving DecidableEq

/-- Conversion of a value that is stored: the imaginary part is dropped for real types, and the
fraction for integers. -/
noncomputable def Dtype.cast : Dtype → ℂ → ℂ
  | .int, z => (pyInt z.re : ℂ)
  | .float, z => (z.re : ℂ)
  | .complex, z => z

/-- `flm[L_lower:] = einsum(flm[L_lower:], sqrt((2 el + 1) / (4 pi)))` (spherical.py 166-168, 281-288)
for `flm` of type `dt`. -/
noncomputable def otfNormaliseT (dt : Dtype) (flm : ℤ → ℤ → ℂ) (lo : ℤ) : ℤ → ℤ → ℂ :=
  fun l k => if lo ≤ l then dt.cast (flm l k * elfactor l) else flm l k

/-- `inverse_numpy` (spherical.py 112-208). The copy `flm.copy()` has the type of `flm`. -/
noncomputable def otfInverseNumpyT (dt : Dtype) (G : Machine) (flm : Nd ℂ) (L spin : ℤ)
    (nside : Option ℤ) (sampling : PyStr) (reality : Bool) (precomps : Option PmPre) (lo : ℤ) :
    Except PyErr (Nd ℂ) := requireLower lo do
  let (nt, θ) ← otfThetas G L sampling nside
  let off := mOffsetLower sampling
  if flm.shape ≠ [L, 2 * L - 1] then .error .valueError
  else do
    let flm := otfNormaliseT dt flm.get2 lo
    let ftm ← inverseLatitudinalStep G flm θ L spin nside sampling reality precomps lo
    let shape ← ftm_shape L sampling nside
    let ftm ← inversePolesNumpy ftm flm L spin lo nt shape.2 sampling
    let ftm := if lower sampling = sHP then otfPhases ftm L (nside.getD 0) off false reality
      else ftm
    let ftm : ℤ → ℤ → ℂ := fun t k => ftm t k * (-1) ^ spin
    let ftm := if lower sampling = sHP ∧ reality = true then otfComplete ftm L off else ftm
    let f ← inverseFftM mNumpy ftm L (lower sampling) shape.2 (nside.getD 0) reality
    packSignal L sampling nside f

/-- `inverse_jax` (spherical.py 212-346). -/
noncomputable def otfInverseJaxT (dt : Dtype) (G : Machine) (flm : Nd ℂ) (L spin : ℤ)
    (nside : Option ℤ) (sampling : PyStr) (reality : Bool) (precomps : Option PmPre) (lo : ℤ) :
    Except PyErr (Nd ℂ) := requireLower lo do
  let (nt, θ) ← otfThetas G L sampling nside
  let off := mOffsetLower sampling
  if flm.shape ≠ [L, 2 * L - 1] then .error .valueError
  else do
    let flm := otfNormaliseT dt flm.get2 lo
    let ftm := inverseLatitudinalStepJax flm θ nt L spin sampling reality precomps lo
    let ftm := if lower sampling = sHP then otfPhases ftm L (nside.getD 0) off false reality
      else ftm
    let ftm : ℤ → ℤ → ℂ := fun t k => ftm t k * (-1) ^ |spin|
    let ftm := if reality then otfComplete ftm L off else ftm
    let f ← otfSynthesisJax ftm L sampling (2 * L - 1 + off) (nside.getD 0) reality
    packSignal L sampling nside f

/-- `inverse` (spherical.py 21-109) for the methods "numpy", "jax" and "torch". The conversion of a
Torch tensor to a JAX array keeps its type. -/
noncomputable def sphericalInverseT (dt : Dtype) (G : Machine) (flm : Nd ℂ) (L spin : ℤ)
    (nside : Option ℤ) (sampling method : PyStr) (reality : Bool) (precomps : Option PmPre)
    (lo : ℤ) : Except PyErr (Nd ℂ) :=
  if spin ≥ 8 then .error .warning
  else if method = mNumpy then otfInverseNumpyT dt G flm L spin nside sampling reality precomps lo
  else otfInverseJaxT dt G flm L spin nside sampling reality precomps lo

/-- `flmn[:, L_lower:] = einsum(flmn[:, L_lower:], sqrt((2 el + 1) / (16 pi^3)))` (wigner.py 171-175,
259-265) for `flmn` of type `dt`. -/
noncomputable def wigScaleT (dt : Dtype) (flmn : ℤ → ℤ → ℤ → ℂ) (lo n l m : ℤ) : ℂ :=
  if lo ≤ l then dt.cast (flmn n l m * (√((2 * (l : ℝ) + 1) / (16 * Real.pi ^ 3)) : ℝ))
  else flmn n l m

/-- `inverse_numpy` (wigner.py 110-190); the planes handed on have the type of `flmn`. -/
noncomputable def otfWignerInverseNumpyT (dt : Dtype) (G : Machine) (flmn : Nd ℂ) (L N : ℤ)
    (nside : Option ℤ) (sampling : PyStr) (reality : Bool) (precomps : Option (ℤ → PmPre)) (lo : ℤ) :
    Except PyErr (Nd ℂ) := requireLower lo do
  let ps ← orGenerate precomps (wignerPrecompsNumpy G L N sampling nside false reality)
  let shape ← so3_f_shape L N sampling nside
  if flmn.shape ≠ [(flmn_shape L N).1, (flmn_shape L N).2.1, (flmn_shape L N).2.2] then
    .error .valueError
  else do
    let fban ← wigInverseLoop N reality (fun n => (-1) ^ n) (fun n =>
      otfInverseNumpyT dt G
        (.d2 (flm_shape L).1 (flm_shape L).2 (wigScaleT dt flmn.get3 lo (N - 1 + n))) L
        (-n) nside sampling (if n = 0 then reality else false)
        (some (ps (n - wigStart N reality))) lo)
    packSo3 shape (wigGamma fban N reality)

/-- `inverse_jax` (wigner.py 193-288). -/
noncomputable def otfWignerInverseJaxT (dt : Dtype) (G : Machine) (flmn : Nd ℂ) (L N : ℤ)
    (nside : Option ℤ) (sampling : PyStr) (reality : Bool) (precomps : Option WigPreJax) (lo : ℤ) :
    Except PyErr (Nd ℂ) := requireLower lo do
  let ps ← orGenerate precomps (wignerPrecompsJax G L N sampling nside false reality)
  let shape ← so3_f_shape L N sampling nside
  if flmn.shape ≠ [(flmn_shape L N).1, (flmn_shape L N).2.1, (flmn_shape L N).2.2] then
    .error .valueError
  else do
    let fban ← wigInverseLoop N reality (fun n => (-1) ^ |n|) (fun n =>
      otfInverseJaxT dt G
        (.d2 (flm_shape L).1 (flm_shape L).2 (wigScaleT dt flmn.get3 lo (N - 1 + n))) L
        (-n) nside sampling false (some (ps.at (n - wigStart N reality))) lo)
    packSo3 shape (wigGamma fban N reality)

/-- `inverse` (wigner.py 13-107) for the methods "numpy", "jax" and "torch". -/
noncomputable def wignerInverseT (dt : Dtype) (G : Machine) (flmn : Nd ℂ) (L N : ℤ)
    (nside : Option ℤ) (sampling method : PyStr) (reality : Bool) (precomps : WigPrecomps)
    (lo : ℤ) : Except PyErr (Nd ℂ) :=
  if N ≥ 8 then .error .warning
  else if method = mNumpy then do
    let ps ← precomps.forNumpy
    otfWignerInverseNumpyT dt G flmn L N nside sampling reality ps lo
  else do
    let ps ← precomps.forJax
    otfWignerInverseJaxT dt G flmn L N nside sampling reality ps lo

/-- `flm_rotated.at[el, L - 1 + m].add(v)` (rotation.py 54-66) for `flm_rotated` of type `dt`: what is
added is converted first. -/
noncomputable def addOrdersT (dt : Dtype) (a : ℤ → ℤ → ℂ) (el L : ℤ) (v : ℤ → ℂ) : ℤ → ℤ → ℂ :=
  fun x y => if x = el ∧ (L - 1 - el ≤ y ∧ y < L + el) then a x y + dt.cast (v (y - (L - 1)))
    else a x y

/-- `rotate_flms` (rotation.py 10-67): `flm_rotated = zeros_like(flm)`. -/
noncomputable def rotateFlmsT (dt : Dtype) (flm : ℤ → ℤ → ℂ) (L : ℤ) (rotation : ℝ × ℝ × ℝ)
    (dls : Option (ℤ → ℤ → ℤ → ℝ)) : ℤ → ℤ → ℂ :=
  let alpha := expArray L rotation.1
  let gamma := expArray L rotation.2.2
  let beta := rotation.2.1
  match dls with
  | none =>
    (forRange 0 L (fun el (s : (ℤ → ℤ → ℝ) × (ℤ → ℤ → ℂ)) =>
      let dl := risboFullJax s.1 beta L el
      (dl, addOrdersT dt s.2 el L (rotateDegree dl alpha gamma flm L el)))
      (fun _ _ => 0, fun _ _ => 0)).2
  | some dl =>
    forRange 0 L (fun el out =>
      addOrdersT dt out el L (rotateDegree (dl el) alpha gamma flm L el)) (fun _ _ => 0)

/-- The array `x[a, m, n]` (fourier_wigner.py 59-80, 143-171) for `flmn` of type `dt`. In the NumPy
function with tables it has the type of the scaled coefficients, at least real (66); without tables
it has type `dt` (59), and adding real numbers in place to an array of integers is refused (75). In
the JAX function it is complex. -/
noncomputable def fwSpectrumT (dt : Dtype) (method : PyStr) (flmn : ℤ → ℤ → ℤ → ℂ) (L N off : ℤ)
    (precomps : Option FwTables) (reality : Bool) : Except PyErr (ℤ → ℤ → ℤ → ℂ) := do
  let ns := nStart N reality
  let flmn : ℤ → ℤ → ℤ → ℂ := fun n l m =>
    flmn n l m * ((2 * (l : ℂ) + 1) / (8 * (Real.pi : ℂ) ^ 2))
  let scaled : Dtype := if dt = .int then .float else dt
  let xt : Dtype := if method = mNumpy then scaled else .complex
  let cols ← fwColumns method L N reality
  match precomps with
  | some P =>
    pure (fun a m k => if off ≤ a ∧ off ≤ m then
      xt.cast (∑ l ∈ Finset.Ico 0 L, flmn (ns + k) l (m - off) * P.delta l (a - off) (m - off)
        * P.delta l (a - off) (cols k)) else 0)
  | none => do
    let s ← forRangeM 0 L (fun el (s : (ℤ → ℤ → ℝ) × (ℤ → ℤ → ℤ → ℂ)) => do
      let d ← fwStep method L el s.1
      if method = mNumpy ∧ dt = .int then .error .typeError
      else pure (d, fun a m k => if off ≤ a ∧ off ≤ m then
        xt.cast (s.2 a m k
          + flmn (ns + k) el (m - off) * d (a - off) (m - off) * d (a - off) (cols k))
        else s.2 a m k)) (fun _ _ => 0, fun _ _ _ => 0)
    pure s.2

/-- `inverse_transform` (fourier_wigner.py 13-93) and `inverse_transform_jax` (96-182). -/
noncomputable def fourierWignerInverseT (dt : Dtype) (method : PyStr) (flmn : Nd ℂ) (L N : ℤ)
    (precomps : Option FwTables) (reality : Bool) (sampling : PyStr) : Except PyErr (Nd ℂ) :=
  if ¬ fwSupported sampling then .error .valueError
  else if flmn.shape ≠ [2 * N - 1, L, 2 * L - 1] then .error .valueError
  else do
    let off := fwOffset sampling
    let size := fwSize L sampling
    let x ← fwSpectrumT dt method flmn.get3 L N off precomps reality
    let m : ℤ → ℤ := fun j => -L + 1 - off + j
    let x : ℤ → ℤ → ℤ → ℂ := fun k a j => x a j k * Complex.I ^ (-m j)
      * Complex.I ^ (nFirst N reality + k) * cis (m a * fwTheta0 L sampling)
    let y : ℤ → ℤ → ℤ → ℂ := fun k t j => ifft_fwd size (ifftshift size (fun a => x k a j)) t
    if reality then
      let z : ℤ → ℤ → ℤ → ℂ := fun k t => ifft_fwd size (ifftshift size (y k t))
      pure (.d3 (2 * N - 1) (fwNtheta L sampling) size
        (fun g t p => irfft_fwd N (fun k => z k t p) (2 * N - 1) g))
    else
      pure (.d3 (2 * N - 1) (fwNtheta L sampling) size (fun g t p =>
        ifft_fwd (2 * N - 1) (fun k => ifft_fwd size (fun j => ifftshift (2 * N - 1)
          (fun k => ifftshift size (y k t) j) k) p) g))

/-- `wigner_subset_to_s2` (custom_ops.py 5-83) and `wigner_subset_to_s2_jax` (86-165): the array `x` is
made with the type of `flmn` (66, 140). -/
noncomputable def wignerSubsetToS2T (dt : Dtype) (method : PyStr) (flmn : Nd5 ℂ) (ns : ℤ)
    (spins : ℤ → ℤ) (DW : FwTables) (L : ℤ) (sampling : PyStr) : Except PyErr (Nd5 ℂ) :=
  if ¬ fwSupported sampling then .error .valueError
  else match flmn.shape with
    | [B, n, l, m, C] =>
      if n ≠ ns then .error .valueError
      else do
        let off := fwOffset sampling
        let size := fwSize L sampling
        let cols ← subsetColumns method L ns spins
        if l ≠ L ∨ m ≠ 2 * L - 1 then .error .valueError
        else
          let M : ℤ → ℤ := fun j => -L + 1 - off + j
          let x : ℤ → ℤ → ℤ → ℤ → ℤ → ℂ := fun b i a j c => if off ≤ a ∧ off ≤ j then
            dt.cast (∑ l ∈ Finset.Ico 0 L, flmn.get b i l (j - off) c
              * DW.delta l (a - off) (j - off) * DW.delta l (a - off) (cols i)
              * ((2 * (l : ℂ) + 1) / (8 * (Real.pi : ℂ) ^ 2))) else 0
          let x : ℤ → ℤ → ℤ → ℤ → ℤ → ℂ := fun b i a j c => x b i a j c * Complex.I ^ (-M j)
            * Complex.I ^ (-spins i) * cis (M a * fwTheta0 L sampling)
          let x : ℤ → ℤ → ℤ → ℤ → ℤ → ℂ := fun b i a j c =>
            ifftshift size (fun j => ifftshift size (fun a => x b i a j c) a) j
          let x : ℤ → ℤ → ℤ → ℤ → ℤ → ℂ := fun b i t j c => ifft_fwd size (fun a => x b i a j c) t
          pure ⟨[B, ns, fwNtheta L sampling, size, C],
            fun b i t p c => ifft_fwd size (fun j => x b i t j c) p⟩
    | _ => .error .indexError

end S2fft
