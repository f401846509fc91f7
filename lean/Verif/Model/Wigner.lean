import Verif.Model.Spherical
import Verif.Model.BaseWigner

/-!
# On-the-fly Wigner transforms

Models `s2fft/transforms/wigner.py` and the coefficient lists of `s2fft/recursions/price_mcewen.py`.
`vmap` over the directions is written as the loop of the NumPy functions. `lo` is `L_lower`.
Arrays of the wrong shape are refused with a `ValueError`.
-/

namespace S2fft

/-- `n_start_ind`. -/
def wigStart (N : ℤ) (reality : Bool) : ℤ := if reality then 0 else -N + 1

/-- `generate_precomputes_wigner` (price_mcewen.py 258-306): a list with an entry for each direction. -/
noncomputable def wignerPrecompsNumpy (G : Machine) (L N : ℤ) (sampling : PyStr)
    (nside : Option ℤ) (forward reality : Bool) : Except PyErr (ℤ → PmPre) :=
  forRangeM (wigStart N reality) N (fun n ps => do
    let P ← precomputesNumpy G L (-n) sampling nside forward
    pure (set1 ps (n - wigStart N reality) P)) (fun _ => ⟨0, 0, 0, 0, fun _ _ => false⟩)

/-- The arrays of `generate_precomputes_wigner_jax`: the first two have an axis for the direction, the
others are those of the first direction. -/
structure WigPreJax where
  lr : ℤ → ℤ → ℤ → ℤ → ℝ
  vsign : ℤ → ℤ → ℤ → ℝ
  cpi : ℤ → ℤ → ℝ
  cp2 : ℤ → ℤ → ℝ

/-- The coefficients handed to the transform of direction number `i` (wigner.py 265-279, 612-623). -/
def WigPreJax.at (W : WigPreJax) (i : ℤ) : PmPre := ⟨W.lr i, W.vsign i, W.cpi, W.cp2, fun _ _ => false⟩

/-- `generate_precomputes_wigner_jax` (price_mcewen.py 310-374); the flag is `captured_repeats`. -/
noncomputable def wignerPrecompsJax (G : Machine) (L N : ℤ) (sampling : PyStr)
    (nside : Option ℤ) (forward reality : Bool) : Except PyErr WigPreJax := do
  let r ← forRangeM (wigStart N reality) N (fun n (s : WigPreJax × Bool) => do
    let P ← precomputesJax G L (-n) sampling nside forward
    pure (⟨set1 s.1.lr (n - wigStart N reality) P.lr, set1 s.1.vsign (n - wigStart N reality) P.vsign,
      if s.2 then s.1.cpi else P.cpi, if s.2 then s.1.cp2 else P.cp2⟩, true)) (⟨0, 0, 0, 0⟩, false)
  pure r.1

/-- `flmn[:, L_lower:] *= sqrt((2 el + 1) / (16 pi^3))` (wigner.py 165-169, 254-261, 784-791). -/
noncomputable def wigScale (flmn : ℤ → ℤ → ℤ → ℂ) (lo n l m : ℤ) : ℂ :=
  if lo ≤ l then flmn n l m * (√((2 * (l : ℝ) + 1) / (16 * Real.pi ^ 3)) : ℝ) else flmn n l m

/-- `flmn[:, L_lower:] *= sqrt(4 pi / (2 el + 1))` (wigner.py 528-532, 637-644, 767-774). -/
noncomputable def wigUnscale (flmn : ℤ → ℤ → ℤ → ℂ) (lo n l m : ℤ) : ℂ :=
  if lo ≤ l then flmn n l m * (√(4 * Real.pi / (2 * (l : ℝ) + 1)) : ℝ) else flmn n l m

/-- The loop over the directions: plane `N - 1 + n` is `sgn n` times the spherical transform `plane n`
(wigner.py 171-182, 266-282, 817-821). -/
noncomputable def wigInverseLoop (N : ℤ) (reality : Bool) (sgn : ℤ → ℂ)
    (plane : ℤ → Except PyErr (Nd ℂ)) : Except PyErr (ℤ → ℤ → ℤ → ℂ) :=
  forRangeM (wigStart N reality) N (fun n fban => do
    let out ← plane n
    pure (setPlane fban (N - 1 + n) (fun i j => sgn n * out.get2 i j))) (fun _ _ _ => 0)

/-- The synthesis over `γ` (wigner.py 184-188, 283-286, 824-830). -/
noncomputable def wigGamma (fban : ℤ → ℤ → ℤ → ℂ) (N : ℤ) (reality : Bool) (g i j : ℤ) : ℂ :=
  if reality then irfft_fwd (2 * N - 1 - (N - 1)) (fun k => fban (N - 1 + k) i j) (2 * N - 1) g
  else ifft_fwd (ngamma N) (ifftshift (ngamma N) (fun k => fban k i j)) g

/-- `if precomps is None: precomps = ...` (wigner.py 162-165, 252-255, 495-498, 590-593). -/
def orGenerate {α : Type} (precomps : Option α) (gen : Except PyErr α) : Except PyErr α :=
  match precomps with
  | some ps => .ok ps
  | none => gen

/-- `inverse_numpy` (wigner.py 110-190). -/
noncomputable def otfWignerInverseNumpy (G : Machine) (flmn : Nd ℂ) (L N : ℤ) (nside : Option ℤ)
    (sampling : PyStr) (reality : Bool) (precomps : Option (ℤ → PmPre)) (lo : ℤ) :
    Except PyErr (Nd ℂ) := requireLower lo do
  let ps ← orGenerate precomps (wignerPrecompsNumpy G L N sampling nside false reality)
  let shape ← so3_f_shape L N sampling nside
  if flmn.shape ≠ [(flmn_shape L N).1, (flmn_shape L N).2.1, (flmn_shape L N).2.2] then
    .error .valueError
  else do
    let fban ← wigInverseLoop N reality (fun n => (-1) ^ n) (fun n =>
      otfInverseNumpy G (.d2 (flm_shape L).1 (flm_shape L).2 (wigScale flmn.get3 lo (N - 1 + n))) L
        (-n) nside sampling (if n = 0 then reality else false)
        (some (ps (n - wigStart N reality))) lo)
    packSo3 shape (wigGamma fban N reality)

/-- `inverse_jax` (wigner.py 193-288). -/
noncomputable def otfWignerInverseJax (G : Machine) (flmn : Nd ℂ) (L N : ℤ) (nside : Option ℤ)
    (sampling : PyStr) (reality : Bool) (precomps : Option WigPreJax) (lo : ℤ) :
    Except PyErr (Nd ℂ) := requireLower lo do
  let ps ← orGenerate precomps (wignerPrecompsJax G L N sampling nside false reality)
  let shape ← so3_f_shape L N sampling nside
  if flmn.shape ≠ [(flmn_shape L N).1, (flmn_shape L N).2.1, (flmn_shape L N).2.2] then
    .error .valueError
  else do
    let fban ← wigInverseLoop N reality (fun n => (-1) ^ |n|) (fun n =>
      otfInverseJax G (.d2 (flm_shape L).1 (flm_shape L).2 (wigScale flmn.get3 lo (N - 1 + n))) L
        (-n) nside sampling false (some (ps.at (n - wigStart N reality))) lo)
    packSo3 shape (wigGamma fban N reality)

/-- The mirror plane of a real signal: `conj(flip(flmn[n] * sgn * (-1)^n))` (wigner.py 524-527,
621-635, 751-765). -/
noncomputable def wigMirror (plane : ℤ → ℤ → ℂ) (L n : ℤ) (l j : ℤ) : ℂ :=
  (starRingEnd ℂ) (plane l (2 * L - 1 - 1 - j) * (-1) ^ |-L + 1 + (2 * L - 1 - 1 - j)| * (-1) ^ n)

/-- `forward_numpy` (wigner.py 442-533). -/
noncomputable def otfWignerForwardNumpy (G : Machine) (f : Nd ℂ) (L N : ℤ) (nside : Option ℤ)
    (sampling : PyStr) (reality : Bool) (precomps : Option (ℤ → PmPre)) (lo : ℤ) :
    Except PyErr (Nd ℂ) := requireLower lo do
  let ps ← orGenerate precomps (wignerPrecompsNumpy G L N sampling nside true reality)
  let shape ← so3_f_shape L N sampling nside
  if f.shape ≠ shape then .error .valueError
  else do
    let fban := wignerBaseFban f.get3 N reality
    let flmn ← forRangeM (wigStart N reality) N (fun n flmn => do
      let flm ← otfForwardNumpy G (planeOf shape (fban (n - wigStart N reality))) L (-n) nside
        sampling (if n = 0 then reality else false) (some (ps (n - wigStart N reality))) lo
      let flmn := setPlane flmn (N - 1 + n) (fun l j => (-1) ^ n * flm.get2 l j)
      if reality = true ∧ n ≠ 0 then
        pure (setPlane flmn (N - 1 - n) (wigMirror (flmn (N - 1 + n)) L n))
      else pure flmn) (fun _ _ _ => 0)
    pure (.d3 (flmn_shape L N).1 (flmn_shape L N).2.1 (flmn_shape L N).2.2 (wigUnscale flmn lo))

/-- The planes of negative direction of a real signal, all at once (wigner.py 619-635, 748-765). -/
noncomputable def wigMirrorAll (flmn : ℤ → ℤ → ℤ → ℂ) (L N : ℤ) (reality : Bool) : ℤ → ℤ → ℤ → ℂ :=
  fun q => if reality = true ∧ 0 ≤ q ∧ q < N - 1 then
    wigMirror (flmn (N - 1 + (N - 1 - q))) L (N - 1 - q) else flmn q

/-- `forward_jax` (wigner.py 536-645). -/
noncomputable def otfWignerForwardJax (G : Machine) (f : Nd ℂ) (L N : ℤ) (nside : Option ℤ)
    (sampling : PyStr) (reality : Bool) (precomps : Option WigPreJax) (lo : ℤ) :
    Except PyErr (Nd ℂ) := requireLower lo do
  let ps ← orGenerate precomps (wignerPrecompsJax G L N sampling nside true reality)
  let shape ← so3_f_shape L N sampling nside
  if f.shape ≠ shape then .error .valueError
  else do
    let fban := wignerBaseFban f.get3 N reality
    let flmn ← wigInverseLoop N reality (fun n => (-1) ^ |n|) (fun n =>
      otfForwardJax G (planeOf shape (fban (n - wigStart N reality))) L (-n) nside
        sampling false (some (ps.at (n - wigStart N reality))) lo)
    pure (.d3 (flmn_shape L N).1 (flmn_shape L N).2.1 (flmn_shape L N).2.2
      (wigUnscale (wigMirrorAll flmn L N reality) lo))

/-- `inverse_jax_ssht` (wigner.py 293-343, 776-830). -/
noncomputable def sshtWignerInverse (B : Backends) (flmn : Nd ℂ) (L N lo : ℤ) (sampling : PyStr)
    (reality : Bool) (sshtBackend : ℤ) : Except PyErr (Nd ℂ) := requireLower lo do
  let shape ← so3_f_shape L N sampling none
  if flmn.shape ≠ [(flmn_shape L N).1, (flmn_shape L N).2.1, (flmn_shape L N).2.2] then
    .error .valueError
  else do
    let k ← sshtSampling sampling
    let fban ← wigInverseLoop N reality (fun n => (-1) ^ |n|) (fun n =>
      B.sshtInverse (.d2 (flm_shape L).1 (flm_shape L).2 (wigScale flmn.get3 lo (N - 1 + n))) L
        (-n) false k sshtBackend)
    packSo3 shape (wigGamma fban N reality)

/-- `forward_jax_ssht` (wigner.py 648-774). -/
noncomputable def sshtWignerForward (B : Backends) (f : Nd ℂ) (L N lo : ℤ) (sampling : PyStr)
    (reality : Bool) (sshtBackend : ℤ) : Except PyErr (Nd ℂ) := requireLower lo do
  let shape ← so3_f_shape L N sampling none
  if f.shape ≠ shape then .error .valueError
  else do
    let k ← sshtSampling sampling
    let fban := wignerBaseFban f.get3 N reality
    let flmn ← wigInverseLoop N reality (fun n => (-1) ^ |n|) (fun n =>
      B.sshtForward (planeOf shape (fban (n - wigStart N reality))) L (-n) false k sshtBackend)
    pure (.d3 (flmn_shape L N).1 (flmn_shape L N).2.1 (flmn_shape L N).2.2
      (wigUnscale (wigMirrorAll flmn L N reality) lo))

/-- The `precomps` argument of the Wigner transforms. -/
inductive WigPrecomps where
  | none
  | numpy (ps : ℤ → PmPre)
  | jax (ps : WigPreJax)

/-- Coefficients for the NumPy functions; those of the other kind do not index alike. -/
def WigPrecomps.forNumpy : WigPrecomps → Except PyErr (Option (ℤ → PmPre))
  | .none => .ok Option.none
  | .numpy ps => .ok (some ps)
  | .jax _ => .error .typeError

/-- Coefficients for the JAX functions. -/
def WigPrecomps.forJax : WigPrecomps → Except PyErr (Option WigPreJax)
  | .none => .ok Option.none
  | .jax ps => .ok (some ps)
  | .numpy _ => .error .typeError

/-- The keys of `_inverse_functions` and `_forward_functions` (wigner.py 833-845). -/
def wignerMethods : List PyStr := [mNumpy, mJax, mSsht, mTorch]

/-- `inverse` (wigner.py 13-107). -/
noncomputable def wignerInverse (B : Backends) (G : Machine) (flmn : Nd ℂ) (L N : ℤ)
    (nside : Option ℤ) (sampling method : PyStr) (reality : Bool) (precomps : WigPrecomps)
    (lo sshtBackend : ℤ) : Except PyErr (Nd ℂ) :=
  if method ∉ wignerMethods then .error .valueError
  else if N ≥ 8 ∧ method ∈ [mNumpy, mJax, mTorch] then .error .warning
  else if method = mSsht then
    if lower sampling = sHP then .error .valueError
    else sshtWignerInverse B flmn L N lo sampling reality sshtBackend
  else if method = mNumpy then do
    let ps ← precomps.forNumpy
    otfWignerInverseNumpy G flmn L N nside sampling reality ps lo
  else do
    let ps ← precomps.forJax
    otfWignerInverseJax G flmn L N nside sampling reality ps lo

/-- `forward` (wigner.py 346-439). -/
noncomputable def wignerForward (B : Backends) (G : Machine) (f : Nd ℂ) (L N : ℤ)
    (nside : Option ℤ) (sampling method : PyStr) (reality : Bool) (precomps : WigPrecomps)
    (lo sshtBackend : ℤ) : Except PyErr (Nd ℂ) :=
  if method ∉ wignerMethods then .error .valueError
  else if N ≥ 8 ∧ method ∈ [mNumpy, mJax, mTorch] then .error .warning
  else if method = mSsht then
    if lower sampling = sHP then .error .valueError
    else sshtWignerForward B f L N lo sampling reality sshtBackend
  else if method = mNumpy then do
    let ps ← precomps.forNumpy
    otfWignerForwardNumpy G f L N nside sampling reality ps lo
  else do
    let ps ← precomps.forJax
    otfWignerForwardJax G f L N nside sampling reality ps lo

end S2fft
