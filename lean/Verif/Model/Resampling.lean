import Verif.Py.Fft
import Verif.Model.Samples

/-!
# Model of `s2fft/utils/resampling.py` and `s2fft/utils/resampling_jax.py`

Signals have shape `(batch, θ, φ)`; a scalar `spin` is the constant function `spin b`, an array of
spins has one entry per batch element. Arrays are assumed to have the `θ` and `φ` sizes the
functions document (only `unextend` of the NumPy file checks a size); the number of `θ` rows is
carried along where it matters. The JAX file computes inverse transforms as
`conj(fft(conj(x)))`; its functions have the suffix `_jax`.
-/

namespace S2fft

/-- resampling.py:31-34 / resampling_jax.py:172-175: sizes used by `periodic_extension`
`(ntheta, nphi, ntheta_ext, m_offset)`. The test for `m_offset` does not lower-case the name. -/
def extensionSizes (L : ℤ) (sampling : PyStr) : Except PyErr (ℤ × ℤ × ℤ × ℤ) := do
  let nt ← ntheta (some L) sampling none
  let np ← nphi_equiang L sampling
  let nte ← ntheta_extension L sampling
  pure (nt, np, nte, if sampling = sMWSS then 1 else 0)

/-- resampling.py:36-59 / resampling_jax.py:177-221: the Fourier rows of the extension, before the
inverse transform. -/
noncomputable def extensionRows (L nt np off : ℤ) (f : ℤ → ℤ → ℤ → ℂ) (spin : ℤ → ℤ) :
    ℤ → ℤ → ℤ → ℂ :=
  let e0 : ℤ → ℤ → ℤ → ℂ := fun b t p => if t < nt then f b t p else 0
  let e1 : ℤ → ℤ → ℤ → ℂ := fun b t => fftshift np (fft np (e0 b t))
  let ins : ℤ → ℤ → Prop := fun t j =>
    L + off ≤ t ∧ t < 2 * L - 1 + off ∧ off ≤ j ∧ j < 2 * L - 1 + off
  haveI : ∀ t j, Decidable (ins t j) := fun t j => by unfold ins; infer_instance
  let e2 : ℤ → ℤ → ℤ → ℂ := fun b t j =>
    if ins t j then e1 b (L - 1 + off - 1 - (t - (L + off))) j else e1 b t j
  let e3 : ℤ → ℤ → ℤ → ℂ := fun b t j =>
    if ins t j then e2 b t j * (-1) ^ (-(L - 1) + (j - off)).natAbs else e2 b t j
  fun b t j => if ins t j then e3 b t j * (-1) ^ (spin b).natAbs else e3 b t j

/-- resampling.py:6-61 `periodic_extension`: number of rows and values. -/
noncomputable def periodic_extension (f : ℤ → ℤ → ℤ → ℂ) (L : ℤ) (spin : ℤ → ℤ)
    (sampling : PyStr) : Except PyErr (ℤ × (ℤ → ℤ → ℤ → ℂ)) := do
  let (nt, np, nte, off) ← extensionSizes L sampling
  let e := extensionRows L nt np off f spin
  pure (nte, fun b t => ifft np (ifftshift np (e b t)))

/-- resampling.py:64-101 `periodic_extension_spatial_mwss` (resampling_jax.py:347-396): `2L` rows.
`f[:, 1:L]` flipped starts at row `L - 1`. -/
def periodic_extension_spatial_mwss (f : ℤ → ℤ → ℤ → ℂ) (L : ℤ) (spin : ℤ → ℤ) :
    ℤ → ℤ → ℤ → ℂ := fun b t p =>
  if t < L + 1 then f b t p
  else (-1) ^ (spin b).natAbs * fftshift (2 * L) (f b (L - 1 - (t - (L + 1)))) p

/-- resampling.py:134-160 `upsample_by_two_mwss_ext`: `4L` rows. -/
noncomputable def upsample_by_two_mwss_ext (f_ext : ℤ → ℤ → ℤ → ℂ) (L : ℤ) : ℤ → ℤ → ℤ → ℂ :=
  let e1 : ℤ → ℤ → ℤ → ℂ := fun b p => fftshift (2 * L) (fft_fwd (2 * L) (fun t => f_ext b t p))
  let up : ℤ → ℤ → ℤ → ℂ := fun b p t => if L ≤ t ∧ t < 2 * L + L then e1 b p (t - L) else 0
  fun b t p => ifft_fwd (2 * (2 * L)) (ifftshift (2 * (2 * L)) (up b p)) t

/-- resampling.py:163-193 `downsample_by_two_mwss`: `f_ext[:, 0:-1:2, :]` of an array with `rows`
rows. -/
def downsample_by_two_mwss (rows : ℤ) (f_ext : ℤ → ℤ → ℤ → ℂ) (L : ℤ) :
    Except PyErr (ℤ × (ℤ → ℤ → ℤ → ℂ)) :=
  if L % 2 ≠ 0 then .error .valueError
  else .ok (rows / 2, fun b t p => f_ext b (2 * t) p)

/-- resampling.py:196-245 `unextend`: an array with `rows` rows. -/
def unextend (rows : ℤ) (f_ext : ℤ → ℤ → ℤ → ℂ) (L : ℤ) (sampling : PyStr) :
    Except PyErr (ℤ × (ℤ → ℤ → ℤ → ℂ)) :=
  if ¬ (lower sampling = sMW ∨ lower sampling = sMWSS) then .error .valueError
  else do
    let nte ← ntheta_extension L sampling
    if rows ≠ nte then .error .valueError
    else if lower sampling = sMW then pure (L, f_ext)
    else if lower sampling = sMWSS then pure (L + 1, f_ext)
    else .error .valueError

/-- resampling.py:104-131 `upsample_by_two_mwss`. `np.squeeze` removes a batch dimension of size 1
(the other sizes are at least 2). -/
noncomputable def upsample_by_two_mwss (f : Nd ℂ) (L : ℤ) (spin : ℤ → ℤ) : Except PyErr (Nd ℂ) :=
  match f with
  | .d2 _ _ a => do
    let e := periodic_extension_spatial_mwss (fun _ => a) L spin
    let u := upsample_by_two_mwss_ext e L
    let (n, g) ← unextend (2 * (2 * L)) u (2 * L) sMWSS
    pure (.d2 n (2 * L) (g 0))
  | .d3 B _ _ a => do
    let e := periodic_extension_spatial_mwss a L spin
    let u := upsample_by_two_mwss_ext e L
    let (n, g) ← unextend (2 * (2 * L)) u (2 * L) sMWSS
    pure (if B = 1 then .d2 n (2 * L) (g 0) else .d3 B n (2 * L) g)
  | _ => .error .indexError

/-- resampling.py:248-281 `mw_to_mwss_phi`, applied to each of the `L + 1` rows. -/
noncomputable def mw_to_mwss_phi (f_mw : ℤ → ℤ → ℤ → ℂ) (L : ℤ) : ℤ → ℤ → ℤ → ℂ :=
  let e : ℤ → ℤ → ℤ → ℂ := fun b t j =>
    if 1 ≤ j then fftshift (2 * L - 1) (fft_fwd (2 * L - 1) (f_mw b t)) (j - 1) else 0
  fun b t => ifft_fwd (2 * L) (ifftshift (2 * L) (e b t))

/-- resampling.py:309-321 / resampling_jax.py:73-88: the `θ` spectrum, with the shift of the grid
origin. -/
noncomputable def mwssThetaRows (f_mw_ext : ℤ → ℤ → ℤ → ℂ) (L : ℤ) : ℤ → ℤ → ℤ → ℂ :=
  let e1 : ℤ → ℤ → ℤ → ℂ := fun b p j =>
    if 1 ≤ j then
      fftshift (2 * L - 1) (fft_fwd (2 * L - 1) (fun t => f_mw_ext b t p)) (j - 1) else 0
  fun b p j =>
    if 1 ≤ j then
      e1 b p j * cis (-(((-(L - 1) + (j - 1) : ℤ) : ℝ) * Real.pi / (2 * (L : ℝ) - 1)))
    else e1 b p j

/-- resampling.py:284-326 `mw_to_mwss_theta`. -/
noncomputable def mw_to_mwss_theta (f_mw : ℤ → ℤ → ℤ → ℂ) (L : ℤ) (spin : ℤ → ℤ) :
    Except PyErr (ℤ × (ℤ → ℤ → ℤ → ℂ)) := do
  let (_, f_mw_ext) ← periodic_extension f_mw L spin sMW
  let fmp := mwssThetaRows f_mw_ext L
  unextend (2 * L) (fun b t p => ifft_fwd (2 * L) (ifftshift (2 * L) (fmp b p)) t) L sMWSS

/-- resampling.py:329-355 `mw_to_mwss`. -/
noncomputable def mw_to_mwss (f_mw : Nd ℂ) (L : ℤ) (spin : ℤ → ℤ) : Except PyErr (Nd ℂ) :=
  match f_mw with
  | .d2 _ _ a => do
    let (n, g) ← mw_to_mwss_theta (fun _ => a) L spin
    pure (.d2 n (2 * L) (mw_to_mwss_phi g L 0))
  | .d3 B _ _ a => do
    let (n, g) ← mw_to_mwss_theta a L spin
    pure (.d3 B n (2 * L) (mw_to_mwss_phi g L))
  | _ => .error .indexError

/-! ## resampling_jax.py -/

/-- `conj(fft(ifftshift(conj(x))))`. -/
noncomputable def conjFft (n : ℤ) (x : ℤ → ℂ) (p : ℤ) : ℂ :=
  (starRingEnd ℂ) (fft n (ifftshift n (fun j => (starRingEnd ℂ) (x j))) p)

/-- resampling_jax.py:146-233 `periodic_extension`. -/
noncomputable def periodic_extension_jax (f : ℤ → ℤ → ℤ → ℂ) (L : ℤ) (spin : ℤ → ℤ)
    (sampling : PyStr) : Except PyErr (ℤ × (ℤ → ℤ → ℤ → ℂ)) := do
  let (nt, np, nte, off) ← extensionSizes L sampling
  let e := extensionRows L nt np off f spin
  pure (nte, fun b t p => conjFft np (e b t) p / np)

/-- resampling_jax.py:308-343 `upsample_by_two_mwss_ext`. -/
noncomputable def upsample_by_two_mwss_ext_jax (f_ext : ℤ → ℤ → ℤ → ℂ) (L : ℤ) : ℤ → ℤ → ℤ → ℂ :=
  let e1 : ℤ → ℤ → ℤ → ℂ := fun b p => fftshift (2 * L) (fft_fwd (2 * L) (fun t => f_ext b t p))
  let up : ℤ → ℤ → ℤ → ℂ := fun b p t => if L ≤ t ∧ t < 2 * L + L then e1 b p (t - L) else 0
  fun b t p => conjFft (2 * (2 * L)) (up b p) t

/-- resampling_jax.py:237-271 `unextend`: no check of the number of rows. -/
def unextend_jax (f_ext : ℤ → ℤ → ℤ → ℂ) (L : ℤ) (sampling : PyStr) :
    Except PyErr (ℤ × (ℤ → ℤ → ℤ → ℂ)) :=
  if lower sampling = sMW then pure (L, f_ext)
  else if lower sampling = sMWSS then pure (L + 1, f_ext)
  else .error .valueError

/-- resampling_jax.py:275-304 `upsample_by_two_mwss`. -/
noncomputable def upsample_by_two_mwss_jax (f : Nd ℂ) (L : ℤ) (spin : ℤ → ℤ) :
    Except PyErr (Nd ℂ) :=
  match f with
  | .d2 _ _ a => do
    let e := periodic_extension_spatial_mwss (fun _ => a) L spin
    let u := upsample_by_two_mwss_ext_jax e L
    let (n, g) ← unextend_jax u (2 * L) sMWSS
    pure (.d2 n (2 * L) (g 0))
  | .d3 B _ _ a => do
    let e := periodic_extension_spatial_mwss a L spin
    let u := upsample_by_two_mwss_ext_jax e L
    let (n, g) ← unextend_jax u (2 * L) sMWSS
    pure (if B = 1 then .d2 n (2 * L) (g 0) else .d3 B n (2 * L) g)
  | _ => .error .indexError

/-- resampling_jax.py:100-142 `mw_to_mwss_phi`. -/
noncomputable def mw_to_mwss_phi_jax (f_mw : ℤ → ℤ → ℤ → ℂ) (L : ℤ) : ℤ → ℤ → ℤ → ℂ :=
  let e : ℤ → ℤ → ℤ → ℂ := fun b t j =>
    if 1 ≤ j then fftshift (2 * L - 1) (fft_fwd (2 * L - 1) (f_mw b t)) (j - 1) else 0
  fun b t => conjFft (2 * L) (e b t)

/-- resampling_jax.py:42-96 `mw_to_mwss_theta`. -/
noncomputable def mw_to_mwss_theta_jax (f_mw : ℤ → ℤ → ℤ → ℂ) (L : ℤ) (spin : ℤ → ℤ) :
    Except PyErr (ℤ × (ℤ → ℤ → ℤ → ℂ)) := do
  let (_, f_mw_ext) ← periodic_extension_jax f_mw L spin sMW
  let fmp := mwssThetaRows f_mw_ext L
  unextend_jax (fun b t p => conjFft (2 * L) (fmp b p) t) L sMWSS

/-- resampling_jax.py:10-39 `mw_to_mwss`. -/
noncomputable def mw_to_mwss_jax (f_mw : Nd ℂ) (L : ℤ) (spin : ℤ → ℤ) : Except PyErr (Nd ℂ) :=
  match f_mw with
  | .d2 _ _ a => do
    let (n, g) ← mw_to_mwss_theta_jax (fun _ => a) L spin
    pure (.d2 n (2 * L) (mw_to_mwss_phi_jax g L 0))
  | .d3 B _ _ a => do
    let (n, g) ← mw_to_mwss_theta_jax a L spin
    pure (.d3 B n (2 * L) (mw_to_mwss_phi_jax g L))
  | _ => .error .indexError

end S2fft
