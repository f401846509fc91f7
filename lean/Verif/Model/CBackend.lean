import Verif.Model.Spherical
import Verif.Model.Reindex
import Verif.Spec.Backends

/-!
# Wrappers of the C libraries

Models `s2fft/transforms/c_backend_spherical.py`. The libraries are parameters (`Ssht`, `Healpy`);
conversions between NumPy and JAX arrays do not change values. Coefficient arrays have shape
`(L, 2L - 1)`.
-/

namespace S2fft
open Spec

/-- `np.conj` of an array. -/
noncomputable def Nd.conj : Nd ℂ → Nd ℂ
  | .d1 n a => .d1 n (fun i => (starRingEnd ℂ) (a i))
  | .d2 r c a => .d2 r c (fun i j => (starRingEnd ℂ) (a i j))
  | .d3 p r c a => .d3 p r c (fun i j k => (starRingEnd ℂ) (a i j k))
  | .other k => .other k

/-- A list as an array. -/
noncomputable def ndOfList (l : List ℂ) : Nd ℂ := .d1 l.length (ofList1 l)

/-- `["MW", "MWSS", "DH", "GL"][ssht_sampling]`. -/
def sshtName (k : ℤ) : Except PyErr PyStr := do
  let i ← pyIndex 4 k
  pure (if i = 0 then "MW".toList else if i = 1 then "MWSS".toList else if i = 2 then "DH".toList
    else "GL".toList)

/-- `"SSHT" if _ssht_backend == 0 else "ducc0"`. -/
def sshtBackendName (backend : ℤ) : PyStr := if backend = 0 then "SSHT".toList else "ducc0".toList

/-- `ssht_inverse` (c_backend_spherical.py 31-89). -/
noncomputable def sshtInverse (S : Ssht) (flm : Nd ℂ) (L spin : ℤ) (reality : Bool) (k backend : ℤ) :
    Except PyErr (Nd ℂ) := do
  let name ← sshtName k
  S.inverse (ndOfList (flm_2d_to_1d_fast flm.get2 L)) L spin name reality (sshtBackendName backend)

/-- `ssht_forward` (c_backend_spherical.py 154-212). -/
noncomputable def sshtForward (S : Ssht) (f : Nd ℂ) (L spin : ℤ) (reality : Bool) (k backend : ℤ) :
    Except PyErr (Nd ℂ) := do
  let name ← sshtName k
  let flm ← S.forward f L spin name reality (sshtBackendName backend)
  let a ← flm_1d_to_2d_fast (flm.shape.headD 0) (flm.get2 0) L
  pure (.d2 L (2 * L - 1) a)

/-- The completion at the end of `_ssht_inverse_bwd` (c_backend_spherical.py 144-149): `m_conj =
(-1) ** (arange(1, L) % 2)`, `flm_out[..., L:] += flip(m_conj * conj(flm_out[..., :L - 1]))` and
`flm_out[..., :L - 1] = 0`. -/
noncomputable def sshtFold (flm : ℤ → ℤ → ℂ) (L : ℤ) : ℤ → ℤ → ℂ :=
  let mConj : ℤ → ℂ := fun j => (-1) ^ ((j + 1) % 2).toNat
  let flm : ℤ → ℤ → ℂ := fun l k => if L ≤ k then
      flm l k + mConj (L - 2 - (k - L)) * (starRingEnd ℂ) (flm l (L - 2 - (k - L)))
    else flm l k
  fun l k => if k < L - 1 then 0 else flm l k

/-- The library call of `_ssht_inverse_bwd` (c_backend_spherical.py 107-140). -/
noncomputable def sshtInverseBwdCall (S : Ssht) (G : GlTables) (f : Nd ℂ) (L spin : ℤ)
    (reality : Bool) (k backend : ℤ) : Except PyErr (Nd ℂ) := do
  let name ← sshtName k
  if k < 2 then S.inverse_adjoint f.conj L spin name reality (sshtBackendName backend)
  else do
    let w ← quad_weights_transform G.weights L (lower name) 0
    let f : Nd ℂ := match f with
      | .d2 r c a => .d2 r c (fun t p => a t p * (1 / w.2 t : ℝ))
      | f => f
    S.forward f.conj L spin name reality (sshtBackendName backend)

/-- `_ssht_inverse_bwd` (c_backend_spherical.py 105-151), the cotangent of the coefficients. -/
noncomputable def sshtInverseBwd (S : Ssht) (G : GlTables) (f : Nd ℂ) (L spin : ℤ)
    (reality : Bool) (k backend : ℤ) : Except PyErr (Nd ℂ) := do
  let flm ← sshtInverseBwdCall S G f L spin reality k backend
  let flm := flm.conj
  let a ← flm_1d_to_2d_fast (flm.shape.headD 0) (flm.get2 0) L
  pure (.d2 L (2 * L - 1) (if reality then sshtFold a L else a))

/-- `_ssht_forward_bwd` (c_backend_spherical.py 228-267), the cotangent of the signal. -/
noncomputable def sshtForwardBwd (S : Ssht) (G : GlTables) (flm : Nd ℂ) (L spin : ℤ)
    (reality : Bool) (k backend : ℤ) : Except PyErr (Nd ℂ) := do
  let name ← sshtName k
  let c := ndOfList (flm_2d_to_1d_fast flm.get2 L)
  if k < 2 then do
    let f ← S.forward_adjoint c.conj L spin name reality (sshtBackendName backend)
    pure f.conj
  else do
    let w ← quad_weights_transform G.weights L (lower name) 0
    let f ← S.inverse c.conj L spin name reality (sshtBackendName backend)
    pure (match f.conj with
      | .d2 r c a => .d2 r c (fun t p => a t p * w.2 t)
      | f => f)

/-- `scale_factors` (c_backend_spherical.py 337-341, 387-391). -/
noncomputable def healpyScale (L nside : ℤ) : ℤ → ℝ :=
  fun i => (if i < L then 1 else 2) * (3 * (nside : ℝ) ^ 2) / Real.pi

/-- `_healpy_map2alm_transpose` (c_backend_spherical.py 336-342). -/
noncomputable def healpyMap2almTranspose (H : Healpy) (dflm : ℤ → ℂ) (L nside : ℤ) :
    Except PyErr (Nd ℂ) := do
  let f ← H.alm2map (.d1 (L * (L + 1) / 2)
    (fun i => (starRingEnd ℂ) (dflm i) / (healpyScale L nside i : ℂ))) L nside
  pure f.conj

/-- `_healpy_alm2map_transpose` (c_backend_spherical.py 386-397). -/
noncomputable def healpyAlm2mapTranspose (H : Healpy) (df : ℤ → ℂ) (L nside : ℤ) :
    Except PyErr (Nd ℂ) := do
  let c ← H.map2alm (.d1 (12 * nside ^ 2) (fun i => (starRingEnd ℂ) (df i))) L
  pure (match c.conj with
    | .d1 n a => .d1 n (fun i => (healpyScale L nside i : ℂ) * a i)
    | c => c)

/-- `healpy_alm2map` (c_backend_spherical.py 376-426); without `nside` the library refuses. -/
noncomputable def healpyAlm2map (H : Healpy) (c : Nd ℂ) (L : ℤ) : Option ℤ → Except PyErr (Nd ℂ)
  | some nside => H.alm2map c L nside
  | none => .error .typeError

/-- `healpy_inverse` (c_backend_spherical.py 472-501). -/
noncomputable def healpyInverse (H : Healpy) (flm : Nd ℂ) (L : ℤ) (nside : Option ℤ) :
    Except PyErr (Nd ℂ) :=
  healpyAlm2map H (ndOfList (flm_2d_to_hp_fast flm.get2 L)) L nside

/-- `healpy_forward` (c_backend_spherical.py 430-469). -/
noncomputable def healpyForward (H : Healpy) (f : Nd ℂ) (L : ℤ) (nside : Option ℤ) (n_iter : ℤ) :
    Except PyErr (Nd ℂ) := do
  let c ← refine f n_iter (fun f => H.map2alm f L) (fun c => healpyAlm2map H c L nside)
    (Nd.map2 (· - ·)) (Nd.map2 (· + ·))
  pure (.d2 L (2 * L - 1) (flm_hp_to_2d_fast (c.get2 0) L))

/-- The wrappers as the public transforms call them (spherical.py 756-777, wigner.py 735-830). -/
noncomputable def libraries (S : Ssht) (H : Healpy) (B : Backends) : Backends :=
  { B with
    sshtInverse := sshtInverse S
    sshtForward := sshtForward S
    healpyInverse := healpyInverse H
    healpyForward := healpyForward H }

end S2fft
