import Verif.Spec.Harmonic
import Verif.Spec.Grid
import Verif.Py.Basic

/-!
# The C libraries

What `pyssht` and `healpy` are documented to compute. Coefficients are flat arrays: in SSHT's order
`l² + l + m`, in healpy's order `m (2L - 1 - m) / 2 + l`, orders `m ≥ 0` only.
-/

namespace S2fft.Spec

/-- `∑ a_{lm}` over `lo ≤ l < L`, `|m| ≤ l`. -/
noncomputable def lmSum (lo L : ℤ) (a : ℤ → ℤ → ℂ) : ℂ :=
  ∑ l ∈ Finset.Ico lo L, ∑ m ∈ Finset.Ico (-l) (l + 1), a l m

/-- `∑ a_{tp}` over the samples of a grid. -/
noncomputable def gridSum (σ : Scheme) (L nside : ℤ) (a : ℤ → ℤ → ℂ) : ℂ :=
  ∑ t ∈ Finset.Ico 0 (σ.rings L nside), ∑ p ∈ Finset.Ico 0 (σ.ringLen L nside t), a t p

/-- The coefficients of the real signal that has the given ones for `m > 0`; of that for `m = 0` only
the real part counts. -/
noncomputable def realSignal (c : ℤ → ℤ → ℂ) (l m : ℤ) : ℂ :=
  if m < 0 then (-1) ^ m * (starRingEnd ℂ) (c l (-m)) else if m = 0 then ((c l 0).re : ℂ) else c l m

/-- SSHT's order. -/
def sshtInd (l m : ℤ) : ℤ := l * l + l + m

/-- healpy's order. -/
def healpyInd (L l m : ℤ) : ℤ := m * (2 * L - 1 - m) / 2 + l

/-- SSHT's names of the grids. -/
def sshtMethod : Scheme → PyStr
  | .mw => "MW".toList
  | .mwss => "MWSS".toList
  | .dh => "DH".toList
  | .gl => "GL".toList
  | .healpix => []

/-- The functions of `pyssht`: array, `L`, `Spin`, `Method`, `Reality`, `backend`. -/
structure Ssht where
  inverse : Nd ℂ → ℤ → ℤ → PyStr → Bool → PyStr → Except PyErr (Nd ℂ)
  forward : Nd ℂ → ℤ → ℤ → PyStr → Bool → PyStr → Except PyErr (Nd ℂ)
  inverse_adjoint : Nd ℂ → ℤ → ℤ → PyStr → Bool → PyStr → Except PyErr (Nd ℂ)
  forward_adjoint : Nd ℂ → ℤ → ℤ → PyStr → Bool → PyStr → Except PyErr (Nd ℂ)

/-- What `pyssht` computes. `K σ L s l m t p` is the contribution of sample `(t, p)` to coefficient
`(l, m)` in a forward transform; with DH and GL it is the quadrature with weights `w σ L t`. The
adjoint functions exist for MW and MWSS. With `Reality` the spin is zero, signals are read as real
ones, and coefficients of negative order are written but not read. -/
structure SshtContract (S : Ssht) (nodes : ℤ → ℤ → ℝ) (w : Scheme → ℤ → ℤ → ℝ)
    (K : Scheme → ℤ → ℤ → ℤ → ℤ → ℤ → ℤ → ℂ) : Prop where
  kernel_quad : ∀ σ L s l m t p, σ = .dh ∨ σ = .gl →
    K σ L s l m t p = w σ L t * (starRingEnd ℂ) (sYlm s l m (σ.theta nodes L 0 t) (σ.phi L 0 t p))
  kernel_real : ∀ σ L l m t p, K σ L 0 l (-m) t p = (-1) ^ m * (starRingEnd ℂ) (K σ L 0 l m t p)
  inverse : ∀ (σ : Scheme) (L s : ℤ) (reality : Bool) (b : PyStr) (c : ℤ → ℂ), σ ≠ .healpix → 1 ≤ L →
    |s| < L → (reality = true → s = 0) →
    ∃ f, S.inverse (.d1 (L ^ 2) c) L s (sshtMethod σ) reality b
        = .ok (.d2 (σ.rings L 0) (σ.ringLen L 0 0) f) ∧
      ∀ t p, σ.Has L 0 t p → f t p = lmSum |s| L (fun l m =>
        (if reality then realSignal (fun l m => c (sshtInd l m)) l m else c (sshtInd l m))
          * sYlm s l m (σ.theta nodes L 0 t) (σ.phi L 0 t p))
  forward : ∀ (σ : Scheme) (L s : ℤ) (reality : Bool) (b : PyStr) (f : ℤ → ℤ → ℂ), σ ≠ .healpix →
    1 ≤ L → |s| < L → (reality = true → s = 0) →
    ∃ c, S.forward (.d2 (σ.rings L 0) (σ.ringLen L 0 0) f) L s (sshtMethod σ) reality b
        = .ok (.d1 (L ^ 2) c) ∧
      ∀ l m, 0 ≤ l → l < L → |m| ≤ l → c (sshtInd l m) = if l < |s| then 0 else
        gridSum σ L 0 (fun t p => K σ L s l m t p * (if reality then ((f t p).re : ℂ) else f t p))
  inverse_adjoint : ∀ (σ : Scheme) (L s : ℤ) (reality : Bool) (b : PyStr) (f : ℤ → ℤ → ℂ),
    σ = .mw ∨ σ = .mwss → 1 ≤ L → |s| < L → (reality = true → s = 0) →
    ∃ c, S.inverse_adjoint (.d2 (σ.rings L 0) (σ.ringLen L 0 0) f) L s (sshtMethod σ) reality b
        = .ok (.d1 (L ^ 2) c) ∧
      ∀ l m, 0 ≤ l → l < L → |m| ≤ l → c (sshtInd l m) = if l < |s| then 0 else
        gridSum σ L 0 (fun t p =>
          (starRingEnd ℂ) (sYlm s l m (σ.theta nodes L 0 t) (σ.phi L 0 t p))
            * (if reality then ((f t p).re : ℂ) else f t p))
  forward_adjoint : ∀ (σ : Scheme) (L s : ℤ) (reality : Bool) (b : PyStr) (c : ℤ → ℂ),
    σ = .mw ∨ σ = .mwss → 1 ≤ L → |s| < L → (reality = true → s = 0) →
    ∃ f, S.forward_adjoint (.d1 (L ^ 2) c) L s (sshtMethod σ) reality b
        = .ok (.d2 (σ.rings L 0) (σ.ringLen L 0 0) f) ∧
      ∀ t p, σ.Has L 0 t p → f t p = lmSum |s| L (fun l m =>
        (if reality then realSignal (fun l m => c (sshtInd l m)) l m else c (sshtInd l m))
          * (starRingEnd ℂ) (K σ L s l m t p))

/-- The sampling theorems of MW and MWSS: the forward transforms of `pyssht` recover the coefficients
of band-limited signals. -/
def SshtExact (nodes : ℤ → ℤ → ℝ) (K : Scheme → ℤ → ℤ → ℤ → ℤ → ℤ → ℤ → ℂ) : Prop :=
  ∀ (σ : Scheme) (L s l m l' m' : ℤ), σ = .mw ∨ σ = .mwss → 1 ≤ L → |s| ≤ l → l < L → |m| ≤ l →
    |s| ≤ l' → l' < L → |m'| ≤ l' →
    gridSum σ L 0 (fun t p =>
      K σ L s l m t p * sYlm s l' m' (σ.theta nodes L 0 t) (σ.phi L 0 t p))
      = if l = l' ∧ m = m' then 1 else 0

/-- The functions of `healpy`: `map2alm(map, lmax, iter=0)` and `alm2map(alm, lmax, nside)`, with
`L = lmax + 1`. -/
structure Healpy where
  map2alm : Nd ℂ → ℤ → Except PyErr (Nd ℂ)
  alm2map : Nd ℂ → ℤ → ℤ → Except PyErr (Nd ℂ)

/-- The angles of sample `p` of ring `t`. -/
noncomputable def hpTheta (nside t : ℤ) : ℝ := Scheme.theta (fun _ _ => 0) 1 nside t .healpix
noncomputable def hpPhi (nside t p : ℤ) : ℝ := Scheme.phi 1 nside t p .healpix

/-- What `healpy` computes, without ring weights: sums over pixels of equal area for a real map,
and the synthesis of a real map. -/
structure HealpyContract (H : Healpy) : Prop where
  map2alm : ∀ (L nside : ℤ) (f : ℤ → ℂ), 1 ≤ L → 1 ≤ nside →
    (∀ i, 0 ≤ i → i < 12 * nside ^ 2 → (f i).im = 0) →
    ∃ c, H.map2alm (.d1 (12 * nside ^ 2) f) L = .ok (.d1 (L * (L + 1) / 2) c) ∧
      ∀ l m, 0 ≤ m → m ≤ l → l < L → c (healpyInd L l m)
        = 4 * Real.pi / (12 * nside ^ 2) * gridSum .healpix L nside (fun t p =>
          f (ringStart nside t + p) * (starRingEnd ℂ) (sYlm 0 l m (hpTheta nside t) (hpPhi nside t p)))
  alm2map : ∀ (L nside : ℤ) (c : ℤ → ℂ), 1 ≤ L → 1 ≤ nside →
    ∃ f, H.alm2map (.d1 (L * (L + 1) / 2) c) L nside = .ok (.d1 (12 * nside ^ 2) f) ∧
      ∀ t p, Scheme.healpix.Has L nside t p → f (ringStart nside t + p)
        = lmSum 0 L (fun l m => realSignal (fun l m => c (healpyInd L l m)) l m
            * sYlm 0 l m (hpTheta nside t) (hpPhi nside t p))

end S2fft.Spec
