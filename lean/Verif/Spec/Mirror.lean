import Verif.Spec.Grid
import Verif.Spec.WignerExpansion
import Mathlib.Analysis.Complex.Basic

/-!
# Complex conjugates and mirror images of sampled signals

The conjugate of a signal of spin `s` has spin `-s`, and so has its mirror image in the equatorial
plane.
-/

namespace S2fft.Spec

/-- The samples `f'` are the conjugates of the samples `f`. -/
def Conjugates (σ : Scheme) (L nside : ℤ) (f f' : ℤ → ℤ → ℂ) : Prop :=
  ∀ t p, σ.Has L nside t p → f' (σ.pos nside t p).1 (σ.pos nside t p).2
    = (starRingEnd ℂ) (f (σ.pos nside t p).1 (σ.pos nside t p).2)

/-- The coefficients of the conjugate of a signal of spin `s`: `(-1)^(s+m) conj(c_{l,-m})`, orders being
stored in column `m + L - 1`. -/
noncomputable def conjCoeffs (L s : ℤ) (c : ℤ → ℤ → ℂ) : ℤ → ℤ → ℂ :=
  fun l k => (-1) ^ (s + (k - L + 1)) * (starRingEnd ℂ) (c l (2 * L - 2 - k))

/-- The samples `f'` are the samples `f` with the rings in reverse order, from the south to the north
pole. -/
def Mirrored (σ : Scheme) (L nside : ℤ) (f f' : ℤ → ℤ → ℂ) : Prop :=
  ∀ t p, σ.Has L nside t p →
    f' (σ.pos nside (σ.rings L nside - 1 - t) p).1 (σ.pos nside (σ.rings L nside - 1 - t) p).2
      = f (σ.pos nside t p).1 (σ.pos nside t p).2

/-- The coefficients of the mirror image: `(-1)^(l+m) c_{lm}`. -/
noncomputable def mirrorCoeffs (L : ℤ) (c : ℤ → ℤ → ℂ) : ℤ → ℤ → ℂ :=
  fun l k => (-1) ^ (l + (k - L + 1)) * c l k

/-- The samples `f'` on the rotation group are the conjugates of `f`. -/
def ConjugatesSo3 (σ : Scheme) (L N nside : ℤ) (f f' : ℤ → ℤ → ℤ → ℂ) : Prop :=
  ∀ g, 0 ≤ g → g < 2 * N - 1 → Conjugates σ L nside (f g) (f' g)

/-- The coefficients of the conjugate: `(-1)^(m+n) conj(c_{-n,l,-m})`, directions being stored in plane
`n + N - 1`. -/
noncomputable def conjWigner (L N : ℤ) (c : ℤ → ℤ → ℤ → ℂ) : ℤ → ℤ → ℤ → ℂ :=
  fun i l k => (-1) ^ ((i - N + 1) + (k - L + 1)) * (starRingEnd ℂ) (c (2 * N - 2 - i) l (2 * L - 2 - k))

/-- `f'(α, β, γ) = f(α, π - β, -γ)`: the rings and the planes but the first are in reverse order. -/
def MirroredSo3 (σ : Scheme) (L N nside : ℤ) (f f' : ℤ → ℤ → ℤ → ℂ) : Prop :=
  ∀ g, 0 ≤ g → g < 2 * N - 1 → Mirrored σ L nside (f g) (f' (-g % (2 * N - 1)))

/-- The coefficients of the mirror image: `(-1)^(l+m) c_{-n,l,m}`. -/
noncomputable def mirrorWigner (L N : ℤ) (c : ℤ → ℤ → ℤ → ℂ) : ℤ → ℤ → ℤ → ℂ :=
  fun i l k => (-1) ^ (l + (k - L + 1)) * c (2 * N - 2 - i) l k

end S2fft.Spec
